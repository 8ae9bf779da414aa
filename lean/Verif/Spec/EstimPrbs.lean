import Verif.Spec.Estim
import Verif.Model.Symbol
import Mathlib.Analysis.Real.Sqrt
import Mathlib.Algebra.BigOperators.Field

/-! Independent specification of the transmitted reference and of the channel for the PRBS based estimators. Only the
name of the constellation is taken from the model. -/

open Finset

namespace Verif.Spec

/-- factor which gives the levels a mean power of one -/
noncomputable def unitScale (c : Constellation) (fullScale : Bool) : ℝ :=
  if fullScale then
    match c with
    | .nrz => 1
    | .ook => 1 / Real.sqrt (1 / 2)
    | .pam3 => 1 / Real.sqrt (2 / 3)
    | .pam4 => 1 / Real.sqrt 5
  else 1

/-- a bit, inverted if `flip` -/
def flipBit (flip : Bool) (b : ℤ) : ℤ := if flip then 1 - b else b

/-- Level sent at symbol time `t` for the bit stream `b`: one bit per symbol for NRZ and OOK. For PAM4 the bits `2t` (low)
and `2t+1` (high), exchanged by `bitOrderInv`; the high bit has weight two, with Gray coding the low bit is replaced by
the exclusive or of both. `pnPre` inverts bits, `pnPost` inverts the level. -/
noncomputable def txLevel (c : Constellation) (fullScale bitOrderInv pnPre gray pnPost : Bool) (b : ℕ → ℤ) (t : ℕ) : ℝ :=
  (if pnPost then -1 else 1) * unitScale c fullScale *
    (match c with
    | .nrz => 2 * (flipBit pnPre (b t) : ℝ) - 1
    | .ook => (flipBit pnPre (b t) : ℝ)
    | .pam3 => 0
    | .pam4 =>
      let lo := flipBit pnPre (if bitOrderInv then b (2 * t + 1) else b (2 * t))
      let hi := flipBit pnPre (if bitOrderInv then b (2 * t) else b (2 * t + 1))
      2 * (2 * (hi : ℝ) - 1) + (2 * (if gray then (lo + hi) % 2 else lo : ℤ) - 1))

/-- the levels repeated with period `n` in both directions -/
def periodic (n : ℕ) (x : ℕ → ℝ) (t : ℤ) : ℝ := x (t % n).toNat

/-- response at time `t` of the FIR channel `h`, of which `pre` taps are precursors, to the symbols `x` -/
def chanOut (h : List ℝ) (pre : ℕ) (x : ℤ → ℝ) (t : ℤ) : ℝ :=
  ∑ k ∈ range h.length, h.getD k 0 * x (t + pre - k)

/-- variance of the first `n` samples -/
noncomputable def popVar (n : ℕ) (s : ℕ → ℝ) : ℝ :=
  (∑ t ∈ range n, (s t - (∑ r ∈ range n, s r) / n) ^ 2) / n

/-- average of sample `t` over the `reps` complete periods of length `n` -/
noncomputable def periodAvg (n reps : ℕ) (s : ℕ → ℝ) (t : ℕ) : ℝ := (∑ r ∈ range reps, s (r * n + t)) / reps

/-- phase at which the symbols `x` correlate best with the first `len` samples -/
def BestPhase (x : ℤ → ℝ) (s : ℕ → ℝ) (len : ℕ) (ph : ℤ) : Prop :=
  ∀ k : ℤ, ∑ i ∈ range len, x (i + k) * s i ≤ ∑ i ∈ range len, x (i + ph) * s i

/-- Equalizer output at symbol time `t`: FFE with `pre` precursor taps on the samples `s`, minus the DFE on the previous
symbols `a` -/
def eqAt (f d : List ℝ) (pre : ℕ) (s a : ℤ → ℝ) (t : ℤ) : ℝ :=
  ∑ k ∈ range f.length, f.getD k 0 * s (t + pre - k) - ∑ k ∈ range d.length, d.getD k 0 * a (t - 1 - k)

/-- the main tap is positive and exceeds all others; for four levels by a factor of 11/3 in magnitude -/
def MainTap (c : Constellation) (h : List ℝ) (pre : ℕ) : Prop :=
  0 < h.getD pre 0 ∧ ∀ k < h.length, k ≠ pre →
    if c = .pam4 then 11 * |h.getD k 0| < 3 * h.getD pre 0 else h.getD k 0 < h.getD pre 0

end Verif.Spec
