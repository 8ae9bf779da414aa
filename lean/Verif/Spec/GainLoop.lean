import Mathlib.Analysis.SpecialFunctions.Pow.NNReal
import Verif.Spec.Lms
import Verif.Spec.Slicer

/-!
Specification of the control loops of a receiver. Gain control: after every block the gain is moved by `c` times the
difference between the wanted power `L` and the power of the amplified block. Clock recovery: after every block the sampling
phase moves by one step in the direction of the timing error, and recovery ends when the error is small.
-/

namespace Verif.Spec

/-- `g` follows the gain control for blocks of power `P k` before the gain -/
def FollowsGain (c L : ℝ) (P g : ℕ → ℝ) (n : ℕ) : Prop :=
  ∀ k, k < n → g (k + 1) = g k + c * (L - g k ^ 2 * P k)

/-- mean of the squares -/
noncomputable def meanSq (l : List ℝ) : ℝ := (∑ i ∈ Finset.range l.length, l.getD i 0 ^ 2) / l.length

/-- One block `y` of a receiver with both loops, running or not: gain `g`, phase `ph` of `osr`; the primed values hold
afterwards. -/
def LoopStep (levels : List ℝ) (osr : ℕ) (y : List ℝ) (g g' : ℝ) (ph ph' : ℤ) (run run' : Bool) : Prop :=
  ∃ (r : List ℝ) (e : ℝ), r.length = y.length ∧
    (∀ i, i < y.length → NearestFirst levels (g * y.getD i 0) (r.getD i 0)) ∧
    e = timingError y.length (fun k => y.getD k 0) (fun k => r.getD k 0) 1 1 ∧
    (run = false → g' = g ∧ ph' = ph ∧ run' = false) ∧
    (run = true → g' = g + 25 / 256 * (meanSq levels - g ^ 2 * meanSq y) ∧
      (|e| < 1 / 1000 → ph' = ph ∧ run' = false) ∧
      (1 / 1000 ≤ e → ph' = (ph + 1) % osr ∧ run' = true) ∧
      (e ≤ -(1 / 1000) → ph' = (ph - 1) % osr ∧ run' = true))

end Verif.Spec
