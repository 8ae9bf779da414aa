import Verif.Spec.GaussTail
import Mathlib.Algebra.BigOperators.Ring.Finset

/-! Independent specification of a feed-forward equalizer working on a noisy record. -/

open Finset

namespace Verif.Spec

/-- the sample `k` symbols before symbol `n`, zero before the record -/
def pastSample (y : List ℝ) (n k : ℕ) : ℝ := if k ≤ n then y.getD (n - k) 0 else 0

/-- output of the equalizer with taps `t` for symbol `n` -/
noncomputable def tapOut (y t : List ℝ) (n : ℕ) : ℝ := ∑ k ∈ range t.length, t.getD k 0 * pastSample y n k

/-- sum of the squares of the taps that see the record at symbol `n` -/
noncomputable def tapGain (t : List ℝ) (n : ℕ) : ℝ := ∑ k ∈ range t.length, if k ≤ n then t.getD k 0 ^ 2 else 0

/-- probability of a wrong decision between `M` levels in distance `d` when level `k` was sent, the noise-free input of the
slicer is off by `δ` and the noise has standard deviation `σ`: one term per neighbouring level -/
noncomputable def decisionError (M k : ℕ) (d δ σ : ℝ) : ℝ :=
  (if k = 0 then 0 else qFunc ((d / 2 + δ) / σ)) + (if k = M - 1 then 0 else qFunc ((d / 2 - δ) / σ))

/-- mean squared error on a noise-free record plus the noise passed by the taps -/
noncomputable def noisyMse (x d t : List ℝ) (s : ℝ) : ℝ :=
  (∑ n ∈ range x.length, ((tapOut x t n - d.getD n 0) ^ 2 + s ^ 2 * tapGain t n)) / x.length

end Verif.Spec
