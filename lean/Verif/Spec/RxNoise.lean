import Mathlib.Algebra.BigOperators.Group.Finset.Basic
import Mathlib.Data.Real.Basic

/-! Quantities of the timing estimate and of the pattern lock that decide what noise does to them. -/

open Finset

namespace Verif.Spec

/-- squared distance of the period of a pattern seen from phase `φ` to the one seen from phase `k` -/
def phaseDistance (pat : List ℝ) (φ k : ℕ) : ℝ :=
  ∑ i ∈ range pat.length, (pat.getD ((φ + i) % pat.length) 0 - pat.getD ((k + i) % pat.length) 0) ^ 2

/-- what the noise sample `m` of `N` is multiplied with in the Mueller-Muller timing error of the symbols `r` -/
noncomputable def timingWeight (N : ℕ) (r : ℕ → ℝ) (preW postW : ℝ) (m : ℕ) : ℝ :=
  ((if 0 < m then postW * r (m - 1) else 0) - if m + 1 < N then preW * r (m + 1) else 0) / ((N : ℝ) - 1)

end Verif.Spec
