import Mathlib.Analysis.Real.Sqrt
import Mathlib.Algebra.BigOperators.Group.Finset.Basic

/-! Accuracy of training in rounded arithmetic. -/

open Finset

namespace Verif.Spec

/-- Euclidean distance of two settings of `L` taps -/
noncomputable def tapGap (L : ℕ) (t z : List ℝ) : ℝ := Real.sqrt (∑ i ∈ range L, (t.getD i 0 - z.getD i 0) ^ 2)

/-- sum of the magnitudes of `L` taps -/
def tapSize (L : ℕ) (t : List ℝ) : ℝ := ∑ i ∈ range L, |t.getD i 0|

/-- rounding error of a tap in one pass over `N` samples with `L` taps of total magnitude `S`, samples up to `A`, symbols up to `B`,
learning rate `mu` and rounding unit `u` -/
noncomputable def passError (u : ℝ) (N L : ℕ) (S A B mu : ℝ) : ℝ :=
  u * S + ((1 + u) ^ (N + L + 5) - 1) * ((S * A + B) * A * mu / 2)

/-- rounding error of the mean squared error reported by such a pass -/
noncomputable def lossError (u : ℝ) (N L : ℕ) (S A B : ℝ) : ℝ := ((1 + u) ^ (N + 2 * L + 3) - 1) * (S * A + B) ^ 2

end Verif.Spec
