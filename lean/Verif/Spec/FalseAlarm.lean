import Verif.Spec.BlockRate

/-! Independent specification of how often a randomized test accepts: the test draws error positions, each of `n` positions
independently with probability `p`, and a number below `M` uniformly. -/

namespace Verif.Spec

/-- the mask with `true` at the positions in `S` -/
def maskOf (n : ℕ) (S : Finset (Fin n)) : List Bool := List.ofFn fun j : Fin n => decide (j ∈ S)

open Classical in
/-- probability that the drawn mask and number satisfy `A` -/
noncomputable def drawProb (n M : ℕ) (p : ℝ) (A : List Bool → ℕ → Prop) : ℝ :=
  (∑ s ∈ Finset.range M, ∑ S : Finset (Fin n), if A (maskOf n S) s then flipProb n p S else 0) / M

end Verif.Spec
