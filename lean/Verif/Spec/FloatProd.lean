import Mathlib.Data.Real.Basic

/-! Products in an arithmetic that rounds. -/

namespace Verif.Spec

/-- `s` is a possible result of the product of the list in an arithmetic that rounds by `r`: any order of the factors, any order of
the multiplications. -/
inductive RoundedProd (r : ℝ → ℝ) : List ℝ → ℝ → Prop
  | nil : RoundedProd r [] 1
  | single (a : ℝ) : RoundedProd r [a] a
  | mul (l m : List ℝ) (s t : ℝ) (hl : l ≠ []) (hm : m ≠ []) (h1 : RoundedProd r l s) (h2 : RoundedProd r m t) :
      RoundedProd r (l ++ m) (r (s * t))
  | perm (l m : List ℝ) (s : ℝ) (hp : l.Perm m) (h : RoundedProd r l s) : RoundedProd r m s

/-- `x'` is `x` up to `k` rounding errors of relative size `u` -/
def Near (u : ℝ) (k : ℕ) (x' x : ℝ) : Prop := |x' - x| ≤ ((1 + u) ^ k - 1) * |x|

end Verif.Spec
