import Mathlib.Data.Int.Log
import Mathlib.Algebra.Order.Archimedean.Real.Basic
import Mathlib.Algebra.Group.Even
import Mathlib.Algebra.Order.Floor.Ring

/-! Binary floating-point arithmetic with `p` significant bits and unbounded exponent: IEEE 754 binary64 is
`p = 53` as long as no result overflows or falls below the normal range. -/

namespace Verif.Spec

/-- nearest integer, ties to even -/
noncomputable def roundHalfEven (x : ℝ) : ℤ :=
  if Int.fract x < 1 / 2 then ⌊x⌋
  else if 1 / 2 < Int.fract x then ⌊x⌋ + 1
  else if Even ⌊x⌋ then ⌊x⌋ else ⌊x⌋ + 1

/-- distance of adjacent `p`-bit numbers in the binade of `x` -/
noncomputable def ulp (p : ℕ) (x : ℝ) : ℝ := 2 ^ (Int.log 2 |x| + 1 - p)

/-- rounding to nearest, ties to even -/
noncomputable def fl (p : ℕ) (x : ℝ) : ℝ := roundHalfEven (x / ulp p x) * ulp p x

/-- `s` is a possible result of the scalar product `sum a b` over the pairs of the list in an arithmetic
that rounds by `r`: any order of the terms, any order of the additions, with or without fused
multiply-add. -/
inductive RoundedDot (r : ℝ → ℝ) : List (ℝ × ℝ) → ℝ → Prop
  | nil : RoundedDot r [] 0
  | prod (a b : ℝ) : RoundedDot r [(a, b)] (r (a * b))
  | add (l m : List (ℝ × ℝ)) (s t : ℝ) (hl : l ≠ []) (hm : m ≠ []) (h1 : RoundedDot r l s) (h2 : RoundedDot r m t) :
      RoundedDot r (l ++ m) (r (s + t))
  | fma (a b : ℝ) (l : List (ℝ × ℝ)) (s : ℝ) (h : RoundedDot r l s) : RoundedDot r ((a, b) :: l) (r (a * b + s))
  | perm (l m : List (ℝ × ℝ)) (s : ℝ) (hp : l.Perm m) (h : RoundedDot r l s) : RoundedDot r m s

end Verif.Spec
