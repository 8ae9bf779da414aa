import Verif.Model.Slicer

/-! Independent specification of nearest-level decisions and of the fixed-point ranges. -/

namespace Verif.Spec

/-- `y` is the level nearest to `x`; among equally near levels the first one in the list. -/
def NearestFirst {K : Type} [Field K] [LinearOrder K] (levels : List K) (x y : K) : Prop :=
  ∃ i, ∃ hi : i < levels.length, y = levels[i] ∧ (∀ l ∈ levels, |x - y| ≤ |x - l|) ∧
    ∀ j (hj : j < i), |x - y| < |x - levels[j]'(Nat.lt_trans hj hi)|

/-- smallest and largest code of a `t`-bit fixed-point number: unsigned -/
def unsignedRange (t : ℕ) : ℤ × ℤ := (0, 2 ^ t - 1)
/-- two's complement -/
def signedRange (t : ℕ) : ℤ × ℤ := (-2 ^ (t - 1), 2 ^ (t - 1) - 1)
/-- sign-magnitude (symmetric) -/
def symmetricRange (t : ℕ) : ℤ × ℤ := (-(2 ^ (t - 1) - 1), 2 ^ (t - 1) - 1)

/-- code range of a documented type, from the specification -/
def codeRange (t : ℕ) : FixType → Option (ℤ × ℤ)
  | .u => some (unsignedRange t)
  | .s => some (signedRange t)
  | .ss => some (symmetricRange t)
  | .other => none

end Verif.Spec
