import Mathlib.Data.Int.ModEq

/-! Independent specifications for bit/symbol conversion and Gray numbering. -/

namespace Verif.Spec

/-- all entries are 0 or 1 -/
def IsBinary (l : List Int) : Prop := ∀ x ∈ l, x = 0 ∨ x = 1

/-- little-endian value of a bit list -/
def leVal : List Int → Int
  | [] => 0
  | b :: bs => b + 2 * leVal bs

/-- two numbers differ in exactly one binary digit -/
def OneBitApart (a b : ℕ) : Prop := ∃ k, a ^^^ b = 2 ^ k

end Verif.Spec
