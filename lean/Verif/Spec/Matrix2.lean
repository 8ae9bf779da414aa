import Mathlib.Data.List.Basic

/-! 2-D arrays as lists of rows. -/

namespace Verif.Spec

/-- all rows have `w` elements -/
def Mat {α : Type} (w : ℕ) (m : List (List α)) : Prop := ∀ r ∈ m, r.length = w

/-- element in row `r`, column `k` -/
def entry (m : List (List Int)) (r k : ℕ) : Int := (m.getD r []).getD k 0

/-- the elements of `m` are bits -/
def BinMat (m : List (List Int)) : Prop := ∀ r ∈ m, ∀ x ∈ r, x = 0 ∨ x = 1

end Verif.Spec
