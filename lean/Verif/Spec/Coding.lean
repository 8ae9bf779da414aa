import Mathlib.Data.Int.ModEq

/-! Independent specifications for the line codes. -/

namespace Verif.Spec

/-- position `a` carries a mark whose nearest mark on one side (spaces, i.e. value 1, are skipped)
has the same value -/
def SameNeighbour (p : List Int) (a : ℕ) : Prop :=
  ∃ b, b < p.length ∧ b ≠ a ∧ p.getD b 0 = p.getD a 0 ∧
    ∀ c, (a < c ∧ c < b) ∨ (b < c ∧ c < a) → p.getD c 0 = 1

/-- the documented MLT-3 level cycle 0,1,2,1 -/
def mlt3Cycle (n : ℕ) : Int := [0, 1, 2, 1].getD (n % 4) 0

/-- `y` is the output of the documented differential coder: `y_n = (x_n + y_{n-1}) mod m`, `y_{-1} = 0` -/
def DiffRecurrence (m : Int) (x y : List Int) : Prop :=
  y.length = x.length ∧ ∀ n, n < x.length →
    y.getD n 0 = (x.getD n 0 + (if n = 0 then 0 else y.getD (n - 1) 0)) % m

end Verif.Spec
