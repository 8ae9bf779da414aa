import Mathlib.Algebra.BigOperators.Group.Finset.Basic
import Mathlib.Algebra.BigOperators.Intervals
import Mathlib.Algebra.Field.Basic

/-! Independent specification of linear filters: signals are functions of an integer time. -/

open Finset

namespace Verif.Spec

variable {F : Type*} [Field F]

/-- The signal that is `l` from time 0 on and `h` before (`h[0]` at time -1, `h[1]` at time -2, ...),
zero elsewhere. -/
def withPast (h l : List F) (t : ℤ) : F :=
  if 0 ≤ t then l.getD t.toNat 0 else h.getD (-t - 1).toNat 0

/-- The difference equation of the filter `(b, a)` at time `n`:
`a[0] y[n] = Σ_{i} b[i] x[n-i] - Σ_{j≥1} a[j] y[n-j]`. -/
def DiffEq (b a : List F) (x y : ℤ → F) (n : ℤ) : Prop :=
  a.getD 0 0 * y n = ∑ i ∈ range b.length, b.getD i 0 * x (n - i)
    - ∑ j ∈ Ico 1 a.length, a.getD j 0 * y (n - j)

end Verif.Spec
