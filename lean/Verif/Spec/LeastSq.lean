import Mathlib.Algebra.BigOperators.Group.Finset.Basic
import Mathlib.Algebra.Order.Field.Basic
import Mathlib.Data.Matrix.Mul

/-! Independent specification of (regularised) least squares. -/

open Finset

namespace Verif.Spec

variable {K : Type} [Field K] [LinearOrder K] {m n : ℕ}

/-- `||A x - b||² + λ ||x||²` -/
def ridgeCost (A : Fin m → Fin n → K) (b : Fin m → K) (lam : K) (x : Fin n → K) : K :=
  ∑ i, (∑ j, A i j * x j - b i) ^ 2 + lam * ∑ j, x j ^ 2

/-- `c ||A x - b||² + λ ||x||₁` -/
def lassoCost (c : K) (A : Fin m → Fin n → K) (b : Fin m → K) (lam : K) (x : Fin n → K) : K :=
  c * ∑ i, (∑ j, A i j * x j - b i) ^ 2 + lam * ∑ j, |x j|

/-- ridge regression with a free constant: `||A x + c - b||² + λ ||x||²` -/
def interceptCost (A : Fin m → Fin n → K) (b : Fin m → K) (lam : K) (x : Fin n → K) (c : K) : K :=
  ∑ i, (∑ j, A i j * x j + c - b i) ^ 2 + lam * ∑ j, x j ^ 2

/-- `x` is a minimiser / the only minimiser of `f` -/
def IsMinimiser (f : (Fin n → K) → K) (x : Fin n → K) : Prop := ∀ y, f x ≤ f y
def IsUniqueMinimiser (f : (Fin n → K) → K) (x : Fin n → K) : Prop := ∀ y, y ≠ x → f x < f y

/-- The Moore-Penrose conditions characterising the pseudo-inverse. -/
structure IsPinv (A : Matrix (Fin m) (Fin n) K) (P : Matrix (Fin n) (Fin m) K) : Prop where
  apa : A * P * A = A
  pap : P * A * P = P
  ap_symm : (A * P).transpose = A * P
  pa_symm : (P * A).transpose = P * A

/-- full column rank: only the zero combination of the columns vanishes -/
def FullColumnRank (A : Fin m → Fin n → K) : Prop := ∀ x : Fin n → K, (∀ i, ∑ j, A i j * x j = 0) → x = 0

end Verif.Spec
