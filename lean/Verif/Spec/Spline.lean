import Mathlib.Algebra.Polynomial.Eval.Defs
import Mathlib.Algebra.Polynomial.Degree.Defs
import Mathlib.Analysis.Calculus.ContDiff.Defs
import Mathlib.Analysis.RCLike.Basic

/-! The cubic interpolating spline with the "not-a-knot" end condition. -/

namespace Verif.Spec
open Polynomial

/-- `f` is the interpolation that the documentation of SciPy describes for `kind='cubic'`: a spline of degree three, that is
twice continuously differentiable, through all points `(t i, y i)`, and equal to a polynomial of degree at most three
between neighbouring knots. The knots are all nodes except the first two and the last two; the outermost polynomials also
extrapolate. -/
structure IsNotAKnot (t y : List ℝ) (f : ℝ → ℝ) : Prop where
  smooth : ContDiff ℝ 2 f
  nodes : ∀ i < t.length, f (t.getD i 0) = y.getD i 0
  pieces : ∀ a b : ℝ, a < b → (∀ i, 2 ≤ i → i + 3 ≤ t.length → t.getD i 0 ∉ Set.Ioo a b) →
    ∃ q : ℝ[X], q.natDegree ≤ 3 ∧ ∀ x ∈ Set.Icc a b, f x = q.eval x

/-- an interpolation that is this spline for all strictly increasing nodes -/
def IsSplineInterp (f : List ℝ → List ℝ → ℝ → ℝ) : Prop :=
  ∀ t y : List ℝ, t.Pairwise (· < ·) → t.length = y.length → 4 ≤ t.length → IsNotAKnot t y (f t y)

end Verif.Spec
