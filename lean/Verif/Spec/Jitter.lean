import Mathlib.Algebra.Polynomial.Eval.Defs
import Mathlib.Algebra.Polynomial.Degree.Defs
import Mathlib.Data.Real.Basic

/-! What is used about a cubic interpolation through at least four nodes. -/

namespace Verif.Spec

/-- `f t y` is a function through the points `(t i, y i)`; data taken from a polynomial of degree at
most three is continued by this polynomial everywhere. -/
structure IsCubicInterp (f : List ℝ → List ℝ → ℝ → ℝ) : Prop where
  nodes : ∀ t y : List ℝ, t.Pairwise (· < ·) → t.length = y.length → 4 ≤ t.length →
    ∀ i < t.length, f t y (t.getD i 0) = y.getD i 0
  cubic : ∀ (t : List ℝ) (q : Polynomial ℝ), t.Pairwise (· < ·) → 4 ≤ t.length → q.natDegree ≤ 3 →
    ∀ x, f t (t.map (fun u => q.eval u)) x = q.eval x

end Verif.Spec
