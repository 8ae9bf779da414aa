import Mathlib.Algebra.Order.Field.Basic
import Mathlib.Algebra.BigOperators.Group.Finset.Basic

/-! Specification of an inexact correlation routine. -/

namespace Verif.Spec

/-- `cor` computes the sliding correlations `sum_l a[k+l] * v[l]` of arrays with at least as many elements
in `a` as in `v`, each up to the absolute error `δ` -/
def CorrelatesWithin {K : Type} [Field K] [LinearOrder K] (cor : List K → List K → List K) (δ : K) (a v : List K) : Prop :=
  (cor a v).length = a.length - v.length + 1 ∧ ∀ k, k ≤ a.length - v.length →
    |(cor a v).getD k 0 - ∑ l ∈ Finset.range v.length, a.getD (k + l) 0 * v.getD l 0| ≤ δ

/-- different levels of the pattern are at least `d` apart -/
def LevelDistance {K : Type} [Field K] [LinearOrder K] (d : K) (pat : List K) : Prop :=
  ∀ x ∈ pat, ∀ y ∈ pat, x ≠ y → d ≤ |x - y|

end Verif.Spec
