import Mathlib.Analysis.SpecialFunctions.Integrals.Basic

/-! Mean over an input spread evenly over an interval; written without the quantizer. -/

namespace Verif.Spec

/-- expectation of `f x` for `x` uniformly distributed between `a` and `b` -/
noncomputable def uniformMean (a b : ℝ) (f : ℝ → ℝ) : ℝ := (∫ x in a..b, f x) / (b - a)

/-- expectation of `h c` when the code `c` takes all values `lo..hi` equally often -/
noncomputable def codeMean (lo hi : ℤ) (h : ℤ → ℝ) : ℝ :=
  (∑ c ∈ Finset.Icc lo hi, h c) / (hi - lo + 1)

end Verif.Spec
