import Mathlib.Probability.Distributions.Gaussian.Real

/-! The tail of the standard normal distribution. -/

namespace Verif.Spec

/-- `Q(t)`: the probability that a standard normal variable exceeds `t` -/
noncomputable def qFunc (t : ℝ) : ℝ := (ProbabilityTheory.gaussianReal 0 1).real (Set.Ioi t)

/-- how many neighbours symbol `k` has on a grid of `M` levels -/
def gridNeighbours (M : ℕ) (k : ℤ) : ℕ := (if k = 0 then 0 else 1) + (if k = M - 1 then 0 else 1)

end Verif.Spec
