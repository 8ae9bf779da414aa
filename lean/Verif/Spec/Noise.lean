import Mathlib.Analysis.SpecialFunctions.Pow.Real

/-! Independent specification of signal powers (time indexed signals). -/

open Finset

namespace Verif.Spec

/-- average, mean power, and unbiased variance of `N` samples -/
noncomputable def avg (N : ℕ) (x : ℕ → ℝ) : ℝ := (∑ n ∈ range N, x n) / N
noncomputable def meanPower (N : ℕ) (x : ℕ → ℝ) : ℝ := (∑ n ∈ range N, x n ^ 2) / N
noncomputable def unbiasedVar (N : ℕ) (x : ℕ → ℝ) : ℝ := (∑ n ∈ range N, (x n - avg N x) ^ 2) / (N - 1)

end Verif.Spec
