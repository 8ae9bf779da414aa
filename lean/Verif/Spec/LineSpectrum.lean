import Mathlib.Analysis.SpecialFunctions.Trigonometric.Basic
import Mathlib.Algebra.BigOperators.Fin

/-! Independent specification of the statistics of coded random data: independent, equally likely bits, means over all bit vectors and
the expected periodogram. -/

namespace Verif.Spec

/-- a bit vector as the integers the coders take -/
def bitsOf {N : ℕ} (f : Fin N → Bool) : List Int := List.ofFn fun i => if f i then 1 else 0

/-- a symbol vector as the integers the coders take -/
def symbolsOf {N m : ℕ} (v : Fin N → Fin m) : List Int := List.ofFn fun i => (v i : Int)

/-- mean over all bit vectors of length `N` -/
noncomputable def coinMean (N : ℕ) (F : (Fin N → Bool) → ℝ) : ℝ := (∑ f, F f) / 2 ^ N

/-- the `j`-th coded element relative to the middle level `mid` -/
noncomputable def fromMid (mid : ℝ) (c : List Int) (j : ℕ) : ℝ := (c.getD j 0 : ℝ) - mid

/-- squared magnitude of the Fourier sum of the first `n` samples at angular frequency `ω` per sample -/
noncomputable def periodogram (x : ℕ → ℝ) (n : ℕ) (ω : ℝ) : ℝ :=
  (∑ j ∈ Finset.range n, x j * Real.cos (ω * j)) ^ 2 + (∑ j ∈ Finset.range n, x j * Real.sin (ω * j)) ^ 2

end Verif.Spec
