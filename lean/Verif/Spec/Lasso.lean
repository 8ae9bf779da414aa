import Verif.Spec.LeastSq

/-! What scikit-learn documents for `Lasso(alpha)`, and the objective that CommDspy documents. -/

open Finset

namespace Verif.Spec

variable {K : Type} [Field K] [LinearOrder K] {m n : ℕ}

/-- scikit-learn: `(1/(2 n_samples)) ||y - X w - c||² + alpha ||w||₁` with the intercept `c` (`fit_intercept=True`) -/
def skLassoCost (A : Fin m → Fin n → K) (b : Fin m → K) (alpha : K) (x : Fin n → K) (c : K) : K :=
  1 / (2 * (m : K)) * ∑ i, (∑ j, A i j * x j + c - b i) ^ 2 + alpha * ∑ j, |x j|

/-- `x` are the coefficients of a minimiser, up to `eps` in the objective -/
def IsLassoFit (eps : K) (A : Fin m → Fin n → K) (b : Fin m → K) (alpha : K) (x : Fin n → K) : Prop :=
  ∃ c, ∀ y d, skLassoCost A b alpha x c ≤ skLassoCost A b alpha y d + eps

end Verif.Spec
