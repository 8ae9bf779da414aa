import Verif.Model.LeastSq

/-! `lasso_regression` of CommDspy/misc/least_squares.py with scikit-learn's solver as a parameter. -/

namespace Verif

open Matrix

variable {K : Type} [Field K] [LinearOrder K] {m n : Nat}

/-- CommDspy/misc/least_squares.py 52-64 `lasso_regression(a_mat, b, reg_lambda)`; `fit` gives the coefficients `coef_` of
`sklearn.linear_model.Lasso(alpha=reg_lambda).fit(a_mat, b)`. scikit-learn rejects a negative `alpha` and data without rows or
columns (ValueError). The sum of squares of line 63 leaves the intercept of the model out. -/
def lassoSk (fit : Matrix (Fin m) (Fin n) K → (Fin m → K) → K → (Fin n → K)) (A : Matrix (Fin m) (Fin n) K) (b : Fin m → K)
    (lam : K) : Py (LsOut K n) :=
  if m = 0 ∨ n = 0 ∨ lam < 0 then .error .valueError
  else
    let x := fit A b lam
    .ok (x, ssr A b x)

end Verif
