import Verif.Model.Basic
import Mathlib.LinearAlgebra.Matrix.Adjugate
import Mathlib.Algebra.Order.Field.Basic
import Mathlib.Data.Matrix.Mul

/-!
Model of CommDspy/misc/least_squares.py in exact arithmetic over an ordered field. A matrix of shape `(m, n)` is a
`Matrix (Fin m) (Fin n)`, so that shape mismatches cannot be written down; NumPy raises ValueError for them.
The external solvers (`numpy.linalg.lstsq`, `numpy.linalg.pinv`, `sklearn` Lasso) are parameters; the theorems
assume of them what their documentation promises.
-/

namespace Verif

open Matrix

variable {K : Type} [Field K] [LinearOrder K] {m n : Nat}

/-- A least squares result: the coefficients and the sum of squared residuals. -/
abbrev LsOut (K : Type) (n : Nat) := (Fin n → K) × K

/-- `np.sum(np.power(a_mat @ x_hat - b, 2))` (lines 49, 63, 74, 85, 127) -/
def ssr (A : Matrix (Fin m) (Fin n) K) (b : Fin m → K) (x : Fin n → K) : K :=
  ∑ i, ((A *ᵥ x) i - b i) ^ 2

/-- `np.linalg.inv`: LinAlgError, a subclass of ValueError, for a singular matrix. Exact arithmetic: NumPy
factorises in float64 and detects only exactly singular factors. -/
def npInv (M : Matrix (Fin n) (Fin n) K) : Py (Matrix (Fin n) (Fin n) K) :=
  if M.det = 0 then .error .valueError else .ok (M.det⁻¹ • M.adjugate)

/-- CommDspy/misc/least_squares.py 66-75 `ols_manual(a_mat, b)`; `pinv` is `np.linalg.pinv(a_mat)` -/
def olsManual (pinv : Matrix (Fin n) (Fin m) K) (A : Matrix (Fin m) (Fin n) K) (b : Fin m → K) : LsOut K n :=
  let x := pinv *ᵥ b
  (x, ssr A b x)

/-- CommDspy/misc/least_squares.py 77-86 `ridge_regression_manual(a_mat, b, reg_lambda)` -/
def ridgeManual (A : Matrix (Fin m) (Fin n) K) (b : Fin m → K) (lam : K) : Py (LsOut K n) := do
  let inv ← npInv (Aᵀ * A + lam • (1 : Matrix (Fin n) (Fin n) K))
  let x := (inv * Aᵀ) *ᵥ b
  return (x, ssr A b x)

/-- column means of a matrix -/
def colMean (A : Matrix (Fin m) (Fin n) K) (j : Fin n) : K := (∑ i, A i j) / m

/-- the matrix with its column means subtracted -/
def centred (A : Matrix (Fin m) (Fin n) K) : Matrix (Fin m) (Fin n) K := Matrix.of fun i j => A i j - colMean A j

/-- the vector with its mean subtracted -/
def centredVec (b : Fin m → K) (i : Fin m) : K := b i - (∑ k, b k) / m

/-- CommDspy/misc/least_squares.py 38-50 `ridge_regression(a_mat, b, reg_lambda)`. `sklearn.linear_model.Ridge(alpha)`
fits an intercept by default: `coef_` is the ridge solution of the centred data. The sum of squares of line 49
leaves the intercept out. Simplified: sklearn's default solver is the normal equations; for `alpha = 0` and a
singular matrix it falls back to a different solver, which is not modelled (ValueError here). -/
def ridgeSk (A : Matrix (Fin m) (Fin n) K) (b : Fin m → K) (lam : K) : Py (LsOut K n) := do
  let r ← ridgeManual (centred A) (centredVec b) lam
  return (r.1, ssr A b r.1)

/-- The regularization argument: the three documented strings or any other one. -/
inductive Reg where
  | none | ridge | lasso | other
deriving DecidableEq

/-- CommDspy/misc/least_squares.py 9-27 `least_squares(a_mat, b, regularization, reg_lambda)`; `ols` is lines 29-36
and `lasso` lines 52-64 (external solvers). -/
def leastSquares (ols : Matrix (Fin m) (Fin n) K → (Fin m → K) → Py (LsOut K n))
    (lasso : Matrix (Fin m) (Fin n) K → (Fin m → K) → K → Py (LsOut K n))
    (A : Matrix (Fin m) (Fin n) K) (b : Fin m → K) (reg : Reg) (lam : K) : Py (LsOut K n) :=
  match reg with
  | .none => ols A b
  | .ridge => ridgeSk A b lam
  | .lasso => lasso A b lam
  | .other => .error .valueError

/-- `np.sign` -/
def signOf (x : K) : K := if x < 0 then -1 else if x = 0 then 0 else 1

/-- CommDspy/misc/least_squares.py 112: the gradient; `around` is `np.around(., decimals=4)` -/
def lassoGrad (around : K → K) (A : Matrix (Fin m) (Fin n) K) (b : Fin m → K) (lam : K) (w : Fin n → K)
    (j : Fin n) : K :=
  (-1 / (n : K)) * (Aᵀ *ᵥ (fun i => b i - (A *ᵥ w) i)) j + lam * signOf (around (w j))

/-- CommDspy/misc/least_squares.py 116: one update -/
def lassoStep (around : K → K) (A : Matrix (Fin m) (Fin n) K) (b : Fin m → K) (lam mu : K) (w : Fin n → K)
    (j : Fin n) : K := w j - mu * lassoGrad around A b lam w j

/-- CommDspy/misc/least_squares.py 108-122: the loop with `fuel` more iterations allowed, `w` being the parameters
stored last; returns the stored parameter vectors from `w` on, the most recent last, and whether the loop was
left by `break`. -/
def lassoLoop (around : K → K) (A : Matrix (Fin m) (Fin n) K) (b : Fin m → K) (lam mu tol : K) :
    Nat → (Fin n → K) → List (Fin n → K) × Bool
  | 0, w => ([w], false)
  | fuel + 1, w =>
    let w' := lassoStep around A b lam mu w
    if ∀ j, |w' j - w j| < tol then ([w, w'], true)
    else
      let r := lassoLoop around A b lam mu tol fuel w'
      (w :: r.1, r.2)

/-- CommDspy/misc/least_squares.py 88-131 `lasso_regression_manual(..., return_path=True)`: parameters, sum of
squared residuals, `reached_tol`, and the columns of the path. `w0` is the random initial vector. With
`max_steps=0` line 104 raises IndexError, with `max_steps=1` line 123 raises UnboundLocalError, and a matrix
without columns divides by zero. `step` (line 123) is the number of updates done. -/
def lassoManual (around : K → K) (A : Matrix (Fin m) (Fin n) K) (b : Fin m → K) (lam mu tol : K) (maxSteps : Nat)
    (w0 : Fin n → K) : Py ((Fin n → K) × K × Bool × List (Fin n → K)) :=
  if maxSteps = 0 then .error .indexError
  else if maxSteps = 1 then .error .unboundLocal
  else if n = 0 then .error .zeroDivision
  else
    let r := lassoLoop around A b lam mu tol (maxSteps - 1) w0
    let w := r.1.getLastD w0
    let step := r.1.length - 1
    .ok (w, ssr A b w, decide (step ≠ maxSteps - 1), r.1)

end Verif
