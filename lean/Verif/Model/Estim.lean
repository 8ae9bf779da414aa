import Verif.Model.Framing
import Verif.Model.FilterClass
import Verif.Model.LeastSq

/-!
Model of CommDspy/equalization_estimation.py and CommDspy/channel_estimation.py in exact arithmetic over an ordered
field. The least squares solver is a parameter `ls` (regularization, factor, matrix as list of rows, right-hand
side ↦ coefficients and residual information). Dimensions and tap counts are not negative.
-/

namespace Verif

variable {K : Type} [Field K] [LinearOrder K]

/-- the solver `least_squares` on NumPy arrays, returning the coefficients and the residual information -/
abbrev Solver (K : Type) := Reg → K → List (List K) → List K → Py (List K × List K)

/-- Python `l[:stop]` -/
def pyTake {α : Type} (l : List α) (stop : Int) : List α :=
  if 0 ≤ stop then l.take stop.toNat else l.take ((l.length : Int) + stop).toNat

/-- CommDspy/equalization_estimation.py 121-142: the matrix of the least squares system. `np.concatenate` along axis 1
of matrices with different numbers of rows raises ValueError. -/
def eqMatrix (reference signal : List K) (post pre dfe : Nat) : Py (List (List K)) :=
  let matRows : Int := (signal.length : Int) - ((max post dfe + pre + 1 : Nat) : Int)
  let st := signal.drop dfe
  let ffeMat := pyTake (hankel st (st.reverse.take (post + pre + 1))) matRows
  if dfe > 0 then
    let dfeMat := (pyTake (hankel reference (reference.reverse.take dfe)) matRows).map (fun r => r.map (fun v => -1 * v))
    if ffeMat.length ≠ dfeMat.length then .error .valueError
    else .ok (List.zipWith (· ++ ·) ffeMat dfeMat)
  else .ok ffeMat

/-- CommDspy/equalization_estimation.py 146: the right-hand side -/
def eqTarget (reference signal : List K) (post pre dfe : Nat) : List K :=
  let matRows : Int := (signal.length : Int) - ((max post dfe + pre + 1 : Nat) : Int)
  (pyTake reference ((dfe : Int) + matRows)).drop dfe

/-- The result of `equalization_estimation`. `mse = (p, q)` stands for `10 log10(p / q)`, the powers of the error and of
the equalizer output. -/
structure EqEst (K : Type) where
  ffe : List K
  dfe : Option (List K)
  gain : K
  lsErr : List K
  mse : K × K
deriving DecidableEq

/-- `np.max` of a non-empty list -/
def maxL (l : List K) : K := l.foldl max (l.headD 0)

/-- `power` (CommDspy/auxiliary.py 63-68) of real values -/
def powerL (l : List K) : K := (l.map (fun v => v * v)).sum / (l.length : K)

/-- CommDspy/equalization_estimation.py 147: the solver is called with the regularization only if it is not 'None' and its
factor is positive -/
def eqSolve (ls : Solver K) (reg : Reg) (lam : K) (A : List (List K)) (b : List K) : Py (List K × List K) :=
  if reg ≠ .none ∧ lam > 0 then ls reg lam A b else ls .none 0 A b

/-- The coefficients `ls_result[0]` of line 147, if the solver does not raise. -/
def solveWith (ls : Solver K) (reg : Reg) (lam : K) (A : List (List K)) (b : List K) : Option (List K) :=
  match eqSolve ls reg lam A b with
  | .ok r => some r.1
  | .error _ => none

/-- CommDspy/equalization_estimation.py 95-162 `equalization_estimation(reference_signal, signal, ffe_postcursor,
ffe_precursor, dfe_taps, normalize, regularization, reg_lambda)`. An empty `ffe` raises in `np.max` (ValueError);
`None / dig_gain` raises TypeError. Simplified: a gain of zero divides by zero (inf and nan in NumPy); here the
field's convention is used, and the theorems on `normalize` assume a non-zero gain. -/
def equalizationEstimation (ls : Solver K) (reference signal : List K) (post pre dfe : Nat) (normalize : Bool)
    (reg : Reg) (lam : K) : Py (EqEst K) := do
  let A ← eqMatrix reference signal post pre dfe
  let b := eqTarget reference signal post pre dfe
  let r ← eqSolve ls reg lam A b
  let ffe := r.1.reverse.drop dfe
  if ffe.length = 0 then .error .valueError
  else
    let gain := maxL ffe
    let dfeTaps := if dfe > 0 then some (lastN dfe r.1).reverse else none
    let sigOut := A.map (fun row => dotL row r.1)
    if sigOut.length ≠ b.length then .error .valueError
    else
      let err := List.zipWith (· - ·) sigOut b
      if normalize then
        match dfeTaps with
        | none => .error .typeError
        | some d => .ok ⟨ffe.map (· / gain), some (d.map (· / gain)), gain, r.2, (powerL err, powerL sigOut)⟩
      else .ok ⟨ffe, dfeTaps, 1, r.2, (powerL err, powerL sigOut)⟩

end Verif
