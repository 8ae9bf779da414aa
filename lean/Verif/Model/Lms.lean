import Mathlib.Analysis.SpecialFunctions.Log.Basic
import Mathlib.Analysis.SpecialFunctions.Trigonometric.Basic
import Mathlib.Analysis.SpecialFunctions.Sqrt
import Verif.Model.Slicer

/-!
CommDspy/rx/least_mean_squares.py and CommDspy/rx/clock_data_recovery.py, in exact arithmetic. All vectors are 1-D
arrays; `none` stands for a NaN (mean of an empty selection).
-/

namespace Verif

/-! ### Least mean squares -/

section
variable {K : Type} [Field K]

/-- `np.mean`; NaN for an empty array -/
def meanOpt (l : List K) : Option K := if l.length = 0 then none else some (l.sum / (l.length : K))

/-- CommDspy/rx/least_mean_squares.py 186-190: gradient of one FFE tap (`N = len(input_vec)`) -/
def ffeTapGrad (input e : List K) (ii : Int) : Py (Option K) := do
  let N : Int := input.length
  let mask := arangeZ (max 0 ii) (min N (N + ii))
  let a ← npTake e mask
  let b ← npTake input (mask.map (· - ii))
  return (meanOpt (List.zipWith (· * ·) a b)).map (fun m => 1 / 2 * m)

/-- CommDspy/rx/least_mean_squares.py 194-196: gradient of one DFE tap -/
def dfeTapGrad (N : Int) (reference e : List K) (jj : Int) : Py (Option K) := do
  let mask := arangeZ jj N
  let a ← npTake e mask
  let b ← npTake reference (mask.map (· - jj))
  return (meanOpt (List.zipWith (· * ·) a b)).map (fun m => -1 / 2 * m)

/-- CommDspy/rx/least_mean_squares.py 199-210: the four shapes of the result -/
inductive LmsOut (K : Type) where
  | loss (l : Option K)
  | dfe (l : Option K) (g : List (Option K))
  | ffe (l : Option K) (g : List (Option K))
  | both (l : Option K) (gf gd : List (Option K))
deriving DecidableEq

/-- the loss (first entry) of a result -/
def LmsOut.value : LmsOut K → Option K
  | .loss l | .dfe l _ | .ffe l _ | .both l _ _ => l

/-- the FFE gradients of a result, none if not returned -/
def LmsOut.ffeGrads : LmsOut K → List (Option K)
  | .loss _ | .dfe _ _ => []
  | .ffe _ g | .both _ g _ => g

/-- the DFE gradients of a result, none if not returned -/
def LmsOut.dfeGrads : LmsOut K → List (Option K)
  | .loss _ | .ffe _ _ => []
  | .dfe _ g | .both _ _ g => g

/-- CommDspy/rx/least_mean_squares.py 199-210 `_return_function` -/
def lmsReturn (loss : Option K) (gf gd : List (Option K)) (ffeSize dfeSize : Nat) : LmsOut K :=
  if ffeSize = 0 ∧ dfeSize = 0 then .loss loss
  else if ffeSize = 0 then .dfe loss gd
  else if dfeSize = 0 then .ffe loss gf
  else .both loss gf gd

/-- CommDspy/rx/least_mean_squares.py 170-197 `_compute_derivatives` -/
def computeDerivatives (input reference : List K) (ffeIdx dfeIdx : List Int) (e : List K) :
    Py (List (Option K) × List (Option K)) := do
  let gf ← ffeIdx.mapM (ffeTapGrad input e)
  let gd ← dfeIdx.mapM (dfeTapGrad input.length reference e)
  return (gf, gd)

/-- CommDspy/rx/least_mean_squares.py 52-56 (and 146-147 for the soft version without the check): the reference -/
def lmsReference [LinearOrder K] (output : List K) (levels : List K) (reference : Option (List K)) (check : Bool) :
    Py (List K) :=
  match reference with
  | none => if levels.length = 0 then .error .valueError else .ok (output.map (sliceOne levels))
  | some r => if check ∧ r.length ≠ output.length then .error .valueError else .ok r

/-- CommDspy/rx/least_mean_squares.py 4-69 `ddlms_grad` -/
def ddlmsGrad [LinearOrder K] (input output levels : List K) (ffeIdx dfeIdx : List Int)
    (reference : Option (List K)) : Py (LmsOut K) := do
  let r ← lmsReference output levels reference true
  let e := List.zipWith (· - ·) output r
  let mse := meanOpt (e.map (fun v => v ^ 2))
  let g ← computeDerivatives input r ffeIdx dfeIdx e
  return lmsReturn mse g.1 g.2 ffeIdx.length dfeIdx.length

end

/-- CommDspy/rx/least_mean_squares.py 71-168 `soft_ddlms_grad` over the real numbers, for `sigma` not 0. `p = 1/len(levels)`
raises ZeroDivisionError for empty levels with a given reference. -/
noncomputable def softDdlmsGrad (input output levels : List ℝ) (sigma : ℝ) (ffeIdx dfeIdx : List Int)
    (reference : Option (List ℝ)) : Py (LmsOut ℝ) := do
  let r ← lmsReference output levels reference false
  if levels.length = 0 then .error .zeroDivision
  else
    let p : ℝ := 1 / (levels.length : ℝ)
    let f := output.map (fun x => p / Real.sqrt (2 * Real.pi * sigma ^ 2)
      * (levels.map (fun l => Real.exp (-1 * (x - l) ^ 2 / (2 * sigma ^ 2)))).sum)
    let e := List.zipWith (fun fx x => 1 / fx
      * (levels.map (fun l => (x - l) / sigma ^ 2 * Real.exp (-1 * (x - l) ^ 2 / (2 * sigma ^ 2)))).sum) f output
    let loss := (meanOpt (f.map Real.log)).map (fun m => -1 * m)
    let g ← computeDerivatives input r ffeIdx dfeIdx e
    return lmsReturn loss g.1 g.2 ffeIdx.length dfeIdx.length

/-! ### Mueller-Muller -/

/-- CommDspy/rx/clock_data_recovery.py 4-32 `mueller_muller_step`. Vectors of different lengths raise ValueError in `dot`
(lengths 0 and 1 have the same, empty, slices). One symbol gives 0/0: the result is the conversion of NaN to an
integer, here `none`. Without symbols the quotient is 0/(-1). -/
def muellerMuller {K : Type} [Field K] [LinearOrder K] (signal reference : List K) (preW postW tol : K) : Py (Option Int) :=
  let refPre := reference.drop 1
  let refPost := reference.dropLast
  let sigPre := signal.dropLast
  let sigPost := signal.drop 1
  if refPre.length ≠ sigPre.length then .error .valueError
  else if reference.length = 1 then .ok none
  else
    let n : K := (reference.length : K) - 1
    let pre := (List.zipWith (· * ·) refPre sigPre).sum / n
    let post := (List.zipWith (· * ·) refPost sigPost).sum / n
    let step := post * postW - pre * preW
    if |step| < tol then .ok (some 0) else .ok (some (if 0 < step then 1 else if step < 0 then -1 else 0))

end Verif
