import Verif.Model.Rounded
import Verif.Model.Lms

/-! The timing detector and the feed-forward equalizer with the arithmetic operations as parameters, so that
statements can cover rounded arithmetic. -/

namespace Verif

/-- CommDspy/rx/clock_data_recovery.py 4-32 `mueller_muller_step`, see `muellerMuller`: `dot` is `ndarray.dot` and
every other operation is rounded by `r`. The length and its predecessor are exact, as integers below `2^53` are in
double precision; the comparisons and the sign are exact. -/
noncomputable def muellerMullerR (r : ℝ → ℝ) (dot : List ℝ → List ℝ → ℝ) (signal reference : List ℝ)
    (preW postW tol : ℝ) : Py (Option Int) :=
  let refPre := reference.drop 1
  let refPost := reference.dropLast
  let sigPre := signal.dropLast
  let sigPost := signal.drop 1
  if refPre.length ≠ sigPre.length then .error .valueError
  else if reference.length = 1 then .ok none
  else
    let n : ℝ := (reference.length : ℝ) - 1
    let pre := r (dot refPre sigPre / n)
    let post := r (dot refPost sigPost / n)
    let step := r (r (post * postW) - r (pre * preW))
    if |step| < tol then .ok (some 0) else .ok (some (if 0 < step then 1 else if step < 0 then -1 else 0))

/-- CommDspy/rx/ffe_dfe_model.py 52-53 and 68-79: `ffe_dfe` without feedback taps, see `ffeDfe`; `conv` is
`scipy.signal.convolve(..., mode='valid')`, the product with a single tap is rounded by `r`. Simplified as `ffeDfe`. -/
noncomputable def ffeR (r : ℝ → ℝ) (conv : List ℝ → List ℝ → List ℝ) (x ffe : List ℝ) (ziFfe : Option (List ℝ)) :
    Py (EqOut ℝ) :=
  if ffe.length = 1 then .ok (.plain (x.map (fun v => r (v * ffe.getD 0 0))))
  else do
    let z ← initFfe ffe ziFfe
    if ffe.length = 0 ∨ x.length = 0 then .error .valueError
    else return .ffe (conv ffe (z ++ x)) (lastN ffe.length x)

end Verif
