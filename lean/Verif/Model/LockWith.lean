import Verif.Model.Checker

/-! Pattern lock with the correlation routine as a parameter. -/

namespace Verif

/-- CommDspy/rx/lock_pattern.py 25-44 `lock_pattern_to_signal(pattern, signal)` with SciPy's
`correlate(..., mode='valid')` as the argument `cor`, so that statements can cover a routine that returns
rounded values (direct summation or FFT). With exact arithmetic it is `lockPattern`. -/
def lockPatternWith {α : Type} [LE α] [DecidableLE α] (cor : List α → List α → List α)
    (pattern signal : List α) : Py (List α × List α) :=
  if pattern.length = 0 ∨ signal.length = 0 then .error .valueError
  else
    let patternLen := pattern.length
    let dataLen := signal.length
    let patternRep := tile pattern 2
    let signalPart := signal.take (min patternLen dataLen)
    let xcorr := cor patternRep signalPart
    let startIdx := argmax xcorr
    .ok ((patternRep.drop startIdx).take patternLen, xcorr)

end Verif
