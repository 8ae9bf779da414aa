import Verif.Model.Pulse
import Verif.Model.Checker
import Verif.Model.Lms

/-! test/test_cdr.py: the clock recovery loop around `mueller_muller_step`. -/

namespace Verif

/-- test/test_cdr.py 40-49: the loop `for ii in range(osr)` over the phases of the converter output `mat` (one row per symbol),
`iters` iterations from `phase`. `pattern` is `ref_pattern[:prbs_len]`, `refLen` is `len(ref_pattern)`. Result: the phase and
whether the loop was left by `break`. Simplified: for a single symbol the step is the conversion of NaN to an integer; the model
then returns ValueError. -/
noncomputable def mmLoop (tol : ℝ) (pattern : List ℝ) (refLen osr : ℕ) (mat : List (List ℝ)) :
    ℕ → ℕ → Py (ℕ × Bool)
  | 0, phase => .ok (phase, false)
  | iters + 1, phase => do
    let signal := mat.map (fun row => row.getD phase 0)
    let aligned ← lockPattern pattern signal
    let rep := (tile aligned.1 ((refLen + pattern.length - 1) / pattern.length)).take signal.length
    let step ← muellerMuller signal rep 1 1 tol
    match step with
    | none => .error .valueError
    | some v =>
      let next := (((phase : ℤ) + v) % (osr : ℤ)).toNat
      if v = 0 then .ok (next, true) else mmLoop tol pattern refLen osr mat iters next

/-- test/test_cdr.py 11-13, 17 and 40-49 for the symbols `symbols` at the output of the channel: pulse shaping, dropping the first
`2*span` symbols (16 for the span of 8 in line 11), the converter `adc` sample by sample (line 13, `quantize(…, 9, 7, 'ss')`), one
row per symbol, and the loop with `osr` iterations from `phase`. The test uses osr = 64, span = 8, pulse 'rcos', beta = 0.5,
tol = 1e-3 and starts at osr // 2. -/
noncomputable def recoverClock (symbols pattern : List ℝ) (refLen osr span : ℕ) (pulse : String) (beta : ℝ) (adc : ℝ → ℝ)
    (tol : ℝ) (phase : ℕ) : Py (ℕ × Bool) := do
  let shaped ← pulseShape symbols osr span pulse beta none
  let adcOut := (shaped.1.drop (osr * (2 * span))).map adc
  let mat ← buffer adcOut osr 0 0
  mmLoop tol pattern refLen osr mat osr phase

end Verif
