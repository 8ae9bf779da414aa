import Verif.Model.CdrTest
import Verif.Model.EstimPrbs
import Verif.Model.SymbolReal

/-! test/test_cdr.py 6-51: the whole test, with the assertion at its end. -/

namespace Verif

open Classical in
/-- test/test_cdr.py 50-51: the channel is estimated from `signal` with 64 postcursors, the default of 19 precursors and all
flags off (CommDspy/channel_estimation.py 11-18), and `np.isclose(ch_est[18], ch_est[20], atol=1e-1)` is asserted; the relative
tolerance is the default of 1e-5. `false` stands for AssertionError. Values that are not finite (`none`) are never close. -/
noncomputable def cursorsClose (ls : Solver ℝ) (p : PrbsEnum) (signal : List ℝ) (c : Constellation) : Py Bool := do
  match ← channelEstimationPrbs ls p signal c false 64 19 false false false false false with
  | none => return false
  | some (est, _) => return decide (|est.getD 18 0 - est.getD 20 0| ≤ 1 / 10 + 1 / 100000 * |est.getD 20 0|)

/-- test/test_cdr.py 40-49 like `mmLoop`; the result is the last value of `phase` and of `signale_phase_signal`, which is `last`
without any iteration. -/
noncomputable def mmLoopSignal (tol : ℝ) (pattern : List ℝ) (refLen osr : ℕ) (mat : List (List ℝ)) :
    ℕ → ℕ → List ℝ → Py (ℕ × List ℝ)
  | 0, phase, last => .ok (phase, last)
  | iters + 1, phase, _ => do
    let signal := mat.map (fun row => row.getD phase 0)
    let aligned ← lockPattern pattern signal
    let rep := (tile aligned.1 ((refLen + pattern.length - 1) / pattern.length)).take signal.length
    let step ← muellerMuller signal rep 1 1 tol
    match step with
    | none => .error .valueError
    | some v =>
      let next := (((phase : ℤ) + v) % (osr : ℤ)).toNat
      if v = 0 then .ok (next, signal) else mmLoopSignal tol pattern refLen osr mat iters next signal

/-- test/test_cdr.py 6-51 `mueller_muller_step_test(prbs_type)` with `estimate_optimal=False`, after the channel of lines 8-10:
`symbols` is the output of `generate_and_pass_channel_ar`, `pattern` is `ref_pattern[:prbs_len]`, `refLen` is `len(ref_pattern)`
and `c` the constellation. The converter of line 13 is the parameter `adc`. -/
noncomputable def cdrStepTest (ls : Solver ℝ) (p : PrbsEnum) (symbols pattern : List ℝ) (refLen : ℕ) (c : Constellation)
    (adc : ℝ → ℝ) : Py Bool := do
  let shaped ← pulseShape symbols 64 8 "rcos" (1 / 2) none
  let adcOut := (shaped.1.drop (64 * 16)).map adc
  let mat ← buffer adcOut 64 0 0
  let r ← mmLoopSignal (1 / 1000) pattern refLen 64 mat 64 32 []
  cursorsClose ls p r.2 c

end Verif
