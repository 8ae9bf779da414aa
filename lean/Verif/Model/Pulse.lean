import Mathlib.Analysis.SpecialFunctions.Trigonometric.Sinc
import Mathlib.Algebra.Order.Field.Basic
import Verif.Model.Filter
import Verif.Model.Framing

/-!
CommDspy/channel/pulse_shaping.py. The pulses are modelled over the real numbers (no floating-point
rounding), `pulse_shape` itself over any field. Random jitter (`rj_sigma` not close to 0, lines
47-56) is modelled in `Model/Jitter.lean`.
-/

namespace Verif

/-! ### Time vector and pulses -/

/-- CommDspy/channel/pulse_shaping.py 129-142 `_time_vec_pulse(osr, span)`: `np.arange(-(T//2), T//2) / osr`. -/
def timeVec {K : Type*} [Field K] (osr span : ℕ) : List K :=
  let timeLen := osr * 2 * span
  (List.range (2 * (timeLen / 2))).map (fun k : ℕ => ((k : K) - ((timeLen / 2 : ℕ) : K)) / (osr : K))

/-- CommDspy/channel/pulse_shaping.py 58-69 `rect_pulse` on the time vector `t` -/
def rectPulse {K : Type*} [Field K] [LinearOrder K] (t : List K) : List K :=
  t.map (fun u => if u < 1 / 2 ∧ -1 / 2 ≤ u then 1 else 0)

/-- `np.sinc`: `sin(pi x) / (pi x)`, 1 at 0 (NumPy replaces 0 by a tiny number, which gives 1.0) -/
noncomputable def npSinc (x : ℝ) : ℝ := if x = 0 then 1 else Real.sin (Real.pi * x) / (Real.pi * x)

/-- CommDspy/channel/pulse_shaping.py 71-81 `sinc_pulse` on the time vector `t` -/
noncomputable def sincPulse (t : List ℝ) : List ℝ := t.map npSinc

/-- CommDspy/channel/pulse_shaping.py 83-103 `rcos_pulse` on the time vector `t`. Line 101 computes `1/(2*beta)`
in any case (ZeroDivisionError for a Python number 0). -/
noncomputable def rcosPulse (beta : ℝ) (t : List ℝ) : Py (List ℝ) :=
  if beta = 0 then .error .zeroDivision
  else .ok (t.map (fun u =>
    if |2 * beta * u| = 1 then Real.pi / 4 * npSinc (1 / (2 * beta))
    else npSinc u * Real.cos (Real.pi * beta * u) / (1 - (2 * beta * u) ^ 2)))

/-- `np.isclose(v, 0)` with the default tolerances: `|v| <= 1e-8` -/
noncomputable def closeToZero (v : ℝ) : Bool := @decide (|v| ≤ 1 / 10 ^ 8) (Classical.propDecidable _)

/-- CommDspy/channel/pulse_shaping.py 105-127 `rrc_pulse` on the time vector `t`: line 124 writes the value
at 0, line 125 (later, so it wins) the value at `±1/(4 beta)`, line 126 all others. `beta = 0` makes line 119
divide by zero. -/
noncomputable def rrcPulse (beta : ℝ) (t : List ℝ) : Py (List ℝ) :=
  if beta = 0 then .error .zeroDivision
  else .ok (t.map (fun u =>
    if closeToZero (|u| - 1 / (4 * beta)) then
      beta / Real.sqrt 2 * ((1 + 2 / Real.pi) * Real.sin (Real.pi / (4 * beta))
        + (1 - 2 / Real.pi) * Real.cos (Real.pi / (4 * beta)))
    else if closeToZero u then 1 + beta * (4 / Real.pi - 1)
    else 4 * beta / Real.pi * (Real.cos ((1 + beta) * Real.pi * u)
        + Real.sin ((1 - beta) * Real.pi * u) / (4 * beta * u)) / (1 - (4 * beta * u) ^ 2)))

/-- CommDspy/channel/pulse_shaping.py 144-156 `_get_pulse(method, osr, span, beta)` (with `t=None`, as called
by `pulse_shape`) -/
noncomputable def getPulse (method : String) (osr span : ℕ) (beta : ℝ) : Py (List ℝ) :=
  if method = "rect" then .ok (rectPulse (timeVec osr span))
  else if method = "sinc" then .ok (sincPulse (timeVec osr span))
  else if method = "rcos" then rcosPulse beta (timeVec osr span)
  else if method = "rrc" then rrcPulse beta (timeVec osr span)
  else if method = "imp" then .ok [1]
  else .error .valueError

/-! ### Pulse shaping -/

/-- CommDspy/channel/pulse_shaping.py 33-42 for a given pulse vector and upsampled signal.
`np.zeros(osr*span*2 - 1)` raises ValueError for `osr*span = 0`, and no memory has that length. -/
def shapeWith {K : Type*} [Field K] [DecidableEq K] (pulseVec sigUps : List K) (osr span : ℕ)
    (zi : Option (List K)) : Py (List K × List K) :=
  if osr * span = 0 then .error .valueError
  else
    match zi with
    | none => lfilter pulseVec [1] sigUps (List.replicate (osr * span * 2 - 1) 0)
    | some z => if z.length ≠ osr * span * 2 - 1 then .error .valueError else lfilter pulseVec [1] sigUps z

/-- CommDspy/channel/pulse_shaping.py 6-42 `pulse_shape(signal, osr, span, pulse, beta, rj_sigma=0, zi)` -/
noncomputable def pulseShape (signal : List ℝ) (osr span : ℕ) (pulse : String) (beta : ℝ)
    (zi : Option (List ℝ)) : Py (List ℝ × List ℝ) := do
  let sigUps ← upsample signal osr
  let pulseVec ← getPulse pulse osr span beta
  shapeWith pulseVec sigUps osr span zi

/-- A signal shaped in chunks, handing the returned memory to the next call. -/
noncomputable def pulseShapeChunks (osr span : ℕ) (pulse : String) (beta : ℝ) :
    Option (List ℝ) → List (List ℝ) → Py (List (List ℝ) × Option (List ℝ))
  | zi, [] => .ok ([], zi)
  | zi, c :: cs => do
    let s ← pulseShape c osr span pulse beta zi
    let r ← pulseShapeChunks osr span pulse beta (some s.2) cs
    return (s.1 :: r.1, r.2)

end Verif
