import Verif.Model.FilterClass
import Mathlib.Analysis.SpecialFunctions.Pow.Real
import Mathlib.Analysis.SpecialFunctions.Sqrt
import Mathlib.Analysis.Complex.Basic

/-!
Model of `awgn` (CommDspy/channel/additive_noise_functions.py) and of `power`, `rms` (CommDspy/auxiliary.py) over
the real (complex) numbers. The random generator is a parameter: `np.random.normal(0, s, shape)` is `s` times a
vector `noise` of standard normal samples. `none` stands for NaN.
-/

namespace Verif

/-- CommDspy/channel/additive_noise_functions.py 22: `np.var(signal, ddof=1) + np.mean(signal) ** 2`; NaN for fewer
than two samples. -/
noncomputable def sigPowerHat (l : List ℝ) : Option ℝ :=
  if l.length < 2 then none
  else
    let mu := l.sum / l.length
    some ((l.map (fun x => (x - mu) ^ 2)).sum / ((l.length : ℝ) - 1) + mu ^ 2)

/-- CommDspy/channel/additive_noise_functions.py 26-27, 31: the standard deviation of the noise -/
noncomputable def awgnStd (l : List ℝ) (snr : ℝ) : Option ℝ :=
  (sigPowerHat l).map (fun p => Real.sqrt (p / (10 : ℝ) ^ (snr / 10)))

/-- CommDspy/channel/additive_noise_functions.py 6-33 `awgn(signal, snr)`, real signals -/
noncomputable def awgn (noise l : List ℝ) (snr : ℝ) : Option (List ℝ) :=
  (awgnStd l snr).map (fun s => List.zipWith (fun x z => x + (0 + s * z)) l noise)

open Classical in
/-- CommDspy/channel/additive_noise_functions.py 35-73 `awgn_channel(signal, b, a, snr, zi)` -/
noncomputable def awgnChannelSnr (noise signal b : List ℝ) (a : Denom ℝ) (snr : Option ℝ) (zi : Option (List ℝ)) :
    Py (Option (List ℝ) × List ℝ) := do
  let r ← awgnChannel signal b a zi
  return (match snr with
    | none => some r.1
    | some s => awgn noise r.1 s, r.2)

/-- CommDspy/auxiliary.py 63-68 `power(signal)`: NaN for an empty signal -/
noncomputable def power (l : List ℂ) : Option ℂ :=
  if l.length = 0 then none else some ((l.map (fun x => x * (starRingEnd ℂ) x)).sum / l.length)

/-- CommDspy/auxiliary.py 70-75 `rms(signal)`. NumPy's square root of a complex number with zero imaginary part and
non-negative real part is the real square root; `power` returns only such numbers (`C67_power`). -/
noncomputable def rms (l : List ℂ) : Option ℝ := (power l).map (fun p => Real.sqrt p.re)

end Verif
