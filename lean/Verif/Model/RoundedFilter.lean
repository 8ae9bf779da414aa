import Verif.Model.FilterClass
import Mathlib.Data.Real.Basic

/-! `scipy.signal.lfilter` and `awgn_channel` with every arithmetic operation followed by a rounding `r`. -/

namespace Verif

open Classical in
/-- `scipy.signal.lfilter(b, a, x, zi=zi)` in rounded arithmetic, see `lfilter`. The coefficients are divided by `a[0]`.
For a denominator of length one SciPy calls `np.convolve` (parameter `conv`: its order of summation is not
specified) and adds the memory to the first outputs; otherwise it runs the recursion `lfRun`. -/
noncomputable def lfilterR (r : ℝ → ℝ) (conv : List ℝ → List ℝ → List ℝ) (b a x zi : List ℝ) : Py (List ℝ × List ℝ) :=
  if b.length = 0 ∨ a.length = 0 ∨ a.getD 0 0 = 0 then .error .valueError
  else if zi.length ≠ max b.length a.length - 1 then .error .valueError
  else if a.length = 1 ∧ x.length = 0 then .error .valueError
  else
    let a0 := a.getD 0 0
    if a.length = 1 then
      let c := conv (b.map (fun v => r (v / a0))) x
      let full := (List.range c.length).map (fun i => if i < zi.length then r (c.getD i 0 + zi.getD i 0) else c.getD i 0)
      .ok (full.take x.length, full.drop x.length)
    else .ok (lfRun r (b.map (fun v => r (v / a0))) (a.map (fun v => r (v / a0))) zi x)

/-- CommDspy/channel/additive_noise_functions.py 35-73 `awgn_channel(signal, b, a, snr=None, zi)` in rounded
arithmetic, see `awgnChannel`. -/
noncomputable def awgnChannelR (r : ℝ → ℝ) (conv : List ℝ → List ℝ → List ℝ) (signal b : List ℝ) (a : Denom ℝ)
    (zi : Option (List ℝ)) : Py (List ℝ × List ℝ) :=
  lfilterR r conv b a.coeffs signal (zi.getD (channelRest b a))

end Verif
