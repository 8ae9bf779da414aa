import Verif.Model.Noise
import Verif.Model.Lms

/-! Powers, noise levels and gradients with every arithmetic operation on floats followed by a rounding `r`; `sumR` is the sum of
an array (its order of summation is not specified). Lengths are exact. `none` stands for NaN. -/

namespace Verif

/-- `np.mean` in rounded arithmetic, see `meanOpt` -/
noncomputable def meanR (r : ℝ → ℝ) (sumR : List ℝ → ℝ) (l : List ℝ) : Option ℝ :=
  if l.length = 0 then none else some (r (sumR l / (l.length : ℝ)))

/-- CommDspy/auxiliary.py 63-68 `power(signal)` for real signals in rounded arithmetic, see `power` -/
noncomputable def powerR (r : ℝ → ℝ) (sumR : List ℝ → ℝ) (l : List ℝ) : Option ℝ := meanR r sumR (l.map (fun x => r (x * x)))

/-- CommDspy/auxiliary.py 70-75 `rms(signal)` for real signals in rounded arithmetic; the square root is correctly rounded -/
noncomputable def rmsR (r : ℝ → ℝ) (sumR : List ℝ → ℝ) (l : List ℝ) : Option ℝ := (powerR r sumR l).map (fun p => r (Real.sqrt p))

/-- CommDspy/channel/additive_noise_functions.py 22 in rounded arithmetic, see `sigPowerHat`: NumPy's variance subtracts the rounded
mean, squares, adds up and divides; `sq` is the power `** 2` of a scalar. -/
noncomputable def sigPowerHatR (r : ℝ → ℝ) (sumR : List ℝ → ℝ) (sq : ℝ → ℝ) (l : List ℝ) : Option ℝ :=
  if l.length < 2 then none
  else
    let mu := r (sumR l / (l.length : ℝ))
    let dev := l.map (fun x => r (x - mu))
    some (r (r (sumR (dev.map (fun d => r (d * d))) / ((l.length : ℝ) - 1)) + sq mu))

/-- CommDspy/channel/additive_noise_functions.py 26-27, 31 in rounded arithmetic, see `awgnStd`; `pow10 snr` is `10 ** (snr / 10)` -/
noncomputable def awgnStdR (r : ℝ → ℝ) (sumR : List ℝ → ℝ) (sq pow10 : ℝ → ℝ) (l : List ℝ) (snr : ℝ) : Option ℝ :=
  (sigPowerHatR r sumR sq l).map (fun p => r (Real.sqrt (r (p / pow10 snr))))

/-- CommDspy/channel/additive_noise_functions.py 6-33 `awgn(signal, snr)` in rounded arithmetic, see `awgn`; `noise` are the standard
normal samples of the generator -/
noncomputable def awgnR (r : ℝ → ℝ) (sumR : List ℝ → ℝ) (sq pow10 : ℝ → ℝ) (noise l : List ℝ) (snr : ℝ) : Option (List ℝ) :=
  (awgnStdR r sumR sq pow10 l snr).map (fun s => List.zipWith (fun x z => r (x + r (0 + r (s * z)))) l noise)

/-- CommDspy/rx/least_mean_squares.py 186-190 in rounded arithmetic, see `ffeTapGrad` -/
noncomputable def ffeTapGradR (r : ℝ → ℝ) (sumR : List ℝ → ℝ) (input e : List ℝ) (ii : Int) : Py (Option ℝ) := do
  let N : Int := input.length
  let mask := arangeZ (max 0 ii) (min N (N + ii))
  let a ← npTake e mask
  let b ← npTake input (mask.map (· - ii))
  return (meanR r sumR (List.zipWith (fun x y => r (x * y)) a b)).map (fun m => r (1 / 2 * m))

/-- CommDspy/rx/least_mean_squares.py 194-196 in rounded arithmetic, see `dfeTapGrad` -/
noncomputable def dfeTapGradR (r : ℝ → ℝ) (sumR : List ℝ → ℝ) (N : Int) (reference e : List ℝ) (jj : Int) : Py (Option ℝ) := do
  let mask := arangeZ jj N
  let a ← npTake e mask
  let b ← npTake reference (mask.map (· - jj))
  return (meanR r sumR (List.zipWith (fun x y => r (x * y)) a b)).map (fun m => r (-1 / 2 * m))

/-- CommDspy/rx/least_mean_squares.py 4-69 `ddlms_grad` in rounded arithmetic, see `ddlmsGrad`. Simplified: the distances inside the
slicer are exact. -/
noncomputable def ddlmsGradR (r : ℝ → ℝ) (sumR : List ℝ → ℝ) (input output levels : List ℝ) (ffeIdx dfeIdx : List Int)
    (reference : Option (List ℝ)) : Py (LmsOut ℝ) := do
  let x ← lmsReference output levels reference true
  let e := List.zipWith (fun a b => r (a - b)) output x
  let mse := meanR r sumR (e.map (fun v => r (v * v)))
  let gf ← ffeIdx.mapM (ffeTapGradR r sumR input e)
  let gd ← dfeIdx.mapM (dfeTapGradR r sumR input.length x e)
  return lmsReturn mse gf gd ffeIdx.length dfeIdx.length

end Verif
