import Verif.Model.Basic
import Mathlib.Analysis.SpecialFunctions.Complex.Circle
import Mathlib.Analysis.SpecialFunctions.Sqrt
import Mathlib.Analysis.Complex.Basic
import Mathlib.Data.Nat.Log

/-!
Model of CommDspy/psa.py over the real and complex numbers (exact arithmetic), with `scipy.signal.welch` as that
function calls it. Frequencies, bandwidths and the sampling rate are taken to be positive where a quotient is formed;
the plot is not modelled. Samples are complex numbers; `cplx` tells whether the array has a complex data type.
-/

namespace Verif

/-- The values in `mean of |x|^2` (CommDspy/psa.py 63), as a real number: the product of a number and its conjugate
has no imaginary part. -/
noncomputable def meanSquare (x : List ℂ) : ℝ := (x.map Complex.normSq).sum / (x.length : ℝ)

/-- CommDspy/psa.py 48-49: the resolution bandwidth; the division by the length of an empty signal raises
ZeroDivisionError. -/
noncomputable def psaRbw (n : ℕ) (fs : ℝ) : Option ℝ → Py ℝ
  | some b => .ok b
  | none => if n = 0 then .error .zeroDivision else .ok (max (fs / 1000) (2 * fs / n / 10))

/-- `np.all(np.isreal(signal))`: no sample has an imaginary part -/
noncomputable def allReal (x : List ℂ) : Bool := @decide (∀ v ∈ x, v.im = 0) (Classical.propDecidable _)

/-- CommDspy/psa.py 50: the effective sampling frequency; `dsb` stands for `sb_mode == 'DSB'` -/
noncomputable def psaEffFs (x : List ℂ) (fs : ℝ) (dsb : Bool) : ℝ := if allReal x && dsb then fs / 2 else fs

/-- CommDspy/psa.py 54-74: the normalisation factor. `1000 / r` raises ZeroDivisionError for `r = 0` (as an integer, like
the default). `none`: a division by zero in NumPy (zero signal, `fullscale = 0`), which makes every result NaN or
infinite. -/
noncomputable def psaNorm (mode : String) (x : List ℂ) (rbw effFs r fullscale : ℝ) (obw : Option ℝ) : Py (Option ℝ) :=
  if mode = "dBm" then
    if r = 0 then .error .zeroDivision else .ok (some (Real.sqrt (1000 / r) * Real.sqrt (rbw / effFs)))
  else if mode = "dBm/Hz" then
    if r = 0 then .error .zeroDivision else .ok (some (Real.sqrt (1000 / r / effFs)))
  else if mode = "dBuv" then .ok (some (Real.sqrt (rbw / effFs) * 1000000))
  else if mode = "dBuv/sqrt(Hz)" then .ok (some (Real.sqrt (1 / effFs) * 1000000))
  else if mode = "dBc" then
    if meanSquare x = 0 then .ok none else .ok (some (Real.sqrt (obw.getD rbw / effFs) / Real.sqrt (meanSquare x)))
  else if mode = "dBFs" then
    if fullscale = 0 then .ok none else .ok (some (Real.sqrt (obw.getD rbw / effFs) / fullscale))
  else if mode = "dB" then .ok (some 1)
  else .error .valueError

/-- CommDspy/psa.py 78: `int(1.9 * np.ceil(fs / rbw))` -/
noncomputable def psaWindowN (fs rbw : ℝ) : ℕ := 19 * ⌈fs / rbw⌉.toNat / 10

/-- CommDspy/psa.py 83: `int(2 ** np.ceil(np.log2(window_n * osr)))`, 0 for an argument of 0 -/
def psaNfft (windowN osr : ℕ) : ℕ := if windowN * osr = 0 then 0 else 2 ^ Nat.clog 2 (windowN * osr)

/-- CommDspy/psa.py 84: `int(np.floor(window_n * overlap))`. Simplified: the overlap is not negative. -/
noncomputable def psaOverlap (windowN : ℕ) (overlap : ℝ) : ℕ := ⌊(windowN : ℝ) * overlap⌋₊

/-- `scipy.signal.detrend(segment, type='constant')`: the mean is subtracted -/
noncomputable def detrend (s : List ℂ) : List ℂ := s.map (fun v => v - s.sum / (s.length : ℂ))

/-- entry `k` of the discrete Fourier transform of length `nfft` of the windowed segment -/
noncomputable def dftAt (nfft k : ℕ) (win s : List ℂ) : ℂ :=
  ((List.range s.length).map (fun j => win.getD j 0 * s.getD j 0
    * Complex.exp (-(2 * Real.pi * Complex.I * (j : ℂ) * (k : ℂ) / (nfft : ℂ))))).sum

/-- the segments of `scipy.signal.welch`: `nperseg` samples every `nperseg - noverlap` samples -/
def welchSegments (x : List ℂ) (nperseg noverlap : ℕ) : List (List ℂ) :=
  (List.range ((x.length - noverlap) / (nperseg - noverlap))).map (fun s =>
    (x.drop (s * (nperseg - noverlap))).take nperseg)

/-- the value of `scipy.signal.welch` at bin `k` (detrend 'constant', scaling 'spectrum', mean over the segments);
one-sided spectra count every bin but the first and the last twice -/
noncomputable def welchBin (x win : List ℂ) (nfft noverlap : ℕ) (onesided : Bool) (k : ℕ) : ℝ :=
  let segs := welchSegments x win.length noverlap
  (segs.map (fun s => Complex.normSq (dftAt nfft k win (detrend s)))).sum / Complex.normSq win.sum / (segs.length : ℝ)
    * (if onesided ∧ 0 < k ∧ 2 * k < nfft then 2 else 1)

/-- frequency of bin `k` -/
noncomputable def welchFreq (fs : ℝ) (nfft : ℕ) (onesided : Bool) (k : ℕ) : ℝ :=
  if onesided ∨ 2 * k < nfft then (k : ℝ) * fs / (nfft : ℝ) else ((k : ℝ) - (nfft : ℝ)) * fs / (nfft : ℝ)

/-- `scipy.signal.welch(x, nfft=nfft, fs=fs, window=win, noverlap=noverlap, scaling='spectrum')`: frequencies and values.
An empty signal gives empty results; a window longer than the signal, a transform shorter than the window and an
overlap of at least the window raise ValueError. Simplified: a window whose sum vanishes divides by zero (NaN; field
convention here, the theorems exclude it). -/
noncomputable def welch (x win : List ℂ) (nfft : ℕ) (fs : ℝ) (noverlap : ℕ) (cplx : Bool) : Py (List ℝ × List ℝ) :=
  if x.length = 0 then .ok ([], [])
  else if x.length < win.length then .error .valueError
  else if nfft < win.length then .error .valueError
  else if win.length ≤ noverlap then .error .valueError
  else
    let bins := if cplx then nfft else nfft / 2 + 1
    .ok ((List.range bins).map (welchFreq fs nfft (!cplx)), (List.range bins).map (welchBin x win nfft noverlap (!cplx)))

/-- CommDspy/psa.py 6-98 `psa(signal, fs, rbw, mode, obw, r, osr, window, overlap, fullscale, sb_mode)`. The window is a
function from its length to its samples (`get_window(window, n)`); `osr` is a natural number. Results that are not
finite are `none`. -/
noncomputable def psa (window : ℕ → List ℝ) (x : List ℂ) (cplx : Bool) (fs : ℝ) (rbw : Option ℝ) (mode : String)
    (obw : Option ℝ) (r : ℝ) (osr : ℕ) (overlap fullscale : ℝ) (dsb : Bool) : Py (Option (List ℝ × List ℝ)) := do
  let mode := if obw.isSome then "dBc" else mode
  let rbw ← psaRbw x.length fs rbw
  let norm ← psaNorm mode x rbw (psaEffFs x fs dsb) r fullscale obw
  let windowN := psaWindowN fs rbw
  let win : List ℂ := (window windowN).map (fun (v : ℝ) => (v : ℂ))
  let w ← welch (x.map (fun v => v * ((norm.getD 0 : ℝ) : ℂ))) win (psaNfft windowN osr) fs
    (psaOverlap windowN overlap) cplx
  return (if norm.isNone then none else some w)

end Verif
