import Mathlib.Data.Complex.Basic
import Mathlib.Algebra.BigOperators.Group.Finset.Basic

/-! Specification of the power spectrum analyser's normalisation modes. -/

namespace Verif

/-- the modes that the code supports -/
def supportedModes : List String := ["dBm", "dBm/Hz", "dBuv", "dBuv/sqrt(Hz)", "dBc", "dBFs", "dB"]

/-- Specification: the power by which a mode multiplies the spectrum, in terms of the resolution bandwidth `b`, the
effective sampling frequency `e`, the load `r`, the full scale and the mean square of the signal. -/
noncomputable def powerFactor (mode : String) (ms b e r fsc : ℝ) : ℝ :=
  if mode = "dBm" then 1000 / r * b / e
  else if mode = "dBm/Hz" then 1000 / r / e
  else if mode = "dBuv" then 10 ^ 12 * b / e
  else if mode = "dBuv/sqrt(Hz)" then 10 ^ 12 / e
  else if mode = "dBc" then b / e / ms
  else if mode = "dBFs" then b / e / fsc ^ 2
  else 1

open Classical in
/-- Specification: the bandwidth over which the analyser spreads the power: half of the sampling frequency if the signal
has no imaginary part and the spectrum is double-sided, the whole sampling frequency in every other case -/
noncomputable def spreadBand (x : List ℂ) (fs : ℝ) (dsb : Bool) : ℝ :=
  if (∀ i < x.length, (x.getD i 0).im = 0) ∧ dsb = true then fs / 2 else fs

/-- Specification: the mean power of a signal -/
noncomputable def meanPower (x : List ℂ) : ℝ :=
  (∑ i ∈ Finset.range x.length, ((x.getD i 0).re ^ 2 + (x.getD i 0).im ^ 2)) / x.length

end Verif
