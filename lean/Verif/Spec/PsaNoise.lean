import Mathlib.Analysis.SpecialFunctions.Trigonometric.Basic
import Mathlib.Analysis.Complex.Basic

/-! Specification for the power spectrum analyser in white noise (C122). -/

open scoped BigOperators

namespace Verif

/-- Specification: squared magnitude of the transform of the window `w` of `n` samples at bin `k` of `N` -/
noncomputable def windowPower (w : ℕ → ℝ) (n N k : ℕ) : ℝ :=
  (∑ j ∈ Finset.range n, w j * Real.cos (2 * Real.pi * j * k / N)) ^ 2
    + (∑ j ∈ Finset.range n, w j * Real.sin (2 * Real.pi * j * k / N)) ^ 2

/-- Specification: the share of the noise power that a bin of the spectrum collects with the window `w` of `n` samples:
the noise bandwidth of the window in bins of `1 / n`, without what the removal of the mean takes away -/
noncomputable def noiseShare (w : ℕ → ℝ) (n N k : ℕ) : ℝ :=
  (∑ j ∈ Finset.range n, w j ^ 2 - windowPower w n N k / n) / (∑ j ∈ Finset.range n, w j) ^ 2

/-- Specification: the signal `s` in white noise of standard deviation `sig`, `z` being the samples drawn -/
noncomputable def inWhiteNoise {L : ℕ} (s : Fin L → ℂ) (sig : ℝ) (z : Fin L → ℝ) : List ℂ :=
  List.ofFn fun i => s i + ((sig * z i : ℝ) : ℂ)

/-- Specification: the signal `s` in circular complex white noise whose real and imaginary parts have standard deviation
`sig`: the first `L` draws make the real parts, the others the imaginary parts -/
noncomputable def inCircularNoise {L : ℕ} (s : Fin L → ℂ) (sig : ℝ) (z : Fin (L + L) → ℝ) : List ℂ :=
  List.ofFn fun i => s i + (((sig * z (Fin.castAdd L i) : ℝ) : ℂ) + ((sig * z (Fin.natAdd L i) : ℝ) : ℂ) * Complex.I)

/-- Specification: density in mW/Hz (on the frequencies from 0 to `fs / 2`) of white noise of variance `v` V^2 sampled
with `fs` over a load of `r` Ohm: the whole power `1000 * v / r` is spread evenly over the band of width `fs / 2` -/
noncomputable def whiteDensity (v r fs : ℝ) : ℝ := 1000 * v / r / (fs / 2)

end Verif
