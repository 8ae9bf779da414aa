import Verif.Model.SimFull
import Verif.Spec.Slicer
import Verif.Spec.Pulse

/-!
# Settings under which the example simulation's link is expected to be error free (C78)
-/

namespace Verif
open Spec

/-- A receiver whose slicer factor and converter suit the transmitted amplitude: samples that are within `ε` of a transmitted
level do not saturate the converter (range of codes `r`), and quantisation, the disturbance `ε` and the mismatch between the
digital gain and the slicer factor together stay below half a level distance. -/
structure ReceiverFits (a : LinkArgs) (fullScale : Bool) (r : ℤ × ℤ) (ε : ℝ) : Prop where
  levels : mappingDataLevels a.constellation (some (getLevels a.constellation fullScale)) a.amp = .ok a.txLevels
  amp : 0 < a.amp
  factor : ∀ l ∈ getLevels a.constellation false, |l| ≤ a.rxFactor
  factor' : ∃ l ∈ getLevels a.constellation false, |l| = a.rxFactor
  zeros : a.zeros ≠ [] ∧ ∀ z ∈ a.zeros, z ≠ 0
  poles : a.poles ≠ [] ∧ ∀ p ∈ a.poles, p ≠ 0
  rate : 0 < a.fs * a.ctleOsr
  bits : 1 ≤ a.totalBits
  range : codeRange a.totalBits a.quant = some r
  phase : a.phase < a.adcOsr / a.sampleRate
  low : (r.1 : ℝ) - 1 / 2 ≤ -(a.amp / 2 + ε)
  high : a.amp / 2 + ε ≤ (r.2 : ℝ) + 1 / 2
  margin : |a.digGain| / 2 ^ a.fracBits * (1 / 2 + ε) + a.amp / 2 * |a.digGain / 2 ^ a.fracBits - 2 * a.rxFactor / a.amp|
    < ((getLevels a.constellation false).getD 1 0 - (getLevels a.constellation false).getD 0 0) / 2

/-- A link that should be transparent: Nyquist pulse and nothing else in the channel, a CTLE with poles equal to its zeros and
0 dB, one sample per symbol at the pulse maximum. -/
structure Transparent (a : LinkArgs) : Prop where
  pulse : a.chan.pulse = "sinc" ∨ (a.chan.pulse = "rcos" ∧ a.chan.rolloff ≠ 0)
  span : 0 < a.chan.span
  osr : 0 < a.chan.osr
  taps : a.chan.iir = none ∧ a.chan.fir ≠ some []
  rest : a.chan.pulseZi = none ∧ a.chan.chZi = none
  ctle : a.zeros = a.poles ∧ a.dcGain = 0
  sampling : a.adcOsr / a.sampleRate = a.chan.osr ∧ a.phase = 0

/-- `L` bounds the sums of the pulse's magnitudes at all instants a symbol apart (the gain of the pulse shaping for the peak
value) -/
def PeakGain (d : ChannelArgs) (L : ℝ) : Prop :=
  ∃ g, IsPulse d.pulse d.rolloff d.osr g ∧
    ∀ (t : ℝ) (J : ℕ), ∑ j ∈ Finset.range J, |truncated d.span g (t - j - d.span)| ≤ L

/-- The channel disturbs the pulse-shaped signal of symbols within `amp / 2` by at most `ε`: the pulse alone; noise of at most `Z`
standard deviations; an FIR response near the identity; both. The samples of the calls' noise are `noises`, `M` per call. -/
inductive ChannelFits (d : ChannelArgs) (amp : ℝ) (M : ℕ) (ε : ℝ) (noises : List (List ℝ)) : Prop
  | pulse (ht : d.chType = .pulse) (hε : 0 ≤ ε)
  | awgn (ht : d.chType = .awgn) (snr L Z : ℝ) (hsnr : d.snr = some snr) (hL : PeakGain d L) (hM : 2 ≤ M)
      (hn : ∀ nz ∈ noises, nz.length = M ∧ ∀ z ∈ nz, |z| ≤ Z) (hε : 0 ≤ ε)
      (hsum : 2 * (amp / 2 * L * Z) ^ 2 ≤ ε ^ 2 * (10 : ℝ) ^ (snr / 10))
  | isi (ht : d.chType = .isiAwgn) (f : List ℝ) (hf : d.fir = some f) (hf0 : f ≠ []) (L δ : ℝ) (hL : PeakGain d L)
      (hM : 2 ≤ M) (hδ : 0 ≤ δ)
      (hn : ∀ snr, d.snr = some snr → ∃ Z, (∀ nz ∈ noises, nz.length = M ∧ ∀ z ∈ nz, |z| ≤ Z) ∧
        2 * (amp / 2 * L * (∑ k ∈ Finset.range f.length, |f.getD k 0|) * Z) ^ 2 ≤ δ ^ 2 * (10 : ℝ) ^ (snr / 10))
      (hsum : amp / 2 * L * (|f.getD 0 0 - 1| + ∑ k ∈ Finset.Ico 1 f.length, |f.getD k 0|) + δ ≤ ε)

/-- a configuration without any code, `w` bits per symbol -/
structure Uncoded (d : CodingData) (w : ℕ) : Prop where
  bps : d.bps = .whole w
  gray : d.gray = false
  differential : d.differential = false
  binDifferential : d.binDifferential = false
  manchester : d.manchester = false
  bipolar : d.bipolar = false
  mlt3 : d.mlt3 = false
  diffManchester : d.diffManchester = false
  linear : d.linear = false
  conv : d.conv = false

end Verif
