import Verif.Spec.SimFull

/-!
# The example simulation's link with a dispersive channel, CTLE and equalizer taps (C120)
-/

open Finset

namespace Verif
open Spec

/-- Accepted settings of the receiver: levels, CTLE, converter with the codes `r`, sampling phase within a symbol. -/
structure ReceiverSetting (a : LinkArgs) (fullScale : Bool) (r : ℤ × ℤ) : Prop where
  levels : mappingDataLevels a.constellation (some (getLevels a.constellation fullScale)) a.amp = .ok a.txLevels
  amp : 0 < a.amp
  factor : ∀ l ∈ getLevels a.constellation false, |l| ≤ a.rxFactor
  factor' : ∃ l ∈ getLevels a.constellation false, |l| = a.rxFactor
  zeros : a.zeros ≠ [] ∧ ∀ z ∈ a.zeros, z ≠ 0
  poles : a.poles ≠ [] ∧ ∀ p ∈ a.poles, p ≠ 0
  rate : 0 < a.fs * a.ctleOsr
  bits : 1 ≤ a.totalBits
  range : codeRange a.totalBits a.quant = some r
  phase : a.phase < a.adcOsr / a.sampleRate

/-- `c` is the response of the CTLE to a unit impulse. -/
def CtleResponse (a : LinkArgs) (c : ℕ → ℝ) : Prop :=
  ∀ M : ℕ, ctle (1 :: List.replicate M 0) a.zeros a.poles a.dcGain a.fs a.ctleOsr none
    = .ok (some ((List.range (M + 1)).map c, none))

/-- What a symbol of value one contributes to the CTLE output, `s` samples after the symbol was passed to the pulse shaping:
pulse `g`, channel taps `f`, CTLE response `c`. -/
noncomputable def symbolResponse (d : ChannelArgs) (g : ℝ → ℝ) (f : List ℝ) (c : ℕ → ℝ) (s : ℕ) : ℝ :=
  ∑ m ∈ range (s + 1), c m * ∑ k ∈ range f.length, f.getD k 0 *
    (if k ≤ s - m then truncated d.span g (((s - m - k : ℕ) : ℝ) / d.osr - d.span) else 0)

/-- What it contributes to the output of the feed-forward equalizer with taps `F`, `l` symbols later. -/
noncomputable def linkResponse (d : ChannelArgs) (g : ℝ → ℝ) (f : List ℝ) (c : ℕ → ℝ) (phase : ℕ) (F : List ℝ) (l : ℕ) : ℝ :=
  ∑ i ∈ range F.length, F.getD i 0 * (if i ≤ l then symbolResponse d g f c (phase + (l - i) * d.osr) else 0)

/-- The eye at the slicer is open. `ε` bounds the noise of the channel, `C` the gain of the CTLE, `P` the sum of the response at
the sampling instants before and `R` after the equalizer (without the main cursor, `δ` symbols late). The converter must not
saturate, and intersymbol interference, quantisation, noise and the mismatch between the gain and the slicer levels
together must stay below half a level distance. -/
structure OpenLinkEye (a : LinkArgs) (r : ℤ × ℤ) (g : ℝ → ℝ) (f : List ℝ) (c : ℕ → ℝ) (F : List ℝ) (δ : ℕ) (ε C P R : ℝ) : Prop where
  noise : 0 ≤ ε
  ctle : ∀ M, ∑ m ∈ range M, |c m| ≤ C
  peak : ∀ M, ∑ l ∈ range M, |symbolResponse a.chan g f c (a.phase + l * a.chan.osr)| ≤ P
  isi : ∀ M, ∑ l ∈ (range M).erase δ, |linkResponse a.chan g f c a.phase F l| ≤ R
  low : (r.1 : ℝ) - 1 / 2 ≤ -(a.amp / 2 * P + C * ε)
  high : a.amp / 2 * P + C * ε ≤ (r.2 : ℝ) + 1 / 2
  margin : |a.digGain| / 2 ^ a.fracBits * (a.amp / 2 * R + (∑ i ∈ range F.length, |F.getD i 0|) * (1 / 2 + C * ε))
      + a.amp / 2 * |a.digGain / 2 ^ a.fracBits * linkResponse a.chan g f c a.phase F δ - 2 * a.rxFactor / a.amp|
    < ((getLevels a.constellation false).getD 1 0 - (getLevels a.constellation false).getD 0 0) / 2

/-- A channel object with the taps `f` and the pulse `g`, at rest; noise of at most `ε`. -/
structure DispersiveChannel (d : ChannelArgs) (g : ℝ → ℝ) (f : List ℝ) (amp : ℝ) (M : ℕ) (ε : ℝ) (noises : List (List ℝ)) : Prop where
  type : d.chType = .isiAwgn
  pulse : IsPulse d.pulse d.rolloff d.osr g
  span : 0 < d.span
  osr : 0 < d.osr
  fir : d.fir = some f
  taps : f ≠ []
  iir : d.iir = none
  rest : d.pulseZi = none ∧ d.chZi = none
  chunk : 2 ≤ M
  bounded : ∃ L, PeakGain d L ∧ ∀ snr, d.snr = some snr → ∃ Z, (∀ nz ∈ noises, nz.length = M ∧ ∀ z ∈ nz, |z| ≤ Z) ∧
    2 * (amp / 2 * L * (∑ k ∈ range f.length, |f.getD k 0|) * Z) ^ 2 ≤ ε ^ 2 * (10 : ℝ) ^ (snr / 10)

/-- What a symbol of value one contributes to the slicer input `l` symbols later when the decisions `δ` symbols late are fed back
through the taps `B` (decided levels are `2·rxFactor/amp` times the transmitted ones). -/
noncomputable def fedResponse (a : LinkArgs) (g : ℝ → ℝ) (f : List ℝ) (c : ℕ → ℝ) (F B : List ℝ) (δ l : ℕ) : ℝ :=
  a.digGain / 2 ^ a.fracBits * linkResponse a.chan g f c a.phase F l
    - 2 * a.rxFactor / a.amp * (if δ < l then B.getD (l - δ - 1) 0 else 0)

/-- The eye with decision feedback is open: as `OpenLinkEye`, with the intersymbol interference `R` that remains after the feedback;
`Q` is what wrong feedback may disturb. -/
structure OpenFeedbackEye (a : LinkArgs) (r : ℤ × ℤ) (g : ℝ → ℝ) (f : List ℝ) (c : ℕ → ℝ) (F B : List ℝ) (δ : ℕ)
    (ε C P R Q : ℝ) : Prop where
  noise : 0 ≤ ε
  ctle : ∀ M, ∑ m ∈ range M, |c m| ≤ C
  peak : ∀ M, ∑ l ∈ range M, |symbolResponse a.chan g f c (a.phase + l * a.chan.osr)| ≤ P
  isi : ∀ M, ∑ l ∈ (range M).erase δ, |fedResponse a g f c F B δ l| ≤ R
  low : (r.1 : ℝ) - 1 / 2 ≤ -(a.amp / 2 * P + C * ε)
  high : a.amp / 2 * P + C * ε ≤ (r.2 : ℝ) + 1 / 2
  margin : a.amp / 2 * R + |a.digGain| / 2 ^ a.fracBits * ((∑ i ∈ range F.length, |F.getD i 0|) * (1 / 2 + C * ε))
      + a.amp / 2 * |fedResponse a g f c F B δ δ - 2 * a.rxFactor / a.amp| + Q
    < ((getLevels a.constellation false).getD 1 0 - (getLevels a.constellation false).getD 0 0) / 2

end Verif
