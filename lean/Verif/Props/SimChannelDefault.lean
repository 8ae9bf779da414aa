import Verif.Props.SimChannel

/-!
# The channel object without coefficients (C72)
-/

open Finset

namespace Verif
open Spec

/-- **C72.** A noise-free channel object for which no coefficients are given is transparent: it returns the superposition of
the pulses, one per symbol. -/
theorem C72_default (d : ChannelArgs) (g : ℝ → ℝ) (hg : IsPulse d.pulse d.rolloff d.osr g) (hs : 0 < d.span)
    (ho : 0 < d.osr) (hf : d.fir = none) (hi : d.iir = none) (ht : d.chType = .isiAwgn)
    (hsnr : d.snr = none) (hp : d.pulseZi = none) (hc : d.chZi = none) (x : List ℝ) (hx : x ≠ []) (noise : List ℝ) :
    ∃ m y m', channelInit d = .ok m ∧ channelCall d m noise x = .ok (.signal y, m') ∧ y.length = x.length * d.osr ∧
      ∀ n : ℕ, n < x.length * d.osr → y.getD n 0
        = ∑ j ∈ range x.length, x.getD j 0 * truncated d.span g ((n : ℝ) / d.osr - j - d.span) := by
  have hic : d.iirCoefs = ({ d with fir := some [1] } : ChannelArgs).iirCoefs := by
    unfold ChannelArgs.iirCoefs; simp only [hi]
  have hfc : d.firCoefs = ({ d with fir := some [1] } : ChannelArgs).firCoefs := by
    unfold ChannelArgs.firCoefs; simp only [hf]; rfl
  have hinit : channelInit d = channelInit { d with fir := some [1] } := by
    unfold channelInit; rw [hic, hfc]
  have hcall : ∀ m, channelCall d m noise x = channelCall { d with fir := some [1] } m noise x := by
    intro m; unfold channelCall; rw [hic, hfc]
  obtain ⟨m, y, m', h1, h2, h3, h4⟩ := C72_response_partial { d with fir := some [1] } g hg hs ho [1] rfl (by simp) hi ht hsnr hp hc x hx
    noise
  refine ⟨m, y, m', hinit.trans h1, (hcall m).trans h2, h3, fun n hn => ?_⟩
  rw [h4 n hn]
  simp

example : ∃ m y m', channelInit { exChannel with fir := none } = .ok m ∧
    channelCall { exChannel with fir := none } m [] [1, -1, 3] = .ok (.signal y, m') ∧ y.length = 12 := by
  obtain ⟨m, y, m', h1, h2, h3, -⟩ := C72_default { exChannel with fir := none } rectFn (Or.inl ⟨rfl, rfl⟩) (by decide) (by decide)
    rfl rfl rfl rfl rfl rfl [1, -1, 3] (by simp) []
  exact ⟨m, y, m', h1, h2, h3⟩

end Verif
