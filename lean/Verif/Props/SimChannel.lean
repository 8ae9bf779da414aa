import Verif.Lemmas.SimChannel
import Verif.Props.Noise

/-!
# The channel object of the example simulation (C72)
-/

open Finset

namespace Verif
open Spec

/-- the pulse names that can be used -/
def UsablePulse (d : ChannelArgs) : Prop :=
  d.pulse = "rect" ∨ d.pulse = "sinc" ∨ ((d.pulse = "rcos" ∨ d.pulse = "rrc") ∧ d.rolloff ≠ 0)

/-- a channel with rectangular pulses, four samples per symbol and a three-tap response -/
noncomputable def exChannel : ChannelArgs :=
  { pulse := "rect", span := 2, chType := .isiAwgn, fir := some [1, 1 / 2, -1 / 4], rolloff := 0, osr := 4, snr := none }

/-- **C72** (partial: FIR responses only, see `C72_negative_iir`). A noise-free channel object without an IIR part sends
the superposition of the pulses, one per symbol, through the FIR taps. -/
theorem C72_response_partial (d : ChannelArgs) (g : ℝ → ℝ) (hg : IsPulse d.pulse d.rolloff d.osr g) (hs : 0 < d.span)
    (ho : 0 < d.osr) (f : List ℝ) (hf : d.fir = some f) (hf0 : f ≠ []) (hi : d.iir = none) (ht : d.chType = .isiAwgn)
    (hsnr : d.snr = none) (hp : d.pulseZi = none) (hc : d.chZi = none) (x : List ℝ) (hx : x ≠ []) (noise : List ℝ) :
    ∃ m y m', channelInit d = .ok m ∧ channelCall d m noise x = .ok (.signal y, m') ∧ y.length = x.length * d.osr ∧
      ∀ n : ℕ, n < x.length * d.osr → y.getD n 0 = ∑ k ∈ range f.length, f.getD k 0 *
        (if k ≤ n then ∑ j ∈ range x.length, x.getD j 0 * truncated d.span g (((n - k : ℕ) : ℝ) / d.osr - j - d.span)
          else 0) := by
  have hx0 := List.length_pos_of_ne_nil hx
  have hf1 := List.length_pos_of_ne_nil hf0
  have hfc : d.firCoefs = f := by unfold ChannelArgs.firCoefs; rw [hf]; rfl
  have hic : d.iirCoefs = some [1] := by unfold ChannelArgs.iirCoefs; rw [hi]
  obtain ⟨p, zp, e1, hpl, -, hpv⟩ := C50_superposition x d.osr d.span d.pulse d.rolloff g hg ho hs hx0
  have hpl0 : 0 < p.length := by rw [hpl]; exact Nat.mul_pos hx0 ho
  classical
  obtain ⟨y, zc, e2, hyl, hyd⟩ := @C44_difference_equation ℝ _ (fun _ _ => Classical.propDecidable _) f (.vec [1]) p hf1
    (by decide) (by simp [Denom.coeffs]) hpl0
  have hinit := channelInit_rest d [1] hic hs ho (by rw [hfc]; exact hf1) hp hc
  have e2' : @awgnChannel ℝ _ (fun _ _ => Classical.propDecidable _) p d.firCoefs (.vec [1])
      (some (List.replicate (max ([1] : List ℝ).length d.firCoefs.length - 1) 0)) = .ok (y, zc) := by
    rw [← e2, hfc]; rfl
  refine ⟨_, y, ⟨zc, zp⟩, hinit, channelCall_isi d _ [1] noise x p zp y zc ht hsnr hic ?_ e2', by rw [hyl, hpl], ?_⟩
  · rw [pulseShape_rest]; exact e1
  · intro n hn
    have := hyd n (by rw [hpl]; exact hn)
    unfold DiffEq at this
    simp only [Denom.coeffs, List.getD_cons_zero, one_mul, List.length_cons, List.length_nil, zero_add, Ico_self,
      sum_empty, sub_zero, withPast_nat] at this
    rw [this]
    apply sum_congr rfl
    intro k _
    congr 1
    by_cases hk : k ≤ n
    · rw [if_pos hk, show ((n : ℤ) - (k : ℤ)) = ((n - k : ℕ) : ℤ) by omega, withPast_nat]
      exact hpv _ (by omega)
    · rw [if_neg hk, show ((n : ℤ) - (k : ℤ)) = -((k - n - 1 : ℕ) : ℤ) - 1 by omega, withPast_neg]
      rfl

example : ∃ m y m', channelInit exChannel = .ok m ∧ channelCall exChannel m [] [1, -1, 3] = .ok (.signal y, m') ∧
    y.length = 12 := by
  obtain ⟨m, y, m', h1, h2, h3, -⟩ := C72_response_partial exChannel rectFn (Or.inl ⟨rfl, rfl⟩) (by decide) (by decide)
    [1, 1 / 2, -1 / 4] rfl (by simp) rfl rfl rfl rfl rfl [1, -1, 3] (by simp) []
  exact ⟨m, y, m', h1, h2, h3⟩

/-- **C72.** Without noise, non-empty chunks passed one after the other through the same object give the output of one
call on the whole signal, and leave the same memories, whatever the (valid) initial memories. -/
theorem C72_chunks (d : ChannelArgs) (hd : UsablePulse d) (hs : 0 < d.span) (ho : 0 < d.osr) (a : List ℝ)
    (ha : d.iirCoefs = some a) (ha0 : a.getD 0 0 ≠ 0) (hf : d.firCoefs ≠ []) (hsnr : d.snr = none)
    (ht : d.chType = .isiAwgn ∨ d.chType = .pulse) (m : ChannelMem)
    (hmp : m.pulse.length = d.osr * d.span * 2 - 1) (hmc : m.ch.length = max d.firCoefs.length a.length - 1)
    (cs : List (List ℝ)) (hne : cs ≠ []) (hcs : ∀ c ∈ cs, c ≠ []) :
    ∃ (ys : List (List ℝ)) (m' : ChannelMem), channelCalls d m cs = .ok (ys.map .signal, m') ∧
      channelCall d m [] cs.flatten = .ok (.signal ys.flatten, m') ∧
      ys.map List.length = cs.map (fun c => c.length * d.osr) := by
  have hcs' : ∀ c ∈ cs, 0 < c.length := fun c hc => List.length_pos_of_ne_nil (hcs c hc)
  obtain ⟨ps, zp, e1, e2, e3⟩ := C50_chunks d.osr d.span d.pulse d.rolloff ho hs hd (some m.pulse)
    (by intro z hz; cases hz; exact hmp) cs hne hcs'
  rcases ht with ht | ht
  · have hal : 0 < a.length := by
      rcases Nat.eq_zero_or_pos a.length with h | h
      · rw [List.length_eq_zero_iff] at h; rw [h] at ha0; exact absurd rfl ha0
      · exact h
    have hpsl : ∀ c ∈ ps, 0 < c.length := by
      intro p hp
      have h1 : p.length ∈ cs.map (fun c => c.length * d.osr) := by rw [← e3]; exact List.mem_map_of_mem hp
      obtain ⟨c, hc, e⟩ := List.mem_map.1 h1
      rw [← e]
      exact Nat.mul_pos (hcs' c hc) ho
    have hpsne : ps ≠ [] := by
      intro h
      rw [h] at e3
      exact hne (by simpa using e3.symm)
    obtain ⟨ys, y, zc, f1, f2, f3, f4⟩ := @C44_chunks ℝ _ (fun _ _ => Classical.propDecidable _) d.firCoefs (.vec a)
      (List.length_pos_of_ne_nil hf) hal ha0 (some m.ch) (by intro z hz; cases hz; exact hmc) ps hpsne (Or.inr hpsl)
    refine ⟨ys, ⟨zc, zp⟩, channelCalls_isi d a ht hsnr ha cs m ps ys zp zc e1 f1, ?_, by rw [f3, e3]⟩
    exact channelCall_isi d m a [] _ _ zp _ zc ht hsnr ha e2 (by rw [f2, f4])
  · exact ⟨ps, ⟨m.ch, zp⟩, channelCalls_pulse d ht cs m ps zp e1, channelCall_pulse d m [] _ _ zp ht e2, e3⟩

example : ∃ (ys : List (List ℝ)) (m' : ChannelMem),
    channelCalls exChannel ⟨[0, 0], List.replicate 15 0⟩ [[1, -1], [3]] = .ok (ys.map .signal, m') ∧
    channelCall exChannel ⟨[0, 0], List.replicate 15 0⟩ [] [1, -1, 3] = .ok (.signal ys.flatten, m') ∧
    ys.map List.length = [8, 4] :=
  C72_chunks exChannel (Or.inl rfl) (by decide) (by decide) [1] rfl (by simp) (by simp [exChannel, ChannelArgs.firCoefs]) rfl
    (Or.inl rfl) _ rfl rfl _ (by simp) (by simp)

/-- **C72.** The requested noise is added to the noise-free output, scaled by one factor, and does not enter the memories:
with a chunk of at least two output samples the factor belongs to the requested ratio. -/
theorem C72_noise (d : ChannelArgs) (ht : d.chType = .isiAwgn) (snr : ℝ) (m m' : ChannelMem) (noise x y : List ℝ)
    (h : channelCall { d with snr := none } m noise x = .ok (.signal y, m')) (hl : 2 ≤ y.length)
    (hn : noise.length = y.length) :
    ∃ y' s, channelCall { d with snr := some snr } m noise x = .ok (.signal y', m') ∧ y'.length = y.length ∧ 0 ≤ s ∧
      (∀ n : ℕ, n < y.length → y'.getD n 0 = y.getD n 0 + s * noise.getD n 0) ∧
      unbiasedVar y.length (fun n => y.getD n 0) + avg y.length (fun n => y.getD n 0) ^ 2 = s ^ 2 * (10 : ℝ) ^ (snr / 10) := by
  obtain ⟨s, y', -, h2, h3, h4, h5, h6, -⟩ := C59_ratio y noise snr hl hn
  refine ⟨y', s, ?_, h3, h5, h4, h6⟩
  have key : ∀ o : Option ℝ, channelCall { d with snr := o } m noise x =
      (pulseShape x d.osr d.span d.pulse d.rolloff (some m.pulse)).bind (fun p =>
        match d.iirCoefs with
        | none => .error .typeError
        | some a => (awgnChannelSnr noise p.1 d.firCoefs (.vec a) o (some m.ch)).bind
            (fun r => .ok (ChOut.ofOption r.1, ⟨r.2, p.2⟩))) := by
    intro o
    obtain ⟨_, _, ct, _, _, _, _, _, _, _⟩ := d
    simp only at ht
    subst ht
    rfl
  rw [key] at h ⊢
  obtain ⟨p, hp, h⟩ := bind_eq_ok _ _ _ h
  rw [hp]
  simp only [Except.bind]
  cases ha : d.iirCoefs with
  | none => rw [ha] at h; cases h
  | some a =>
    rw [ha] at h
    obtain ⟨r, hr, h⟩ := bind_eq_ok (awgnChannelSnr noise p.1 d.firCoefs (Denom.vec a) none (some m.ch)) _ _ h
    obtain ⟨r1, r2⟩ := r
    cases r1 with
    | none => cases h
    | some r1 =>
      cases h
      simp only [C59_channel noise p.1 d.firCoefs (.vec a) snr (some m.ch) y r2 hr, h2]
      rfl

/-- **C72** *violated* when an IIR response is given: it is replaced by the FIR taps, so that for a non-zero first tap the
channel has no intersymbol interference at all, whatever the FIR and IIR coefficients: the output is the pulse signal. -/
theorem C72_negative_iir (d : ChannelArgs) (f iir : List ℝ) (hf : d.fir = some f) (hi : d.iir = some iir)
    (h0 : f.getD 0 0 ≠ 0) (hs : 0 < d.span) (ho : 0 < d.osr) (ht : d.chType = .isiAwgn) (hsnr : d.snr = none)
    (hp : d.pulseZi = none) (hc : d.chZi = none) (x p zp noise : List ℝ) (hx : p ≠ [])
    (hps : pulseShape x d.osr d.span d.pulse d.rolloff none = .ok (p, zp)) :
    ∃ m, channelInit d = .ok m ∧ channelCall d m noise x = .ok (.signal p, ⟨m.ch, zp⟩) := by
  have hfc : d.firCoefs = f := by unfold ChannelArgs.firCoefs; rw [hf]; rfl
  have hic : d.iirCoefs = some f := by unfold ChannelArgs.iirCoefs; rw [hi]; exact hf
  have hf1 : 0 < f.length := by
    rcases Nat.eq_zero_or_pos f.length with h | h
    · rw [List.length_eq_zero_iff] at h; rw [h] at h0; exact absurd rfl h0
    · exact h
  have hinit := channelInit_rest d f hic hs ho (by rw [hfc]; exact hf1) hp hc
  refine ⟨_, hinit, ?_⟩
  refine channelCall_isi d _ f noise x p zp p _ ht hsnr hic (by rw [pulseShape_rest]; exact hps) ?_
  rw [hfc]
  exact awgnChannel_self f h0 p hx

/-- two different responses with the same (undistorted) output: the call on rectangular pulses succeeds for both -/
example (iir : List ℝ) : ∃ m p zp, channelInit { exChannel with iir := some iir } = .ok m ∧
    pulseShape [1, -1, 3] 4 2 "rect" 0 none = .ok (p, zp) ∧
    channelCall { exChannel with iir := some iir } m [] [1, -1, 3] = .ok (.signal p, ⟨m.ch, zp⟩) := by
  obtain ⟨p, zp, e, hl, -⟩ := C50_rect [1, -1, 3] 4 2 0 (by decide) (by decide) (by simp)
  obtain ⟨m, h1, h2⟩ := C72_negative_iir { exChannel with iir := some iir } [1, 1 / 2, -1 / 4] iir rfl rfl (by simp)
    (by simp [exChannel]) (by simp [exChannel]) rfl rfl rfl rfl [1, -1, 3] p zp [] (by intro h; rw [h] at hl; simp at hl) e
  exact ⟨m, p, zp, h1, e, h2⟩

/-- **C72** *violated*: with an IIR response, a delayed FIR response (first tap 0) raises ValueError, and no FIR response
raises TypeError. -/
theorem C72_negative_iir_error (d : ChannelArgs) (iir : List ℝ) (hi : d.iir = some iir) (ht : d.chType = .isiAwgn)
    (m : ChannelMem) (x noise : List ℝ) (p : List ℝ × List ℝ)
    (hps : pulseShape x d.osr d.span d.pulse d.rolloff (some m.pulse) = .ok p) :
    (∀ f, d.fir = some f → f.getD 0 0 = 0 → channelCall d m noise x = .error .valueError) ∧
    (d.fir = none → channelCall d m noise x = .error .typeError) := by
  constructor
  · intro f hf h0
    have hfc : d.firCoefs = f := by unfold ChannelArgs.firCoefs; rw [hf]; rfl
    have hic : d.iirCoefs = some f := by unfold ChannelArgs.iirCoefs; rw [hi]; exact hf
    unfold channelCall
    rw [hps]
    simp only [ht, hic, bind, Except.bind, hfc]
    have : ∀ inst : DecidableEq ℝ, @awgnChannel ℝ _ inst p.1 f (.vec f) (some m.ch) = .error .valueError := by
      intro inst
      unfold awgnChannel lfilter
      have h0' : (Denom.vec f).coeffs.getD 0 0 = 0 := h0
      rw [if_pos (Or.inr (Or.inr h0'))]
    unfold awgnChannelSnr
    rw [this]
    rfl
  · intro hf
    have hic : d.iirCoefs = none := by unfold ChannelArgs.iirCoefs; rw [hi]; exact hf
    unfold channelCall
    rw [hps]
    simp only [ht, hic, bind, Except.bind]

/-- **C72** *violated* for an unknown channel type: the call returns None instead of raising. -/
theorem C72_negative_unknown_type (d : ChannelArgs) (ht : d.chType = .other) (m : ChannelMem) (x noise p zp : List ℝ)
    (hps : pulseShape x d.osr d.span d.pulse d.rolloff (some m.pulse) = .ok (p, zp)) :
    channelCall d m noise x = .ok (.pyNone, ⟨m.ch, zp⟩) := by
  unfold channelCall
  rw [hps]
  simp only [ht, bind, Except.bind]
  rfl

end Verif
