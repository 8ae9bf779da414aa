import Verif.Model.SimLink
import Verif.Props.Pulse
import Verif.Props.Filter

/-! Helper lemmas about the channel object of the example simulation. -/

open Finset

namespace Verif
open Spec

theorem lfStep_self (b : List ℝ) (hb : b.getD 0 0 = 1) (n : ℕ) (x : ℝ) :
    lfStep id b b (List.replicate n 0) x = (x, List.replicate n 0) := by
  unfold lfStep
  simp only [id, replicate_getD, hb, one_mul, zero_add, List.length_replicate]
  congr 1
  apply List.ext_getElem
  · simp
  · intro i h1 h2
    simp

theorem lfRun_self (b : List ℝ) (hb : b.getD 0 0 = 1) (n : ℕ) (x : List ℝ) :
    lfRun id b b (List.replicate n 0) x = (x, List.replicate n 0) := by
  induction x with
  | nil => rfl
  | cons x xs ih =>
    rw [lfRun]
    simp only [lfStep_self b hb, ih]

theorem awgnChannel_self [DecidableEq ℝ] (b : List ℝ) (h0 : b.getD 0 0 ≠ 0) (x : List ℝ) (hx : x ≠ []) :
    awgnChannel x b (.vec b) (some (List.replicate (max b.length b.length - 1) 0))
      = .ok (x, List.replicate (max b.length b.length - 1) 0) := by
  have hl : 0 < b.length := by
    rcases Nat.eq_zero_or_pos b.length with h | h
    · rw [List.length_eq_zero_iff] at h; rw [h] at h0; exact absurd rfl h0
    · exact h
  rw [awgnChannel_eq x b (.vec b) (some (List.replicate (max b.length b.length - 1) 0)) hl hl h0 (by simp [Denom.coeffs])
    (Or.inr (List.length_pos_of_ne_nil hx))]
  simp only [Denom.coeffs, Option.getD_some]
  rw [lfRun_self _ (by rw [map_div_getD]; exact div_self h0)]

/-- the memory with which the channel starts -/
theorem channelInit_rest (d : ChannelArgs) (a : List ℝ) (ha : d.iirCoefs = some a) (hs : 0 < d.span) (ho : 0 < d.osr)
    (hf : 0 < d.firCoefs.length) (hp : d.pulseZi = none) (hc : d.chZi = none) :
    channelInit d = .ok ⟨List.replicate (max a.length d.firCoefs.length - 1) 0, List.replicate (d.osr * d.span * 2 - 1) 0⟩ := by
  unfold channelInit
  simp only [ha, hp, hc, true_and, Option.getD_none]
  rw [if_neg (by omega), if_neg (by have := Nat.mul_pos hs ho; omega), Nat.mul_comm d.span]

theorem pulseShape_rest (x : List ℝ) (osr span : ℕ) (name : String) (β : ℝ) :
    pulseShape x osr span name β (some (List.replicate (osr * span * 2 - 1) 0)) = pulseShape x osr span name β none := by
  unfold pulseShape shapeWith
  simp

theorem awgnChannelSnr_none (x b : List ℝ) (a : Denom ℝ) (zi : Option (List ℝ)) (noise y z : List ℝ)
    (h : @awgnChannel ℝ _ (fun _ _ => Classical.propDecidable _) x b a zi = .ok (y, z)) :
    awgnChannelSnr noise x b a none zi = .ok (some y, z) := by
  unfold awgnChannelSnr
  rw [h]
  rfl

/-- a noise-free call in terms of its two filters -/
theorem channelCall_isi (d : ChannelArgs) (m : ChannelMem) (a noise x p zp y zc : List ℝ) (ht : d.chType = .isiAwgn)
    (hsnr : d.snr = none) (ha : d.iirCoefs = some a)
    (h1 : pulseShape x d.osr d.span d.pulse d.rolloff (some m.pulse) = .ok (p, zp))
    (h2 : @awgnChannel ℝ _ (fun _ _ => Classical.propDecidable _) p d.firCoefs (.vec a) (some m.ch) = .ok (y, zc)) :
    channelCall d m noise x = .ok (.signal y, ⟨zc, zp⟩) := by
  unfold channelCall
  rw [h1]
  simp only [ht, ha, hsnr, bind, Except.bind, awgnChannelSnr_none _ _ _ _ noise _ _ h2]
  rfl

theorem channelCall_pulse (d : ChannelArgs) (m : ChannelMem) (noise x p zp : List ℝ) (ht : d.chType = .pulse)
    (h1 : pulseShape x d.osr d.span d.pulse d.rolloff (some m.pulse) = .ok (p, zp)) :
    channelCall d m noise x = .ok (.signal p, ⟨m.ch, zp⟩) := by
  unfold channelCall
  rw [h1]
  simp only [ht, bind, Except.bind]
  rfl

theorem bind_eq_ok {α β : Type} (x : Py α) (f : α → Py β) (b : β) (h : (x >>= f) = .ok b) :
    ∃ a, x = .ok a ∧ f a = .ok b := by
  cases x with
  | error e => cases h
  | ok a => exact ⟨a, rfl, h⟩

theorem channelCalls_isi (d : ChannelArgs) (a : List ℝ) (ht : d.chType = .isiAwgn)
    (hsnr : d.snr = none) (ha : d.iirCoefs = some a) (cs : List (List ℝ)) (m : ChannelMem) (ps ys : List (List ℝ))
    (zp zc : List ℝ)
    (h1 : pulseShapeChunks d.osr d.span d.pulse d.rolloff (some m.pulse) cs = .ok (ps, some zp))
    (h2 : @awgnChannelChunks ℝ _ (fun _ _ => Classical.propDecidable _) d.firCoefs (.vec a) (some m.ch) ps = .ok (ys, some zc)) :
    channelCalls d m cs = .ok (ys.map .signal, ⟨zc, zp⟩) := by
  induction cs generalizing m ps ys with
  | nil =>
    cases h1
    cases h2
    rfl
  | cons c cs ih =>
    rw [pulseShapeChunks] at h1
    obtain ⟨p, hp, h1⟩ := bind_eq_ok _ _ _ h1
    obtain ⟨r, hr, h1⟩ := bind_eq_ok _ _ _ h1
    obtain ⟨r1, r2⟩ := r
    cases h1
    rw [awgnChannelChunks] at h2
    obtain ⟨y, hy, h2⟩ := bind_eq_ok _ _ _ h2
    obtain ⟨q, hq, h2⟩ := bind_eq_ok _ _ _ h2
    obtain ⟨q1, q2⟩ := q
    cases h2
    rw [channelCalls, channelCall_isi d m a [] c p.1 p.2 y.1 y.2 ht hsnr ha hp hy]
    simp only [bind, Except.bind]
    rw [ih ⟨y.2, p.2⟩ _ _ hr hq]
    rfl

theorem channelCalls_pulse (d : ChannelArgs) (ht : d.chType = .pulse) (cs : List (List ℝ)) (m : ChannelMem)
    (ps : List (List ℝ)) (zp : List ℝ)
    (h1 : pulseShapeChunks d.osr d.span d.pulse d.rolloff (some m.pulse) cs = .ok (ps, some zp)) :
    channelCalls d m cs = .ok (ps.map .signal, ⟨m.ch, zp⟩) := by
  induction cs generalizing m ps with
  | nil =>
    cases h1
    rfl
  | cons c cs ih =>
    rw [pulseShapeChunks] at h1
    obtain ⟨p, hp, h1⟩ := bind_eq_ok _ _ _ h1
    obtain ⟨r, hr, h1⟩ := bind_eq_ok _ _ _ h1
    obtain ⟨r1, r2⟩ := r
    cases h1
    rw [channelCalls, channelCall_pulse d m [] c p.1 p.2 ht hp]
    simp only [bind, Except.bind]
    rw [ih ⟨m.ch, p.2⟩ _ hr]
    rfl

end Verif
