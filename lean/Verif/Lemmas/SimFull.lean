import Verif.Model.SimFull
import Verif.Lemmas.Ctle
import Verif.Lemmas.Filter
import Verif.Lemmas.SimChannel
import Verif.Lemmas.SimLink
import Verif.Props.Mapping
import Verif.Props.SimEq
import Verif.Props.SimAdc
import Mathlib.Tactic.IntervalCases

/-! Helper lemmas about the whole link of the example simulation. -/

namespace Verif
open Spec

/-! ### CTLE object -/

/-- the CTLE is one fixed filter whose memory has as many entries as the larger of the numbers of zeros and poles -/
theorem ctle_run (zs ps : List ℝ) (dc fs osr : ℝ) (hz : zs ≠ []) (hp : ps ≠ []) (hz0 : ∀ z ∈ zs, z ≠ 0)
    (hp0 : ∀ p ∈ ps, p ≠ 0) (hF : 0 < fs * osr) :
    ∃ b a : List ℝ, (∀ x z : List ℝ, z.length = max zs.length ps.length →
        ctle x zs ps dc fs osr (some z) = .ok (some ((lfRun id b a z x).1, some (lfRun id b a z x).2))) ∧
      (∀ x : List ℝ, ctle x zs ps dc fs osr none
        = .ok (some ((lfRun id b a (List.replicate (max zs.length ps.length) 0) x).1, none))) ∧
      (zs = ps → dc = 0 → b = a ∧ a.getD 0 0 = 1) := by
  have hd := prod_pos_of ps (fs * osr) hF
  have hden := rawNum_zero ps hp0 (max zs.length ps.length) 1 (fs * osr) (le_max_right _ _)
  rw [one_mul] at hden
  have h1 := ctleCoeffs_eq zs ps ((10 : ℝ) ^ (dc / 20)) fs osr hz hp hz0 hp0
  have hnz : (rawNum ps (max zs.length ps.length) 1 (fs * osr)).getD 0 0 ≠ 0 := by rw [hden]; exact hd.ne'
  rw [sciNormalize_eq _ _ hnz] at h1
  set D := rawNum ps (max zs.length ps.length) 1 (fs * osr) with hD
  set N := rawNum zs (max zs.length ps.length) ((10 : ℝ) ^ (dc / 20)) (fs * osr) with hN
  have hDl : D.length = max zs.length ps.length + 1 := by simp [hD, rawNum]
  have hNl : N.length = max zs.length ps.length + 1 := by simp [hN, rawNum]
  set a := D.map (· / D.getD 0 0) with ha
  set b := (N.map (· / D.getD 0 0)).drop (min ((N.map (· / D.getD 0 0)).takeWhile
        (fun v => decide (|v| ≤ 1 / 10 ^ 14))).length (N.length - 1)) with hb
  have hc : ctleCoeffs zs ps ((10 : ℝ) ^ (dc / 20)) fs osr = .ok (some (b, a)) := h1
  have hal : a.length = max zs.length ps.length + 1 := by rw [ha, List.length_map, hDl]
  have hbl : b.length ≤ max zs.length ps.length + 1 := by
    rw [hb, List.length_drop, List.length_map, hNl]; omega
  have hbp : 0 < b.length := by
    rw [hb, List.length_drop, List.length_map, hNl]; omega
  have hps := List.length_pos_of_ne_nil hp
  have ha0 : a.getD 0 0 = 1 := by
    rw [ha, getD_map_lt _ 0 0 _ (by omega), div_self hnz]
  have hmax : max b.length a.length - 1 = max zs.length ps.length := by
    rw [max_eq_right (by omega), hal]; omega
  have hone : ∀ l : List ℝ, l.map (· / a.getD 0 0) = l := by
    intro l; rw [ha0]; simp
  have hrun : ∀ x z : List ℝ, z.length = max zs.length ps.length → lfilter b a x z = .ok (lfRun id b a z x) := by
    intro x z hzl
    unfold lfilter
    rw [if_neg (by rintro (h | h | h) <;> first | omega | (rw [ha0] at h; exact one_ne_zero h)),
      if_neg (by rw [hmax, hzl]; simp), if_neg (by omega)]
    simp only [hone]
  refine ⟨b, a, fun x z hzl => ?_, fun x => ?_, fun he h0 => ⟨?_, ha0⟩⟩
  · unfold ctle ctleWith
    rw [hc]
    show ((lfilter b a x z).bind _) = _
    rw [hrun x z hzl]
    rfl
  · unfold ctle ctleWith
    rw [hc]
    show ((lfilter b a x (List.replicate (max b.length a.length - 1) 0)).bind _) = _
    rw [hmax, hrun x _ (by simp)]
    rfl
  · have hND : N = D := by rw [hN, hD, he, h0]; norm_num
    rw [hb, hND, ← ha]
    obtain ⟨v, l, hvl⟩ : ∃ v l, a = v :: l := List.exists_cons_of_length_pos (by omega)
    have hv : v = 1 := by rw [hvl] at ha0; simpa using ha0
    rw [hvl, hv, List.takeWhile_cons, if_neg (by norm_num)]
    simp

theorem ctleObjCalls_run (zs ps : List ℝ) (dc fs osr : ℝ) (b a : List ℝ)
    (h : ∀ x z : List ℝ, z.length = max zs.length ps.length →
        ctle x zs ps dc fs osr (some z) = .ok (some ((lfRun id b a z x).1, some (lfRun id b a z x).2)))
    (cs : List (List ℝ)) : ∀ z : List ℝ, z.length = max zs.length ps.length →
      ∃ ys : List (List ℝ), ctleObjCalls zs ps dc fs osr z cs = .ok (some (ys, (lfRun id b a z cs.flatten).2)) ∧
        ys.flatten = (lfRun id b a z cs.flatten).1 ∧ ys.map List.length = cs.map List.length := by
  induction cs with
  | nil => exact fun z _ => ⟨[], rfl, rfl, rfl⟩
  | cons c cs ih =>
    intro z hz
    obtain ⟨ys, h1, h2, h3⟩ := ih (lfRun id b a z c).2 (by rw [lfRun_state_length, hz])
    refine ⟨(lfRun id b a z c).1 :: ys, ?_, ?_, ?_⟩
    · have hc : ctleObjCall zs ps dc fs osr z c = .ok (some (lfRun id b a z c)) := by
        unfold ctleObjCall
        rw [h c z hz]
        rfl
      rw [ctleObjCalls, hc]
      simp only [bind, Except.bind]
      rw [h1, List.flatten_cons, lfRun_append]
      rfl
    · rw [List.flatten_cons, List.flatten_cons, lfRun_append, h2]
    · simp [h3, lfRun_length]

/-! ### Composition -/

theorem receiverCalls_of (a : LinkArgs) (cs ws ds es : List (List ℝ)) (ss : List (List Int)) (bs : List (List ℚ))
    (zi z' : List ℝ) (o o' : EqObj ℝ)
    (h1 : ctleObjCalls a.zeros a.poles a.dcGain a.fs a.ctleOsr zi cs = .ok (some (ws, z')))
    (h2 : adcCalls a.totalBits a.fracBits a.quant a.adcOsr a.sampleRate a.phase ws = .ok ds)
    (h3 : eqCalls o ds = .ok (es, o'))
    (h4 : List.Forall₂ (fun e s => recoverSymbols (e.map (fun v => a.digGain * v)) a.constellation
      (receiverLevels a.txLevels a.amp a.rxFactor) = .ok s) es ss)
    (h5 : List.Forall₂ (fun s b => decoder a.coding s = .ok b) ss bs) :
    receiverCalls a ⟨zi, o⟩ cs = .ok (some (List.zipWith RxOut.mk ss bs, ⟨z', o'⟩)) := by
  induction cs generalizing ws ds es ss bs zi o with
  | nil =>
    cases h1
    cases h2
    cases h3
    cases h4
    cases h5
    rfl
  | cons c cs ih =>
    rw [ctleObjCalls] at h1
    obtain ⟨w, hw, h1⟩ := bind_eq_ok _ _ _ h1
    cases w with
    | none => cases h1
    | some w =>
      obtain ⟨r, hr, h1⟩ := bind_eq_ok _ _ _ h1
      cases r with
      | none => cases h1
      | some r =>
        obtain ⟨r1, r2⟩ := r
        cases h1
        rw [adcCalls] at h2
        obtain ⟨d, hd, h2⟩ := bind_eq_ok _ _ _ h2
        obtain ⟨ds', hds, h2⟩ := bind_eq_ok _ _ _ h2
        cases h2
        rw [eqCalls] at h3
        obtain ⟨e, he, h3⟩ := bind_eq_ok _ _ _ h3
        obtain ⟨q, hq, h3⟩ := bind_eq_ok _ _ _ h3
        obtain ⟨q1, q2⟩ := q
        cases h3
        cases h4 with
        | @cons _ s0 _ ss' h4a h4b =>
          cases h5 with
          | @cons _ b0 _ bs' h5a h5b =>
            have hone : receiverCall a ⟨zi, o⟩ c = .ok (some (⟨s0, b0⟩, ⟨w.2, e.2⟩)) := by
              unfold receiverCall
              rw [hw]
              simp only [bind, Except.bind]
              rw [hd]
              simp only []
              rw [he]
              simp only []
              rw [h4a]
              simp only []
              rw [h5a]
              rfl
            rw [receiverCalls, hone]
            simp only [bind, Except.bind]
            rw [ih _ _ _ _ _ _ _ hr hds hq h4b h5b]
            rfl

theorem transmitterCalls_of (a : LinkArgs) {P : List Int → List ℝ → Prop} (k : ℕ) (seed seed' : List Int)
    (ps : List (List Int)) (h : prbsGenDraw (getPolynomial a.prbs) a.chunk k seed = .ok (ps, seed'))
    (hP : ∀ x ∈ ps, ∃ s v, encoder a.rnd a.coding x = .ok s ∧ transmitSymbols s a.constellation a.txLevels = .ok v ∧ P s v) :
    ∃ ts, transmitterCalls a k seed = .ok (ts, seed') ∧ ts.map Prod.fst = ps ∧
      ∀ t ∈ ts, encoder a.rnd a.coding t.1 = .ok t.2.1 ∧ transmitSymbols t.2.1 a.constellation a.txLevels = .ok t.2.2 ∧
        P t.2.1 t.2.2 := by
  induction k generalizing seed ps with
  | zero =>
    cases h
    exact ⟨[], rfl, rfl, by simp⟩
  | succ k ih =>
    rw [prbsGenDraw] at h
    obtain ⟨g, hg, h⟩ := bind_eq_ok _ _ _ h
    obtain ⟨r, hr, h⟩ := bind_eq_ok _ _ _ h
    obtain ⟨r1, r2⟩ := r
    cases h
    obtain ⟨ts, h1, h2, h3⟩ := ih _ _ hr (fun x hx => hP x (by simp [hx]))
    obtain ⟨s, v, e1, e2, e3⟩ := hP g.1 (by simp)
    refine ⟨(g.1, s, v) :: ts, ?_, by simp [h2], ?_⟩
    · have hone : transmitterCall a seed = .ok ((g.1, s, v), g.2) := by
        unfold transmitterCall
        rw [hg]
        simp only [bind, Except.bind]
        rw [e1]
        simp only []
        rw [e2]
        rfl
      rw [transmitterCalls, hone]
      simp only [bind, Except.bind]
      rw [h1]
      rfl
    · intro t ht
      rcases List.mem_cons.1 ht with rfl | ht
      · exact ⟨e1, e2, e3⟩
      · exact h3 t ht

/-- a sequence of calls of one channel object with the noise samples of each call -/
noncomputable def channelRun (d : ChannelArgs) : ChannelMem → List (List ℝ) → List (List ℝ) → Py (List ChOut × ChannelMem)
  | m, nz :: nzs, c :: cs => do
    let s ← channelCall d m nz c
    let r ← channelRun d s.2 nzs cs
    return (s.1 :: r.1, r.2)
  | m, _, _ => .ok ([], m)

/-- `y'` is `y` with the noise of `awgn` (none if there is no SNR) -/
def Noised (snr : Option ℝ) (nz y y' : List ℝ) : Prop :=
  match snr with
  | none => y' = y
  | some s => awgn nz y s = some y'

theorem channelRun_pulse (d : ChannelArgs) (ht : d.chType = .pulse) (nzs cs : List (List ℝ)) (hl : nzs.length = cs.length)
    (m : ChannelMem) (ps : List (List ℝ)) (zp : List ℝ)
    (h1 : pulseShapeChunks d.osr d.span d.pulse d.rolloff (some m.pulse) cs = .ok (ps, some zp)) :
    channelRun d m nzs cs = .ok (ps.map .signal, ⟨m.ch, zp⟩) := by
  induction cs generalizing m ps nzs with
  | nil =>
    cases h1
    cases nzs with
    | nil => rfl
    | cons nz nzs => simp at hl
  | cons c cs ih =>
    cases nzs with
    | nil => simp at hl
    | cons nz nzs =>
      rw [pulseShapeChunks] at h1
      obtain ⟨p, hp, h1⟩ := bind_eq_ok _ _ _ h1
      obtain ⟨r, hr, h1⟩ := bind_eq_ok _ _ _ h1
      obtain ⟨r1, r2⟩ := r
      cases h1
      rw [channelRun, channelCall_pulse d m nz c p.1 p.2 ht hp]
      simp only [bind, Except.bind]
      rw [ih nzs (by simpa using hl) ⟨m.ch, p.2⟩ _ hr]
      rfl

/-- noise is added chunk by chunk to the pulse-shaped signal -/
theorem channelRun_awgn (d : ChannelArgs) (ht : d.chType = .awgn) (snr : ℝ) (hs : d.snr = some snr) (nzs cs : List (List ℝ))
    (hl : nzs.length = cs.length) (m : ChannelMem) (ps : List (List ℝ)) (zp : List ℝ)
    (h1 : pulseShapeChunks d.osr d.span d.pulse d.rolloff (some m.pulse) cs = .ok (ps, some zp))
    (hp2 : ∀ p ∈ ps, 2 ≤ p.length) :
    ∃ ys : List (List ℝ), channelRun d m nzs cs = .ok (ys.map .signal, ⟨m.ch, zp⟩) ∧ ys.length = ps.length ∧
      ∀ i, i < ps.length → Noised (some snr) (nzs.getD i []) (ps.getD i []) (ys.getD i []) := by
  induction cs generalizing m ps nzs with
  | nil =>
    cases h1
    cases nzs with
    | nil => exact ⟨[], rfl, rfl, by simp⟩
    | cons nz nzs => simp at hl
  | cons c cs ih =>
    cases nzs with
    | nil => simp at hl
    | cons nz nzs =>
      rw [pulseShapeChunks] at h1
      obtain ⟨p, hp, h1⟩ := bind_eq_ok _ _ _ h1
      obtain ⟨r, hr, h1⟩ := bind_eq_ok _ _ _ h1
      obtain ⟨r1, r2⟩ := r
      cases h1
      obtain ⟨ys, g1, g2, g3⟩ := ih nzs (by simpa using hl) ⟨m.ch, p.2⟩ _ hr (fun q hq => hp2 q (by simp [hq]))
      obtain ⟨y, hy⟩ : ∃ y, awgn nz p.1 snr = some y := by
        unfold awgn awgnStd sigPowerHat
        have := hp2 p.1 (by simp)
        rw [if_neg (by omega)]
        exact ⟨_, rfl⟩
      refine ⟨y :: ys, ?_, by simp [g2], ?_⟩
      · have hone : channelCall d m nz c = .ok (.signal y, ⟨m.ch, p.2⟩) := by
          unfold channelCall
          rw [hp]
          simp only [ht, hs, hy, bind, Except.bind]
          rfl
        rw [channelRun, hone]
        simp only [bind, Except.bind]
        rw [g1]
        rfl
      · intro i hi
        cases i with
        | zero => exact hy
        | succ i => simpa using g3 i (by simpa using hi)

/-- noise is added chunk by chunk to the output of the response -/
theorem channelRun_isi (d : ChannelArgs) (ht : d.chType = .isiAwgn) (nzs cs : List (List ℝ)) (hl : nzs.length = cs.length)
    (m m' : ChannelMem) (ps : List (List ℝ)) (h1 : channelCalls { d with snr := none } m cs = .ok (ps.map .signal, m'))
    (hp2 : ∀ p ∈ ps, 2 ≤ p.length) :
    ∃ ys : List (List ℝ), channelRun d m nzs cs = .ok (ys.map .signal, m') ∧ ys.length = ps.length ∧
      ∀ i, i < ps.length → Noised d.snr (nzs.getD i []) (ps.getD i []) (ys.getD i []) := by
  have key : ∀ (o : Option ℝ) m noise x, channelCall { d with snr := o } m noise x =
      (pulseShape x d.osr d.span d.pulse d.rolloff (some m.pulse)).bind (fun p =>
        match d.iirCoefs with
        | none => .error .typeError
        | some a => (awgnChannelSnr noise p.1 d.firCoefs (.vec a) o (some m.ch)).bind
            (fun r => .ok (ChOut.ofOption r.1, ⟨r.2, p.2⟩))) := by
    intro o m noise x
    obtain ⟨_, _, ct, _, _, _, _, _, _, _⟩ := d
    simp only at ht
    subst ht
    rfl
  induction cs generalizing m ps nzs with
  | nil =>
    have h1' := Except.ok.inj h1
    rw [Prod.mk.injEq] at h1'
    have : ps = [] := by simpa using h1'.1.symm
    subst this
    cases nzs with
    | nil => exact ⟨[], by rw [← h1'.2]; rfl, rfl, by simp⟩
    | cons nz nzs => simp at hl
  | cons c cs ih =>
    cases nzs with
    | nil => simp at hl
    | cons nz nzs =>
      rw [channelCalls] at h1
      obtain ⟨s, hs, h1⟩ := bind_eq_ok _ _ _ h1
      obtain ⟨q, hq, h1⟩ := bind_eq_ok _ _ _ h1
      obtain ⟨q1, q2⟩ := q
      obtain ⟨s1, s2⟩ := s
      have h1' := Except.ok.inj h1
      rw [Prod.mk.injEq] at h1'
      obtain ⟨e1, e2⟩ := h1'
      simp only [] at e1 e2 hq
      cases ps with
      | nil => cases e1
      | cons p ps =>
        rw [List.map_cons, List.cons.injEq] at e1
        obtain ⟨rfl, rfl⟩ := e1
        subst e2
        obtain ⟨ys, g1, g2, g3⟩ := ih nzs (by simpa using hl) s2 ps hq (fun q hq => hp2 q (by simp [hq]))
        obtain ⟨y, hy, hone⟩ : ∃ y, Noised d.snr nz p y ∧ channelCall d m nz c = .ok (.signal y, s2) := by
          have hk := key d.snr m nz c
          rw [show { d with snr := d.snr } = d from rfl] at hk
          rw [hk]
          rw [key none] at hs
          obtain ⟨w, hw, hs⟩ := bind_eq_ok _ _ _ hs
          rw [hw]
          simp only [Except.bind]
          cases hi : d.iirCoefs with
          | none => rw [hi] at hs; cases hs
          | some a =>
            rw [hi] at hs
            simp only [] at hs ⊢
            obtain ⟨v, hv, hs⟩ := bind_eq_ok _ _ _ hs
            unfold awgnChannelSnr at hv ⊢
            obtain ⟨u, hu, hv⟩ := bind_eq_ok _ _ _ hv
            cases hv
            rw [hu]
            have hs' := Except.ok.inj hs
            rw [Prod.mk.injEq] at hs'
            obtain ⟨hs1, hs2⟩ := hs'
            have hup : u.1 = p := by
              simp only [ChOut.ofOption] at hs1
              cases hs1
              rfl
            cases hsn : d.snr with
            | none =>
              refine ⟨p, rfl, ?_⟩
              rw [← hs2]
              show Except.ok (ChOut.signal u.1, _) = _
              rw [hup]
            | some snr =>
              obtain ⟨y, hy⟩ : ∃ y, awgn nz p snr = some y := by
                unfold awgn awgnStd sigPowerHat
                have := hp2 p (by simp)
                rw [if_neg (by omega)]
                exact ⟨_, rfl⟩
              refine ⟨y, hy, ?_⟩
              rw [← hs2]
              show Except.ok (ChOut.ofOption (awgn nz u.1 snr), _) = _
              rw [hup, hy]
              rfl
        refine ⟨y :: ys, ?_, by simp [g2], ?_⟩
        · rw [channelRun, hone]
          simp only [bind, Except.bind]
          rw [g1]
          rfl
        · intro i hi
          cases i with
          | zero => exact hy
          | succ i => simpa using g3 i (by simpa using hi)

theorem linkCalls_of (a : LinkArgs) (nzs : List (List ℝ)) (seed seed' : List Int) (m m' : ChannelMem) (rx rx' : RxMem)
    (ts : List (List Int × List Int × List ℝ)) (ys : List (List ℝ)) (rs : List RxOut)
    (h1 : transmitterCalls a nzs.length seed = .ok (ts, seed'))
    (h2 : channelRun a.chan m nzs (ts.map (fun t => t.2.2)) = .ok (ys.map .signal, m'))
    (h3 : receiverCalls a rx ys = .ok (some (rs, rx'))) :
    linkCalls a nzs ⟨seed, m, rx⟩
      = .ok (some (List.zipWith (fun t r => ⟨t.1, t.2.1, r⟩) ts rs, ⟨seed', m', rx'⟩)) := by
  induction nzs generalizing seed m rx ts ys rs with
  | nil =>
    cases h1
    have h2' := Except.ok.inj h2
    rw [Prod.mk.injEq] at h2'
    have : ys = [] := by simpa using h2'.1.symm
    subst this
    cases h3
    rw [← h2'.2]
    rfl
  | cons nz nzs ih =>
    rw [List.length_cons, transmitterCalls] at h1
    obtain ⟨t, ht, h1⟩ := bind_eq_ok _ _ _ h1
    obtain ⟨r, hr, h1⟩ := bind_eq_ok _ _ _ h1
    obtain ⟨r1, r2⟩ := r
    cases h1
    rw [List.map_cons, channelRun] at h2
    obtain ⟨s, hs, h2⟩ := bind_eq_ok _ _ _ h2
    obtain ⟨q, hq, h2⟩ := bind_eq_ok _ _ _ h2
    obtain ⟨q1, q2⟩ := q
    obtain ⟨s1, s2⟩ := s
    have h2' := Except.ok.inj h2
    rw [Prod.mk.injEq] at h2'
    obtain ⟨e1, e2⟩ := h2'
    simp only [] at e1 e2 hq
    cases ys with
    | nil => cases e1
    | cons y ys =>
      rw [List.map_cons, List.cons.injEq] at e1
      obtain ⟨rfl, rfl⟩ := e1
      subst e2
      rw [receiverCalls] at h3
      obtain ⟨v, hv, h3⟩ := bind_eq_ok _ _ _ h3
      cases v with
      | none => cases h3
      | some v =>
        obtain ⟨u, hu, h3⟩ := bind_eq_ok _ _ _ h3
        cases u with
        | none => cases h3
        | some u =>
          obtain ⟨u1, u2⟩ := u
          cases h3
          have hone : linkCall a nz ⟨seed, m, rx⟩ = .ok (some (⟨t.1.1, t.1.2.1, v.1⟩, ⟨t.2, s2, v.2⟩)) := by
            unfold linkCall
            simp only [ht, bind, Except.bind]
            rw [hs]
            simp only []
            rw [hv]
            rfl
          rw [linkCalls, hone]
          simp only [bind, Except.bind]
          rw [ih _ _ _ _ _ _ hr hq hu]
          rfl

/-! ### Decisions -/

theorem numLevels_pos (c : Constellation) : 0 < numLevels c := by cases c <;> decide

/-- slicing and demapping with the levels of the constellation: always valid symbols, and the right one within half a level
distance -/
theorem recoverSymbols_total (c : Constellation) (x : List ℝ) :
    ∃ sym : List ℕ, recoverSymbols x c (getLevels c false) = .ok (sym.map (fun (k : ℕ) => (k : Int))) ∧
      sym.length = x.length ∧ (∀ k ∈ sym, k < numLevels c) ∧
      ∀ i k, i < x.length → k < numLevels c → |x.getD i 0 - (getLevels c false).getD k 0|
        < ((getLevels c false).getD 1 0 - (getLevels c false).getD 0 0) / 2 → sym.getD i 0 = k := by
  obtain ⟨hlen0, -⟩ := C19_levels c false
  have hn := numLevels_pos c
  have hne0 : getLevels c false ≠ [] := List.ne_nil_of_length_pos (by omega)
  have hgap : 0 < (getLevels c false).getD 1 0 - (getLevels c false).getD 0 0 := by
    cases c <;> simp [getLevels, intLevels]
  choose idx hidx hval hmin _ using fun y => sliceOne_spec (getLevels c false) hne0 y
  refine ⟨x.map idx, ?_, by simp, ?_, ?_⟩
  · rw [recoverSymbols_eq _ _ _ hne0]
    refine (C18_demapping_nearest_partial c false false _ (x.map idx) (by simp) ?_).1
    intro i s k hi hk
    rw [List.getElem?_map, Option.map_eq_some_iff] at hi hk
    obtain ⟨y, hy, rfl⟩ := hi
    obtain ⟨y', hy', rfl⟩ := hk
    rw [hy] at hy'
    cases hy'
    refine ⟨_, List.getElem?_eq_getElem (hidx y), ?_⟩
    rw [← hval y]
    simpa using hgap
  · intro k hk
    obtain ⟨y, -, rfl⟩ := List.mem_map.1 hk
    rw [← hlen0]; exact hidx y
  · intro i k hi hk hclose
    rw [getD_map_lt _ 0 0 _ hi]
    set y := x.getD i 0
    have hk0 : k < (getLevels c false).length := by omega
    have hkm : (getLevels c false).getD k 0 ∈ getLevels c false := by
      rw [List.getD_eq_getElem?_getD, List.getElem?_eq_getElem hk0]; exact List.getElem_mem hk0
    have hd := hmin y _ hkm
    have heq : (getLevels c false).getD (idx y) 0 = (getLevels c false).getD k 0 := by
      have hym : (getLevels c false).getD (idx y) 0 = sliceOne (getLevels c false) y := by
        rw [hval y, List.getD_eq_getElem?_getD, List.getElem?_eq_getElem (hidx y)]; rfl
      rw [hym]
      apply levels_spaced c _ _ (by rw [hval y]; exact List.getElem_mem _) hkm
      calc |sliceOne (getLevels c false) y - (getLevels c false).getD k 0|
          = |(y - (getLevels c false).getD k 0) - (y - sliceOne (getLevels c false) y)| := by congr 1; ring
        _ ≤ |y - (getLevels c false).getD k 0| + |y - sliceOne (getLevels c false) y| := abs_sub _ _
        _ < _ := by linarith
    have hi' := hidx y
    rw [hlen0] at hi'
    generalize idx y = j at *
    revert heq
    cases c <;> simp only [numLevels] at hk hi' <;> interval_cases j <;> interval_cases k <;>
      simp [getLevels, intLevels] <;> norm_num

/-! ### Equalizer and converter -/

/-- the object with default taps delays by the number of precursors -/
theorem eq_delay (pre post : ℕ) (levels : Option (List ℝ)) (o : EqObj ℝ)
    (ho : eqInit pre post 0 none none levels none none = .ok o) (cs : List (List ℝ)) (hcs0 : cs ≠ [])
    (hcs : ∀ c ∈ cs, pre + post + 1 ≤ c.length) :
    ∃ (ys : List (List ℝ)) (o' : EqObj ℝ), eqCalls o cs = .ok (ys, o') ∧ ys.map List.length = cs.map List.length ∧
      ∀ n, n + pre < cs.flatten.length → ys.flatten.getD (n + pre) 0 = cs.flatten.getD n 0 := by
  by_cases hp : 0 < pre + post
  · obtain ⟨ys, o', h1, h2, h3⟩ := C75_feed_forward_partial pre post hp none levels none o ho cs hcs0 hcs
    refine ⟨ys, o', h1, h2, fun n hn => ?_⟩
    rw [h3 _ hn, Finset.sum_eq_single pre]
    · rw [Option.getD_none, Option.getD_none]
      have e1 : (List.replicate pre (0 : ℝ) ++ 1 :: List.replicate post 0).getD pre 0 = 1 := by
        rw [List.getD_eq_getElem?_getD, List.getElem?_append_right (by simp)]
        simp
      rw [e1, one_mul, show ((n + pre : ℕ) : ℤ) - (pre : ℤ) = (n : ℤ) by push_cast; ring, withPast_nat]
    · intro i hi hne
      rw [Option.getD_none]
      have : (List.replicate pre (0 : ℝ) ++ 1 :: List.replicate post 0).getD i 0 = 0 := by
        rw [List.getD_eq_getElem?_getD]
        by_cases hlt : i < pre
        · rw [List.getElem?_append_left (by simpa using hlt), List.getElem?_replicate]
          split_ifs <;> rfl
        · rw [List.getElem?_append_right (by simp; omega), List.length_replicate]
          obtain ⟨j, hj⟩ : ∃ j, i - pre = j + 1 := ⟨i - pre - 1, by omega⟩
          rw [hj, List.getElem?_cons_succ, List.getElem?_replicate]
          split_ifs <;> rfl
      rw [this, zero_mul]
    · intro hh
      exact absurd (Finset.mem_range.2 (by omega)) hh
  · obtain ⟨rfl, rfl⟩ : pre = 0 ∧ post = 0 := by omega
    have ho' : o = ⟨[1], 0, [], levels, [0], []⟩ := by
      have := eqInit_ok (K := ℝ) (pre := 0) (post := 0) (dfeTaps := 0) (ffe := none) (dfe := none) (levels := levels)
        (ziFfe := none) (ziDfe := none) ⟨by simp, by simp, by simp, by simp, by simp⟩
      rw [this] at ho
      exact (Except.ok.inj ho).symm
    have hall : ∀ cs : List (List ℝ), eqCalls o cs = .ok (cs, o) := by
      intro cs
      induction cs with
      | nil => rfl
      | cons c cs ih =>
        have hc : eqCall o c = .ok (c, o) := by
          rw [ho']
          unfold eqCall ffeDfe
          simp [bind, Except.bind, pure, Except.pure]
        rw [eqCalls, hc]
        simp only [bind, Except.bind]
        rw [ih]
        rfl
    exact ⟨cs, o, hall cs, rfl, fun n _ => rfl⟩

theorem adcCalls_forall (totalBits fracBits osr sampleRate phase : ℕ) (t : FixType) (cs ys : List (List ℝ))
    (h : adcCalls totalBits fracBits t osr sampleRate phase cs = .ok ys) :
    List.Forall₂ (fun c y => adcCall totalBits fracBits t osr sampleRate phase c = .ok y) cs ys := by
  induction cs generalizing ys with
  | nil => cases h; exact List.Forall₂.nil
  | cons c cs ih =>
    rw [adcCalls] at h
    obtain ⟨d, hd, h⟩ := bind_eq_ok _ _ _ h
    obtain ⟨ds', hds, h⟩ := bind_eq_ok _ _ _ h
    cases h
    exact List.Forall₂.cons hd (ih _ hds)

/-- a chunk of whole symbols gives one sample per step -/
theorem adcCall_length (totalBits fracBits osr sampleRate phase : ℕ) (ht : 1 ≤ totalBits) (t : FixType) (r : ℤ × ℤ)
    (hr : codeRange totalBits t = some r) (hs : phase < osr / sampleRate) (c y : List ℝ)
    (hc : osr / sampleRate ∣ c.length) (h : adcCall totalBits fracBits t osr sampleRate phase c = .ok y) :
    y.length * (osr / sampleRate) = c.length := by
  obtain ⟨out, h1, h2, -⟩ := C74_conversion_partial (K := ℝ) totalBits fracBits osr sampleRate phase ht t r hr
    (by omega) c
  rw [h] at h1
  cases h1
  obtain ⟨m, hm⟩ := hc
  generalize osr / sampleRate = st at *
  have : y.length = m := by
    apply le_antisymm
    · by_contra hlt
      have := (h2 m).1 (by omega)
      rw [hm, Nat.mul_comm] at this
      omega
    · by_contra hlt
      have h3 := (h2 y.length).2 (by
        rw [hm]
        have : (y.length + 1) * st ≤ m * st := Nat.mul_le_mul_right _ (by omega)
        rw [Nat.succ_mul] at this
        rw [Nat.mul_comm st m]
        omega)
      omega
  rw [this, hm, Nat.mul_comm]

end Verif
