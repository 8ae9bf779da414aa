import Verif.Props.SimEqualized

/-!
# The example simulation's link with decision feedback (C120)
-/

open Finset

namespace Verif
open Spec

/-- **C120**, decision feedback. The equalizer has feed-forward taps `F` and feedback taps `B`, and slices to the levels that the
receiver slices to (before its digital gain). If the eye that remains with right feedback is open, all symbols are right from any point on where the symbols
within the reach of the feedback were demapped rightly; and if the margin also covers the feedback of the decisions taken
before the first symbol arrived, they are right from the first symbol on. -/
theorem C120_feedback (a : LinkArgs) (fullScale : Bool) (r : ℤ × ℤ) (hf : ReceiverSetting a fullScale r) (g : ℝ → ℝ) (f : List ℝ)
    (c : ℕ → ℝ) (hc : CtleResponse a c) (hG : 0 < a.digGain) (pre post : ℕ) (F B : List ℝ) (hF : F.length = pre + post + 1) (hB : 0 < B.length)
    (δ : ℕ) (ε C P R Q : ℝ) (hQ : 0 ≤ Q) (ho : OpenFeedbackEye a r g f c F B δ ε C P R Q)
    (hsamp : a.adcOsr / a.sampleRate = a.chan.osr)
    (seed : List Int) (hseed : seed.length = a.prbs.value) (b : ℕ → Int)
    (hb : LfsrStream (getPolynomial a.prbs) seed b) (S : ℕ) (hS : 0 < S)
    (henc : ∀ x : List Int, x.length = a.chunk → (∀ v ∈ x, v = 0 ∨ v = 1) → ∃ s, encoder a.rnd a.coding x = .ok s ∧
      s.length = S ∧ ∀ v ∈ s, 0 ≤ v ∧ v < numLevels a.constellation)
    (hdec : ∀ s : List Int, s.length = S → (∀ v ∈ s, 0 ≤ v ∧ v < numLevels a.constellation) → ∃ u, decoder a.coding s = .ok u)
    (k : ℕ) (hk : 0 < k) (noises : List (List ℝ)) (hk' : noises.length = k)
    (hd : DispersiveChannel a.chan g f a.amp (S * a.chan.osr) ε noises) :
    ∃ (m : ChannelMem) (o : EqObj ℝ) (outs : List LinkOut) (st' : LinkState), channelInit a.chan = .ok m ∧
      eqInit pre post B.length (some F) (some B) (some ((getLevels a.constellation false).map (fun l => l / a.digGain))) none none = .ok o ∧
      linkCalls a noises ⟨seed, m, ⟨ctleObjInit a.zeros a.poles none, o⟩⟩ = .ok (some (outs, st')) ∧ outs.length = k ∧
      (∀ u ∈ outs, u.pattern.length = a.chunk ∧ encoder a.rnd a.coding u.pattern = .ok u.symbols ∧ u.symbols.length = S ∧
        u.rx.demapped.length = S ∧ decoder a.coding u.rx.demapped = .ok u.rx.decoded ∧
        ∀ v ∈ u.rx.demapped, 0 ≤ v ∧ v < numLevels a.constellation) ∧
      (outs.map LinkOut.pattern).flatten = (List.range (k * a.chunk)).map b ∧
      (∀ N, B.length ≤ N →
        (∀ n, N ≤ n + B.length → n < N → n + δ < k * S →
          (outs.map (fun u => u.rx.demapped)).flatten.getD (n + δ) 0 = (outs.map LinkOut.symbols).flatten.getD n 0) →
        ∀ n, N ≤ n → n + δ < k * S →
          (outs.map (fun u => u.rx.demapped)).flatten.getD (n + δ) 0 = (outs.map LinkOut.symbols).flatten.getD n 0) ∧
      (a.rxFactor * ∑ j ∈ range B.length, |B.getD j 0| ≤ Q → ∀ n, n + δ < k * S →
        (outs.map (fun u => u.rx.demapped)).flatten.getD (n + δ) 0 = (outs.map LinkOut.symbols).flatten.getD n 0) := by
  obtain ⟨hrl, htl, hrx0, hval, hbound⟩ := levels_match _ _ _ _ _ hf.amp hf.factor hf.factor' hf.levels
  have hn := numLevels_pos a.constellation
  obtain ⟨hlen0, -⟩ := C19_levels a.constellation false
  set lv := (getLevels a.constellation false).map (fun l => l / a.digGain) with hlv
  have hlv0 : lv ≠ [] := by
    rw [hlv]
    intro h
    have := congrArg List.length h
    rw [List.length_map] at this
    simp at this
    rw [this] at hlen0
    simp at hlen0
    omega
  have hoi := eqInit_ok (K := ℝ) (pre := pre) (post := post) (dfeTaps := B.length) (ffe := some F) (dfe := some B)
        (levels := some lv) (ziFfe := none) (ziDfe := none) ⟨by simpa using hF, by simp, by simp, by simp, by simp⟩
  obtain ⟨o, hoi⟩ : ∃ o, eqInit (K := ℝ) pre post B.length (some F) (some B) (some lv) none none = .ok o := ⟨_, hoi⟩
  obtain ⟨m, outs, st', D, E, x, g1, g2, g3, g4, g5, g6, g7, ⟨d, gd, g8⟩, g9, g10, g11, g12, g13⟩ := link_generic a fullScale r hf
    g f c hc ε C P ho.noise ho.ctle ho.peak ho.low ho.high hsamp seed hseed b hb 1 S hS hS o
    (fun D E => ∃ d : List ℝ, d.length = D.length ∧ ∀ n : ℕ, n < D.length →
      E.getD n 0 = ∑ i ∈ range F.length, F.getD i 0 * (if i ≤ n then D.getD (n - i) 0 else 0)
        - ∑ j ∈ range B.length, B.getD j 0 * withPast ((none : Option (List ℝ)).getD []) d ((n : ℤ) - 1 - j) ∧
      NearestFirst lv (E.getD n 0) (d.getD n 0))
    (by
      intro ds h1 h2
      obtain ⟨es, o', d, e1, e2, e3, e4⟩ := C75_decision_feedback pre post B.length (some F) (some B) none none lv hlv0 hB o hoi
        ds h1 (fun c hc => List.ne_nil_of_length_pos (h2 c hc))
      refine ⟨es, o', e1, e2, d, e3, fun n hn => ⟨?_, (e4 n hn).2⟩⟩
      rw [(e4 n hn).1, hF]
      congr 1
      refine sum_congr rfl fun i _ => ?_
      rw [withPast_rest]
      rfl)
    henc hdec k hk noises hk' hd
  set dm := (outs.map (fun u => u.rx.demapped)).flatten with hdm
  set sy := (outs.map LinkOut.symbols).flatten with hsy
  have hpw : (0 : ℝ) < 2 ^ a.fracBits := by positivity
  set ρ := 2 * a.rxFactor / a.amp with hρ
  -- decisions of the equalizer and of the receiver agree
  have hagree : ∀ n, n < k * S → a.digGain * d.getD n 0 = (getLevels a.constellation false).getD (dm.getD n 0).toNat 0 := by
    intro n hn'
    have h1 := nearestFirst_scaled _ _ _ _ hG (g8 n (by rw [g6]; exact hn')).2
    exact nearestFirst_unique _ _ _ _ h1 (g13 n hn')
  have hdb : ∀ i, |a.digGain * d.getD i 0| ≤ a.rxFactor := by
    intro i
    by_cases hi : i < k * S
    · have h1 := nearestFirst_scaled _ _ _ _ hG (g8 i (by rw [g6]; exact hi)).2
      obtain ⟨q, hq, e, -⟩ := h1
      rw [e]
      exact hf.factor _ (List.getElem_mem hq)
    · rw [List.getD_eq_getElem?_getD, List.getElem?_eq_none (by omega)]
      simp [hrx0.le]
  -- one step
  have hstep : ∀ n, n + δ < k * S → (∀ j, j < B.length → j < n → dm.getD (n - 1 - j + δ) 0 = sy.getD (n - 1 - j) 0) →
      (B.length ≤ n ∨ a.rxFactor * ∑ j ∈ range B.length, |B.getD j 0| ≤ Q) → dm.getD (n + δ) 0 = sy.getD n 0 := by
    intro n hn' hprev hor
    obtain ⟨s1, s2, s3⟩ := g10 n (by omega)
    rw [g12 (n + δ) (sy.getD n 0).toNat hn' (by omega) ?_]
    · exact Int.toNat_of_nonneg s1
    rw [← s3, (g8 (n + δ) (by rw [g6]; exact hn')).1]
    have h1 := taps_close F D (fun i => sampledLink a g f c x i / 2 ^ a.fracBits) _ (k * S) (n + δ) hn' g11
    have h2 := taps_link a g f c x F (n + δ)
    have h3 : ∑ i ∈ range F.length, F.getD i 0 * (if i ≤ n + δ then sampledLink a g f c x (n + δ - i) / 2 ^ a.fracBits else 0)
        = (∑ q ∈ range (n + δ + 1), x (n + δ - q) * linkResponse a.chan g f c a.phase F q) / 2 ^ a.fracBits := by
      rw [← h2, sum_div]
      refine sum_congr rfl fun i _ => ?_
      split_ifs
      · ring
      · ring
    rw [h3] at h1
    have h4 := cursor_close 1 a.amp R ρ hf.amp.le (fedResponse a g f c F B δ) x δ (n + δ) (by omega) g9 (ho.isi _)
    rw [Nat.add_sub_cancel, abs_one, one_mul, one_mul, one_mul] at h4
    have h5 := feedback_close B a.digGain ρ a.rxFactor hrx0.le x d δ n hdb (by
      intro j hj hjn
      have e1 := hagree (n + δ - 1 - j) (by omega)
      have e2 := hprev j hj hjn
      rw [show n - 1 - j + δ = n + δ - 1 - j by omega] at e2
      rw [e1, e2, ← (g10 (n - 1 - j) (by omega)).2.2, hρ]
      ring)
    have h6 : (if B.length ≤ n then 0 else a.rxFactor * ∑ j ∈ range B.length, |B.getD j 0|) ≤ Q := by
      split_ifs with h
      · exact hQ
      · exact hor.resolve_left h
    have h7 : ∑ q ∈ range (n + δ + 1), x (n + δ - q) * fedResponse a g f c F B δ q
        = a.digGain / 2 ^ a.fracBits * ∑ q ∈ range (n + δ + 1), x (n + δ - q) * linkResponse a.chan g f c a.phase F q
          - ρ * ∑ q ∈ range (n + δ + 1), x (n + δ - q) * (if δ < q then B.getD (q - δ - 1) 0 else 0) := by
      rw [mul_sum, mul_sum, ← sum_sub_distrib]
      refine sum_congr rfl fun q _ => ?_
      unfold fedResponse
      rw [hρ]
      ring
    rw [h7] at h4
    have hm := ho.margin
    set V := ∑ i ∈ range F.length, F.getD i 0 * (if i ≤ n + δ then D.getD (n + δ - i) 0 else 0)
    set I := ∑ q ∈ range (n + δ + 1), x (n + δ - q) * linkResponse a.chan g f c a.phase F q
    set U := ∑ q ∈ range (n + δ + 1), x (n + δ - q) * (if δ < q then B.getD (q - δ - 1) 0 else 0)
    set Y := ∑ j ∈ range B.length, B.getD j 0 * withPast ((none : Option (List ℝ)).getD []) d (((n + δ : ℕ) : ℤ) - 1 - j)
    have h8 : a.digGain * (V - Y) - x n * 2 / a.amp * a.rxFactor
        = a.digGain * (V - I / 2 ^ a.fracBits) + (a.digGain / 2 ^ a.fracBits * I - ρ * U - x n * ρ)
          - (a.digGain * Y - ρ * U) := by rw [hρ]; ring
    have h9 : |a.digGain * (V - I / 2 ^ a.fracBits)|
        ≤ |a.digGain| / 2 ^ a.fracBits * ((∑ i ∈ range F.length, |F.getD i 0|) * (1 / 2 + C * ε)) := by
      rw [abs_mul]
      refine (mul_le_mul_of_nonneg_left h1 (abs_nonneg _)).trans (le_of_eq ?_)
      ring
    rw [h8]
    have t1 := abs_sub (a.digGain * (V - I / 2 ^ a.fracBits) + (a.digGain / 2 ^ a.fracBits * I - ρ * U - x n * ρ))
      (a.digGain * Y - ρ * U)
    have t2 := abs_add_le (a.digGain * (V - I / 2 ^ a.fracBits)) (a.digGain / 2 ^ a.fracBits * I - ρ * U - x n * ρ)
    linarith
  refine ⟨m, o, outs, st', g1, hoi, g2, g3, g4, g5, ?_, ?_⟩
  · intro N hN hstart n
    induction n using Nat.strong_induction_on with
    | _ n ih =>
      intro hNn hn'
      refine hstep n hn' ?_ (Or.inl (by omega))
      intro j hj hjn
      by_cases h : N ≤ n - 1 - j
      · exact ih _ (by omega) h (by omega)
      · exact hstart _ (by omega) (by omega) (by omega)
  · intro hq n
    induction n using Nat.strong_induction_on with
    | _ n ih =>
      intro hn'
      exact hstep n hn' (fun j _ hjn => ih _ (by omega) (by omega)) (Or.inr hq)

/-- **C120**, error-free link with decision feedback: without codes the received bits are the PRBS stream delayed by `w·δ` bits,
and the error checker reports no errors on the chunks after this delay. -/
theorem C120_feedback_bits (a : LinkArgs) (fullScale : Bool) (r : ℤ × ℤ) (hf : ReceiverSetting a fullScale r) (g : ℝ → ℝ)
    (f' : List ℝ) (c : ℕ → ℝ) (hc : CtleResponse a c) (hG : 0 < a.digGain) (pre post : ℕ) (F B : List ℝ)
    (hF : F.length = pre + post + 1) (hB : 0 < B.length) (δ : ℕ) (ε C P R : ℝ)
    (ho : OpenFeedbackEye a r g f' c F B δ ε C P R (a.rxFactor * ∑ j ∈ range B.length, |B.getD j 0|))
    (hsamp : a.adcOsr / a.sampleRate = a.chan.osr)
    (seed : List Int) (hseed : seed.length = a.prbs.value) (b : ℕ → Int)
    (hb : LfsrStream (getPolynomial a.prbs) seed b) (S w : ℕ) (hS : 0 < S)
    (hw : 1 ≤ w) (hcn : numLevels a.constellation = 2 ^ w) (hu : Uncoded a.coding w) (hchunk : a.chunk = w * S)
    (hone : w = 1 ∨ S ≠ 1 ∨ a.coding.flags.matrixOp = false) (k : ℕ) (hk : 0 < k) (noises : List (List ℝ))
    (hk' : noises.length = k) (hd : DispersiveChannel a.chan g f' a.amp (S * a.chan.osr) ε noises) :
    ∃ (m : ChannelMem) (o : EqObj ℝ) (outs : List LinkOut) (st' : LinkState) (bits : List (List Int)),
      channelInit a.chan = .ok m ∧
      eqInit pre post B.length (some F) (some B) (some ((getLevels a.constellation false).map (fun l => l / a.digGain))) none none = .ok o ∧
      linkCalls a noises ⟨seed, m, ⟨ctleObjInit a.zeros a.poles none, o⟩⟩ = .ok (some (outs, st')) ∧ outs.length = k ∧
      outs.map (fun u => u.rx.decoded) = bits.map (fun l => l.map (fun (v : Int) => (v : ℚ))) ∧
      (∀ l ∈ bits, l.length = a.chunk) ∧
      (∀ n, n + w * δ < k * a.chunk → bits.flatten.getD (n + w * δ) 0 = b n) ∧
      (a.chunk ≤ 2 ^ a.prbs.value - 1 → ∀ j, w * δ ≤ j * a.chunk → j ≤ k →
        ∃ s s', berInit a.prbs seed = .ok s ∧ checkBers a.prbs s (bits.drop j) = .ok (List.replicate (k - j) 0, s') ∧
          s'.accErrors = 0) := by
  obtain ⟨hrl, htl, hrx0, hval, hbound⟩ := levels_match _ _ _ _ _ hf.amp hf.factor hf.factor' hf.levels
  obtain ⟨fu, f1, f2, f3⟩ := uncoded_codec a.rnd a.coding w hw hu
  obtain ⟨m, o, outs, st', g1, g2, g3, g4, g5, g6, -, g7⟩ := C120_feedback a fullScale r hf g f' c hc hG pre post F B hF hB δ ε C P R _
    (mul_nonneg hrx0.le (sum_nonneg fun _ _ => abs_nonneg _)) ho hsamp seed hseed b hb S hS (by
      intro x hx h01
      obtain ⟨sym, h1, h2, h3, -⟩ := f3 x S h01 (by rw [hx, hchunk])
      exact ⟨sym, h1, h2, fun v hv => by rw [hcn]; exact_mod_cast h3 v hv⟩)
    (fun s hs _ => ⟨_, f2 s (by rw [hs]; exact hone)⟩) k hk noises hk' hd
  obtain ⟨bits, b1, b2, b3, b4⟩ := bits_of_symbols a seed hseed b hb S w δ hS hw hu hchunk hone k outs g4 g5 g6 (g7 le_rfl)
  exact ⟨m, o, outs, st', bits, g1, g2, g3, g4, b1, b2, b3, b4⟩

/-- the example link with one feed-forward and one feedback tap instead of two feed-forward taps -/
theorem exFeedback_open : ∃ tx, ReceiverSetting (exDispersive tx) true (-127, 127) ∧
    OpenFeedbackEye (exDispersive tx) (-127, 127) rectFn [1, 0, 1 / 4] exCtle [1] [1 / 4] 1 8 2 (5 / 4) 0
      ((exDispersive tx).rxFactor * ∑ j ∈ range ([1 / 4] : List ℝ).length, |([1 / 4] : List ℝ).getD j 0|) := by
  obtain ⟨tx, h1, h2⟩ := exDispersive_open
  have hfed : ∀ l, fedResponse (exDispersive tx) rectFn [1, 0, 1 / 4] exCtle [1] [1 / 4] 1 l = if l = 1 then 1 / 80 else 0 := by
    intro l
    unfold fedResponse linkResponse
    simp only [List.length_cons, List.length_nil, sum_range_succ, sum_range_zero, Nat.zero_le, if_true, Nat.sub_zero, exSymbol]
    simp only [exDispersive]
    rcases l with _ | _ | _ | l
    · norm_num
    · norm_num
    · norm_num
    · rw [if_neg (by omega), if_neg (by omega), if_pos (by omega), if_neg (by omega)]
      norm_num
  refine ⟨tx, h1, h2.noise, h2.ctle, h2.peak, ?_, h2.low, h2.high, ?_⟩
  · intro M
    refine le_of_eq (sum_eq_zero fun l hl => ?_)
    rw [hfed, if_neg (ne_of_mem_erase hl), abs_zero]
  · rw [hfed]
    simp only [exDispersive, getLevels, intLevels, List.length_cons, List.length_nil, sum_range_succ, sum_range_zero]
    norm_num [abs_of_pos]

example (seed : List Int) (hseed : seed.length = 7) (b : ℕ → Int) (hb : LfsrStream (getPolynomial .prbs7) seed b)
    (noises : List (List ℝ)) (h0 : noises ≠ []) (hn : ∀ nz ∈ noises, nz.length = 16 ∧ ∀ z ∈ nz, |z| ≤ 5) :
    ∃ (tx : List ℝ) (m : ChannelMem) (o : EqObj ℝ) (outs : List LinkOut) (st' : LinkState) (bits : List (List Int)),
      linkCalls (exDispersive tx) noises ⟨seed, m, ⟨ctleObjInit [16] [32] none, o⟩⟩ = .ok (some (outs, st')) ∧
      outs.map (fun u => u.rx.decoded) = bits.map (fun l => l.map (fun (v : Int) => (v : ℚ))) ∧
      ∀ n, n + 1 < noises.length * 8 → bits.flatten.getD (n + 1) 0 = b n := by
  obtain ⟨tx, h1, h2⟩ := exFeedback_open
  obtain ⟨m, o, outs, st', bits, -, -, g3, -, g5, -, g7, -⟩ := C120_feedback_bits (exDispersive tx) true _ h1 rectFn _ _
    (exDispersive_ctle tx) (by norm_num [exDispersive]) 0 0 [1] [1 / 4] rfl (by simp) 1 8 2 _ _ h2 (by norm_num [exDispersive])
    seed hseed b hb 8 1 (by omega) (by omega) rfl ⟨rfl, rfl, rfl, rfl, rfl, rfl, rfl, rfl, rfl, rfl⟩ rfl (Or.inl rfl)
    noises.length (List.length_pos_of_ne_nil h0) noises rfl (exDispersive_channel tx noises hn)
  exact ⟨tx, m, o, outs, st', bits, g3, g5, g7⟩

end Verif
