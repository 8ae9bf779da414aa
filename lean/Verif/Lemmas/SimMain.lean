import Verif.Model.SimMain
import Verif.Lemmas.SimLinkFull
import Verif.Lemmas.Jitter
import Verif.Lemmas.ConvExample
import Verif.Props.SimBer
import Verif.Props.Survivor
import Verif.Lemmas.GainLoop

/-! Helper lemmas for C99: the shipped configuration of the example simulation. -/

namespace Verif
open Spec

/-! ### the shipped convolutional code -/

/-- the shipped code in the form of the specification -/
abbrev shipG : ConvG := [[[1, 0], [0, 1]]]
abbrev shipFb : Fb := some ([some [1, 1]], [[0, 1]])

theorem ship_cases {i j : ℕ} (hi : i < shipG.length) (hj : j < 2) : i = 0 ∧ (j = 0 ∨ j = 1) := by
  simp at hi; omega

theorem ship_good : GoodCode 2 shipG shipFb := by
  refine ⟨goodG_of (by decide) (by decide), fun l u h => ?_⟩
  cases h
  refine ⟨⟨rfl, by simp⟩, ?_, ?_, ?_, ?_⟩
  · intro i j hi hj
    obtain ⟨rfl, rfl | rfl⟩ := ship_cases hi hj <;> decide
  · intro f hf
    simp at hf
    subst hf
    refine ⟨?_, rfl⟩
    intro x hx
    simp at hx
    omega
  · intro i j hi hj _
    obtain ⟨rfl, -⟩ := ship_cases hi hj
    decide
  · intro i j hi hj hfl _ d hd
    obtain ⟨rfl, rfl | rfl⟩ := ship_cases hi hj
    · match d, hd with
      | 1, _ => rfl
      | d + 2, _ => rfl
    · exact absurd hfl (by decide)

theorem ship_fits : Fits 2 shipG shipFb := by
  intro l u h i j hi hj
  cases h
  obtain ⟨rfl, rfl | rfl⟩ := ship_cases hi hj
  all_goals
    refine ⟨fun f hf => ?_, fun hf => absurd hf (by decide)⟩
    simp at hf
    subst hf
    rfl

theorem ship_memory : HasMemory 2 shipG := by
  intro i j hi hj
  obtain ⟨rfl, rfl | rfl⟩ := ship_cases hi hj <;> decide

theorem ship_identified : Identified 2 shipG shipFb := by
  intro u u' w w' hu hu' hw hw' ho hst
  have h0 := ho 0 (by decide)
  have h1 := ho 1 (by decide)
  have p1 := (hw 0 (by decide)).2 (-1) (by decide)
  have p2 := (hw' 0 (by decide)).2 (-1) (by decide)
  obtain ⟨l1, b1⟩ := hu
  obtain ⟨l2, b2⟩ := hu'
  match u, l1, u', l2 with
  | [a], _, [b], _ =>
    have := b1 a (by simp)
    have := b2 b (by simp)
    simp [encBit, isDirect, tapSum, tf, flag, inBit, Finset.sum_range_succ] at h0 h1
    constructor
    · intro i hi k hk
      obtain ⟨rfl, -⟩ := ship_cases hi (show 0 < 2 by decide)
      have : k = 0 := by simp [tf] at hk; omega
      subst this
      simp
      omega
    · congr 1
      omega

/-- every binary chunk of two blocks is decoded to 64 bits -/
theorem ship_viterbi (r : List Int) (hr : IsBinary r) (hl : r.length = 128) :
    ∃ out last, decodingConvViterbi r shipG 64 (some [some [1, 1]]) (some [[0, 1]]) = .ok (out, last) ∧ out.length = 64 ∧
      IsBinary out := by
  obtain ⟨v, w, last, p, -, h2, h3⟩ := C97_survivors_partial ship_good (by decide) ship_fits ship_memory ship_identified
    (tb := 64) (by decide) r hr (by omega)
  rw [hl] at h2 h3
  have e : ((List.range (128 / 64)).map v).flatten = v 0 ++ v 1 := by
    show ([v 0, v 1] : List (List Int)).flatten = _
    simp
  obtain ⟨⟨a1, a2⟩, -⟩ := h3 0 (by decide)
  obtain ⟨⟨b1, b2⟩, -⟩ := h3 1 (by decide)
  refine ⟨_, _, h2, ?_, ?_⟩
  · rw [e, List.length_append, a1, b1]; rfl
  · rw [e]
    intro x hx
    rcases List.mem_append.1 hx with h | h
    · exact a2 x h
    · exact b2 x h

/-- the encoder of the shipped code gives two bits per bit, whatever its arithmetic rounds to -/
theorem ship_coding (rnd : Int → Int) (p : List Int) (hp : IsBinary p) :
    ∃ c, codingConv rnd p shipG (some [some [1, 1]]) (some [[0, 1]]) = .ok c ∧ c.length = 2 * p.length ∧ IsBinary c := by
  have hc := goodCode_check ship_good hp
  simp only [shipFb, Option.map_some] at hc
  unfold codingConv
  rw [hc]
  simp only [bind, Except.bind]
  rw [if_neg (by simp)]
  have hrow : ∀ (bl : List (List Int)) (j : ℕ), j < 2 →
      ∃ r, convRow rnd shipG (some [some [1, 1]]) (some [[0, 1]]) bl j = .ok r := by
    intro bl j hj
    have : j = 0 ∨ j = 1 := by omega
    rcases this with rfl | rfl
    · exact ⟨_, rfl⟩
    · exact ⟨_, rfl⟩
  have hnil : p.length % [[[(1 : Int), 0], [0, 1]]].length = 0 := by simp [Nat.mod_one]
  simp only [hnil, ne_eq, not_true_eq_false, if_false]
  have hbl : (rows 1 p).length = p.length := by rw [rows_length]; simp
  obtain ⟨r0, h0⟩ := hrow (rows 1 p) 0 (by decide)
  obtain ⟨r1, h1⟩ := hrow (rows 1 p) 1 (by decide)
  have hm : (List.range (nOut shipG)).mapM (convRow rnd shipG (some [some [1, 1]]) (some [[0, 1]]) (rows shipG.length p))
      = .ok [r0, r1] := by
    show ([0, 1] : List ℕ).mapM (convRow rnd shipG (some [some [1, 1]]) (some [[0, 1]]) (rows 1 p)) = _
    simp [List.mapM_cons, h0, h1, bind, Except.bind, pure, Except.pure]
  rw [hm]
  refine ⟨_, rfl, ?_, ?_⟩
  · show ((List.range (rows 1 p).length).map (fun t => [r0, r1].map (fun r => r.getD t 0 % 2))).flatten.length = _
    rw [List.length_flatten, List.map_map, hbl]
    simp [Function.comp_def]
    ring
  · intro x hx
    simp only [List.mem_flatten, List.mem_map] at hx
    obtain ⟨l, ⟨t, -, rfl⟩, hx⟩ := hx
    simp only [List.mem_map] at hx
    obtain ⟨r, -, rfl⟩ := hx
    omega

/-- one chunk of the shipped encoder -/
theorem ship_encoder (rnd : Int → Int) (p : List Int) (hp : IsBinary p) (hl : p.length = 64) :
    ∃ s, encoder rnd shippedCoding p = .ok s ∧ s.length = 64 ∧ ∀ x ∈ s, 0 ≤ x ∧ x < 4 := by
  obtain ⟨c, h1, h2, h3⟩ := ship_coding rnd p hp
  obtain ⟨y, h4, h5, h6⟩ := C14_symbol_range c h3 2 (by decide) {}
  obtain ⟨z, h7, h8, h9, -⟩ := C16_gray_roundtrip_partial .pam4 (by decide) y (fun x hx => by
    have := h6 x hx
    simpa [intLevels] using this)
  refine ⟨z, ?_, by omega, fun x hx => by simpa [intLevels] using h9 x hx⟩
  unfold encoder encodeBinary encodeSymbols encodeOuter optStage shippedCoding
  simp only [bind, Except.bind, Bool.false_eq_true, if_false, if_true]
  rw [h1]
  simp only [gt_iff_lt, Nat.one_lt_ofNat, if_true]
  rw [h4]
  exact h7

/-- one chunk of the shipped decoder -/
theorem ship_decoder (s : List Int) (hl : s.length = 64) :
    ∃ b, decoder shippedCoding s = .ok b ∧ b.length = 64 ∧ ∀ q ∈ b, q = 0 ∨ q = 1 := by
  have hne : s ≠ [] := List.ne_nil_of_length_pos (by omega)
  obtain ⟨d, hd⟩ : ∃ d, d = (firstDiff s).map (· % ((intLevels .pam4).length : Int)) := ⟨_, rfl⟩
  have hdl : d.length = 64 := by rw [hd, List.length_map, firstDiff_length, hl]
  obtain ⟨x, hx⟩ : ∃ x, x = (d.map (fun v => symBits 2 v)).flatten := ⟨_, rfl⟩
  have hxl : x.length = 128 := by
    rw [hx, List.length_flatten, List.map_map]
    simp [Function.comp_def, symBits, hdl]
  have hxb : IsBinary x := by
    intro v hv
    rw [hx] at hv
    simp only [List.mem_flatten, List.mem_map] at hv
    obtain ⟨l, ⟨t, -, rfl⟩, hv⟩ := hv
    unfold symBits at hv
    simp only [List.mem_map] at hv
    obtain ⟨r, -, rfl⟩ := hv
    omega
  have h2 : symbol2bin d 4 {} = .ok x := by
    unfold symbol2bin
    rw [if_neg (by decide)]
    have hb : Nat.log2 4 = 2 := by decide
    simp only [hb]
    rw [if_pos (by decide), if_neg (by omega), hx]
    rfl
  obtain ⟨out, last, h3, h4, h5⟩ := ship_viterbi x hxb hxl
  refine ⟨out.map (fun v : Int => (v : ℚ)), ?_, by simpa using h4, ?_⟩
  · unfold decoder decodeOuter decodeSymbols decodeBinary decodeBinaryTail optStage shippedCoding
    simp only [bind, Except.bind, Bool.false_eq_true, if_false, if_true]
    have h1 : decodingDifferential s .pam4 = .ok d := by
      unfold decodingDifferential
      rw [if_neg hne, hd]
    rw [h1]
    simp only [gt_iff_lt, Nat.one_lt_ofNat, if_true]
    have h2' : symbol2bin d (2 ^ 2) {} = .ok x := h2
    rw [h2']
    simp only []
    rw [h3]
    rfl
  · intro q hq
    obtain ⟨v, hv, rfl⟩ := List.mem_map.1 hq
    rcases h5 v hv with rfl | rfl <;> simp

/-! ### the analog part -/

/-- the transmitter levels of the shipped configuration -/
theorem ship_levels : ∃ tx, mappingDataLevels .pam4 (some (getLevels .pam4 false)) 750 = .ok tx ∧ tx.length = 4 := by
  refine ⟨_, mappingDataLevels_some _ _ _ (by simp [getLevels, intLevels]), by simp [getLevels, intLevels]⟩

/-- one call of the shipped transmitter from any binary register -/
theorem ship_transmitter (rnd : Int → Int) (fir tx : List ℝ) (htx : tx.length = 4) (seed : List Int) (hs : seed.length = 13) :
    ∃ p s v seed', transmitterCall (shippedArgs rnd fir tx) seed = .ok ((p, s, v), seed') ∧ p.length = 64 ∧ s.length = 64 ∧
      v.length = 64 ∧ seed'.length = 13 := by
  have hv : seed.length = PrbsEnum.prbs13.value := hs
  obtain ⟨p, hp⟩ : ∃ p, p = (List.range 64).map (bitAt (getPolynomial .prbs13) seed) := ⟨_, rfl⟩
  have hg := prbsGenerator_supported .prbs13 seed hv 64
  rw [← hp] at hg
  have hpl : p.length = 64 := by rw [hp]; simp
  have hpb : IsBinary p := by
    intro x hx
    rw [hp] at hx
    obtain ⟨t, -, rfl⟩ := List.mem_map.1 hx
    rw [bitAt_eq_code _ _ (by rw [hs]; rfl) (by omega)]
    omega
  obtain ⟨s, h1, h2, h3⟩ := ship_encoder rnd p hpb hpl
  obtain ⟨v, h4, h5⟩ : ∃ v, transmitSymbols s .pam4 tx = .ok v ∧ v.length = 64 := by
    refine ⟨s.map (fun x => tx.getD x.toNat 0), ?_, by simpa using h2⟩
    unfold transmitSymbols mapping
    simp only [Bool.false_eq_true, if_false]
    rw [if_neg (by rw [htx]; simp [getLevels, intLevels])]
    refine npTake_ok _ _ _ (fun x hx => ?_)
    obtain ⟨a, b⟩ := h3 x hx
    obtain ⟨n, rfl⟩ := Int.eq_ofNat_of_zero_le a
    rw [npGet_nat _ _ (by omega), Int.toNat_natCast, getD_of_lt 0 _ (by omega)]
  refine ⟨p, s, v, reg (getPolynomial .prbs13) seed 64, ?_, hpl, h2, h5, ?_⟩
  · unfold transmitterCall shippedArgs
    simp only [bind, Except.bind]
    rw [hg]
    simp only []
    rw [h1]
    simp only []
    rw [h4]
    rfl
  · rw [reg_length _ _ _ (by omega), hs]

/-- one call of the shipped channel from memories of the right sizes -/
theorem ship_channel (rnd : Int → Int) (fir tx : List ℝ) (hf : 0 < fir.length) (m : ChannelMem)
    (hm : m.ch.length = fir.length - 1 ∧ m.pulse.length = 1023) (noise x : List ℝ) (hx : x.length = 64)
    (hn : noise.length = 4096) :
    ∃ y m', channelCall (shippedArgs rnd fir tx).chan m noise x = .ok (.signal y, m') ∧ y.length = 4096 ∧
      m'.ch.length = fir.length - 1 ∧ m'.pulse.length = 1023 := by
  obtain ⟨g, hg⟩ : ∃ g : ℝ → ℝ, getPulse "rcos" 64 8 (35 / 100) = .ok ((timeVec 64 8).map g) := by
    unfold getPulse rcosPulse
    rw [if_neg (by decide), if_neg (by decide), if_pos rfl, if_neg (by norm_num)]
    exact ⟨_, rfl⟩
  obtain ⟨u, -, h2, h3⟩ := pulseShape_eq x 64 8 "rcos" (35 / 100) g hg (by norm_num) (by norm_num) (by omega) (some m.pulse)
    (fun z hz => by cases hz; exact hm.2)
  obtain ⟨q, hq⟩ : ∃ q, q = lfRun id ((timeVec 64 8).map g) [1] m.pulse u := ⟨_, rfl⟩
  have hq1 : q.1.length = 4096 := by rw [hq, lfRun_length, h2, hx]
  have hq2 : q.2.length = 1023 := by rw [hq, lfRun_state_length, hm.2]
  have h4 := @awgnChannel_eq ℝ _ (fun _ _ => Classical.propDecidable _) q.1 fir (.vec [1]) (some m.ch) hf (by simp [Denom.coeffs])
    (by simp [Denom.coeffs]) (fun z hz => by
      cases hz
      rw [hm.1]
      simp [Denom.coeffs]
      omega) (Or.inr (by omega))
  obtain ⟨w, hw⟩ : ∃ w, w = lfRun id (fir.map (· / (Denom.vec [(1 : ℝ)]).coeffs.getD 0 0))
      ((Denom.vec [(1 : ℝ)]).coeffs.map (· / (Denom.vec [(1 : ℝ)]).coeffs.getD 0 0)) m.ch q.1 := ⟨_, rfl⟩
  have hw1 : w.1.length = 4096 := by rw [hw, lfRun_length, hq1]
  have hw2 : w.2.length = fir.length - 1 := by rw [hw, lfRun_state_length, hm.1]
  simp only [Option.getD_some] at h3 h4
  rw [← hw] at h4
  rw [← hq] at h3
  obtain ⟨s, hs⟩ : ∃ s, awgnStd w.1 10 = some s := by
    unfold awgnStd sigPowerHat
    rw [if_neg (by omega)]
    exact ⟨_, rfl⟩
  refine ⟨List.zipWith (fun x z => x + (0 + s * z)) w.1 noise, ⟨w.2, q.2⟩, ?_, ?_, hw2, hq2⟩
  · unfold channelCall shippedArgs
    simp only [bind, Except.bind, ChannelArgs.iirCoefs, ChannelArgs.firCoefs, Option.getD_some]
    rw [h3]
    simp only []
    unfold awgnChannelSnr
    rw [h4]
    simp only [bind, Except.bind, awgn, hs]
    rfl
  · rw [List.length_zipWith, hw1, hn]; rfl

/-- the CTLE of the shipped receiver -/
theorem ship_ctle (rnd : Int → Int) (fir tx : List ℝ) (z y : List ℝ) (hz : z.length = 3) :
    ∃ w z', ctleObjCall (shippedArgs rnd fir tx).zeros (shippedArgs rnd fir tx).poles (shippedArgs rnd fir tx).dcGain
      (shippedArgs rnd fir tx).fs (shippedArgs rnd fir tx).ctleOsr z y = .ok (some (w, z')) ∧ w.length = y.length ∧
      z'.length = 3 := by
  obtain ⟨b, a, h1, -, -⟩ := ctle_run (shippedArgs rnd fir tx).zeros (shippedArgs rnd fir tx).poles
    (shippedArgs rnd fir tx).dcGain (shippedArgs rnd fir tx).fs (shippedArgs rnd fir tx).ctleOsr (by simp [shippedArgs])
    (by simp [shippedArgs]) (by simp [shippedArgs]) (by simp [shippedArgs]) (by norm_num [shippedArgs])
  refine ⟨_, _, ?_, lfRun_length id b a z y, (lfRun_state_length id b a z y).trans hz⟩
  unfold ctleObjCall
  rw [h1 y z (by rw [hz]; simp [shippedArgs])]
  rfl

/-- the converter of the shipped receiver: 64 samples per chunk, all within the range of the code -/
theorem ship_adc (w : List ℝ) (hw : w.length = 4096) (ph : ℕ) (hp : ph < 64) :
    ∃ d : List ℝ, adcCall 8 6 .ss 64 1 ph w = .ok d ∧ d.length = 64 ∧ ∀ v ∈ d, |v| ≤ 127 / 64 := by
  have hr : codeRange 8 .ss = some (-127, 127) := by decide
  obtain ⟨d, h1, h2, h3⟩ := C74_conversion_partial (K := ℝ) 8 6 64 1 ph (by norm_num) .ss (-127, 127) hr (by norm_num) w
  have hl := adcCall_length 8 6 64 1 ph (by norm_num) .ss (-127, 127) hr (by simpa using hp) w d (by rw [hw]; decide) h1
  have hd : d.length = 64 := by rw [hw] at hl; omega
  refine ⟨d, h1, hd, ?_⟩
  intro v hv
  obtain ⟨k, hk, rfl⟩ := List.getElem_of_mem hv
  have hb := (h2 k).1 hk
  obtain ⟨c, e, c1, c2, -⟩ := h3 k _ _ (List.getElem?_eq_getElem hb) (List.getElem?_eq_getElem hk)
  rw [e]
  have c1' : (-127 : ℝ) ≤ c := by exact_mod_cast c1
  have c2' : (c : ℝ) ≤ 127 := by exact_mod_cast c2
  rw [abs_le]
  constructor <;> norm_num <;> linarith

/-! ### the equalizer with its default taps -/

/-- the object delays: `h` are the samples still to come out -/
def EqDelay (o : EqObj ℝ) (h : List ℝ) : Prop :=
  ∀ cs : List (List ℝ), cs ≠ [] → (∀ c ∈ cs, c ≠ []) → ∃ ys o', eqCalls o cs = .ok (ys, o') ∧
    ys.map List.length = cs.map List.length ∧ ys.flatten = (h ++ cs.flatten).take cs.flatten.length

theorem eqDelay_init : ∃ o, eqInit 4 27 1 none none (some (getLevels .pam4 false)) none none = .ok o ∧
    EqDelay o (List.replicate 4 0) := by
  obtain ⟨o, ho⟩ := (C75_accepts (K := ℝ) 4 27 1 none none (some (getLevels .pam4 false)) none none).1.2
    ⟨by simp, by simp, by simp, by simp, by simp⟩
  refine ⟨o, ho, ?_⟩
  intro cs h0 hne
  obtain ⟨ys, o', d, h1, h2, -, h4⟩ := C75_decision_feedback 4 27 1 none none none none (getLevels .pam4 false)
    (by simp [getLevels, intLevels]) (by norm_num) o ho cs h0 hne
  have hlen : ys.flatten.length = cs.flatten.length := by rw [List.length_flatten, List.length_flatten, h2]
  refine ⟨ys, o', h1, h2, ?_⟩
  apply ext_getD 0
  · rw [hlen, List.length_take, List.length_append]; simp
  intro n hn
  rw [hlen] at hn
  · rw [(h4 n hn).1, take_getD _ _ _ _ hn]
    rw [Finset.sum_eq_single 4]
    · simp only [Option.getD_none, List.drop_nil, List.reverse_nil]
      have e4 : (List.replicate 4 (0 : ℝ) ++ 1 :: List.replicate 27 0).getD 4 0 = 1 := rfl
      rw [e4]
      simp only [Finset.range_one, Finset.sum_singleton, List.getD_nil, zero_mul, sub_zero, one_mul]
      rcases Nat.lt_or_ge n 4 with h | h
      · unfold withPast
        rw [if_neg (by push_cast; omega)]
        rw [List.getD_append _ _ _ _ (by simpa using h), replicate_getD]
        simp
      · obtain ⟨k, rfl⟩ : ∃ k, n = k + 4 := ⟨n - 4, by omega⟩
        rw [show (((k + 4 : ℕ) : ℤ) - (4 : ℕ)) = (k : ℤ) by push_cast; ring, withPast_nat,
          List.getD_append_right _ _ _ _ (by simp)]
        simp
    · intro b hb hb4
      have hb' : b < 32 := Finset.mem_range.1 hb
      have : (List.replicate 4 (0 : ℝ) ++ 1 :: List.replicate 27 0).getD b 0 = 0 := by
        rcases Nat.lt_or_ge b 4 with h | h
        · rw [List.getD_append _ _ _ _ (by simpa using h), replicate_getD]
        · obtain ⟨k, rfl⟩ : ∃ k, b = k + 5 := ⟨b - 5, by omega⟩
          rw [List.getD_append_right _ _ _ _ (by simp)]
          simp only [List.length_replicate]
          rw [show k + 5 - 4 = k + 1 by omega, List.getD_cons_succ, replicate_getD]
      simp only [Option.getD_none, this, zero_mul]
    · intro h
      exact absurd (Finset.mem_range.2 (by norm_num)) h

theorem eqDelay_call (o : EqObj ℝ) (h c : List ℝ) (ho : EqDelay o h) (hc : c ≠ []) :
    ∃ o', eqCall o c = .ok ((h ++ c).take c.length, o') ∧ EqDelay o' ((h ++ c).drop c.length) := by
  obtain ⟨ys, o', h1, h2, h3⟩ := ho [c] (by simp) (by simpa using hc)
  obtain ⟨r, hr⟩ : ∃ r, eqCall o c = .ok r := by
    cases he : eqCall o c with
    | error e =>
      unfold eqCalls at h1
      rw [he] at h1
      cases h1
    | ok r => exact ⟨r, rfl⟩
  have h1' : ys = [r.1] ∧ o' = r.2 := by
    unfold eqCalls at h1
    rw [hr] at h1
    simp only [bind, Except.bind, eqCalls, pure, Except.pure, Except.ok.injEq, Prod.mk.injEq] at h1
    exact ⟨h1.1.symm, h1.2.symm⟩
  obtain ⟨rfl, rfl⟩ := h1'
  have hy : r.1 = (h ++ c).take c.length := by simpa using h3
  refine ⟨r.2, by rw [hr, ← hy], ?_⟩
  intro cs h0 hne
  obtain ⟨zs, o'', g1, g2, g3⟩ := ho (c :: cs) (by simp) (by
    intro x hx
    rcases List.mem_cons.1 hx with rfl | hx
    · exact hc
    · exact hne x hx)
  unfold eqCalls at g1
  rw [hr] at g1
  simp only [bind, Except.bind] at g1
  cases he : eqCalls r.2 cs with
  | error e => rw [he] at g1; cases g1
  | ok s =>
    rw [he] at g1
    simp only [pure, Except.pure, Except.ok.injEq, Prod.mk.injEq] at g1
    obtain ⟨rfl, rfl⟩ := g1
    refine ⟨s.1, s.2, rfl, by simpa using (List.cons.inj (by simpa using g2)).2, ?_⟩
    rw [List.flatten_cons, List.flatten_cons, List.length_append, ← List.append_assoc] at g3
    have e1 : (h ++ c ++ cs.flatten).take (c.length + cs.flatten.length)
        = (h ++ c).take c.length ++ ((h ++ c).drop c.length ++ cs.flatten).take cs.flatten.length := by
      rw [List.take_add, List.take_append_of_le_length (by simp), List.drop_append_of_le_length (by simp)]
    rw [e1, hy] at g3
    exact List.append_cancel_left g3

/-! ### one call of the link -/

/-- the slicer levels of the shipped receiver -/
noncomputable def shipLevels : List ℝ := [-(3 / 4), -(1 / 4), 1 / 4, 3 / 4]

theorem ship_rx_levels (tx : List ℝ) (h : mappingDataLevels .pam4 (some (getLevels .pam4 false)) 750 = .ok tx) :
    receiverLevels tx 750 (3 / 4) = shipLevels ∧ tx.length = 4 := by
  have hg : getLevels .pam4 false = [-3, -1, 1, 3] := C18_levels_pam4
  rw [mappingDataLevels_some _ _ _ (by simp [hg])] at h
  cases h
  constructor
  · rw [receiverLevels_of _ _ _ (by norm_num), maxAbs_eq _ 3 (by norm_num), hg]
    · unfold shipLevels
      simp only [List.map_cons, List.map_nil, List.cons.injEq, and_true]
      norm_num
    · rw [hg]
      intro x hx
      simp only [List.mem_cons, List.not_mem_nil, or_false] at hx
      rcases hx with rfl | rfl | rfl | rfl <;> norm_num [abs_le]
    · exact ⟨3, by simp [hg], by norm_num⟩
  · simp [hg]

/-- the demapped symbols of any slicer output of the shipped receiver -/
theorem ship_demap (x : List ℝ) :
    ∃ sym, (demapping (x.map (sliceOne shipLevels)) .pam4 false false).1 = .ok sym ∧ sym.length = x.length ∧
      ∀ v ∈ sym, v = 1 ∨ v = 2 := by
  obtain ⟨tx, out, h1, h2, h3, h4⟩ := C71_negative_pam4 (getLevels .pam4 false) ⟨-3, by simp [getLevels, intLevels], by norm_num⟩
    750 (3 / 4) (by norm_num) (by rw [abs_of_pos] <;> norm_num) x
  rw [(ship_rx_levels tx h1).1, recoverSymbols_eq _ _ _ (by simp [shipLevels])] at h2
  exact ⟨out, h2, h3, h4⟩

/-- the memories of the shipped link have the right sizes; `h` are the four samples inside the equalizer -/
structure ShipReady (fir : List ℝ) (st : LinkFull) (h : List ℝ) : Prop where
  seed : st.seed.length = 13
  chan : st.ch.ch.length = fir.length - 1 ∧ st.ch.pulse.length = 1023
  ctle : st.rx.mem.ctleZi.length = 3
  eq : EqDelay st.rx.mem.eq h
  hist : h.length = 4
  phase : 0 ≤ st.rx.phase ∧ st.rx.phase < 64

/-- one call of the link in any control state: everything before and after the convergence stage succeeds -/
theorem ship_step (rnd : Int → Int) (fir tx : List ℝ) (hf : 0 < fir.length)
    (htx : mappingDataLevels .pam4 (some (getLevels .pam4 false)) 750 = .ok tx) (st : LinkFull) (h : List ℝ)
    (hr : ShipReady fir st h) (noise : List ℝ) (hn : noise.length = 4096) :
    ∃ (p s sym : List Int) (bits : List ℚ) (d : List ℝ) (seed' : List Int) (ch' : ChannelMem) (mem' : RxMem),
      p.length = 64 ∧ s.length = 64 ∧ d.length = 64 ∧ (∀ v ∈ d, |v| ≤ 127 / 64) ∧ sym.length = 64 ∧
      (∀ v ∈ sym, v = 1 ∨ v = 2) ∧ bits.length = 64 ∧ (∀ q ∈ bits, q = 0 ∨ q = 1) ∧
      ShipReady fir ⟨seed', ch', { st.rx with mem := mem', adcOut := d }⟩ ((h ++ d).drop 64) ∧
      linkFullCall (shippedArgs rnd fir tx) 4 noise st =
        (convergeStage 4 64 shipLevels st.rx.adcOut d (((h ++ d).take 64).map (fun v => st.rx.gain * v))
          ((((h ++ d).take 64).map (fun v => st.rx.gain * v)).map (sliceOne shipLevels))
          { st.rx with mem := mem', adcOut := d }).map
          (fun r => some (⟨p, s, ⟨sym, bits⟩⟩, ⟨seed', ch', r⟩)) := by
  obtain ⟨hlv, htl⟩ := ship_rx_levels tx htx
  obtain ⟨p, s, v, seed', t1, t2, t3, t4, t5⟩ := ship_transmitter rnd fir tx htl st.seed hr.seed
  obtain ⟨y, ch', c1, c2, c3, c4⟩ := ship_channel rnd fir tx hf st.ch hr.chan noise v t4 hn
  obtain ⟨w, zi', w1, w2, w3⟩ := ship_ctle rnd fir tx st.rx.mem.ctleZi y hr.ctle
  obtain ⟨d, d1, d2, d3⟩ := ship_adc w (w2.trans c2) st.rx.phase.toNat (by have := hr.phase; omega)
  obtain ⟨o', e1, e2⟩ := eqDelay_call st.rx.mem.eq h d hr.eq (List.ne_nil_of_length_pos (by omega))
  rw [d2] at e1 e2
  obtain ⟨sym, s1, s2, s3⟩ := ship_demap (((h ++ d).take 64).map (fun v => st.rx.gain * v))
  have hsl : sym.length = 64 := by
    rw [s2, List.length_map, List.length_take, List.length_append, d2]
    omega
  obtain ⟨bits, b1, b2, b3⟩ := ship_decoder sym hsl
  refine ⟨p, s, sym, bits, d, seed', ch', ⟨zi', o'⟩, t2, t3, d2, d3, hsl, s3, b2, b3, ?_, ?_⟩
  · refine ⟨t5, ⟨c3, c4⟩, w3, e2, ?_, hr.phase⟩
    rw [List.length_drop, List.length_append, hr.hist, d2]
  · unfold linkFullCall
    rw [t1]
    simp only [bind, Except.bind]
    rw [c1]
    simp only []
    unfold receiverFull
    simp only [bind, Except.bind]
    rw [w1]
    simp only []
    have d1' : adcCall (shippedArgs rnd fir tx).totalBits (shippedArgs rnd fir tx).fracBits (shippedArgs rnd fir tx).quant
      (shippedArgs rnd fir tx).adcOsr (shippedArgs rnd fir tx).sampleRate st.rx.phase.toNat w = .ok d := d1
    rw [d1']
    simp only []
    rw [e1]
    simp only []
    have hl' : receiverLevels (shippedArgs rnd fir tx).txLevels (shippedArgs rnd fir tx).amp (shippedArgs rnd fir tx).rxFactor
        = shipLevels := hlv
    rw [hl']
    have hsl' : sliceChunk (((h ++ d).take 64).map (fun v => st.rx.gain * v)) shipLevels
        = .ok ((((h ++ d).take 64).map (fun v => st.rx.gain * v)).map (sliceOne shipLevels)) := by
      unfold sliceChunk slicer
      simp only [Option.getD_some]
      rw [if_neg (by simp [shipLevels])]
      rfl
    rw [hsl']
    simp only []
    have ho : (shippedArgs rnd fir tx).chan.osr = 64 := rfl
    rw [ho]
    cases convergeStage 4 64 shipLevels st.rx.adcOut d (((h ++ d).take 64).map (fun v => st.rx.gain * v))
          ((((h ++ d).take 64).map (fun v => st.rx.gain * v)).map (sliceOne shipLevels))
          { st.rx with mem := ⟨zi', o'⟩, adcOut := d } with
    | error e => rfl
    | ok r =>
      simp only []
      have s1' : (demapping ((((h ++ d).take 64).map (fun v => st.rx.gain * v)).map (sliceOne shipLevels))
        (shippedArgs rnd fir tx).constellation false false).1 = .ok sym := s1
      rw [s1']
      simp only []
      have b1' : decoder (shippedArgs rnd fir tx).coding sym = .ok bits := b1
      rw [b1']
      rfl

/-- the shipped configuration is built and all objects are constructed -/
theorem ship_start (rnd : Int → Int) (taps : List ℝ) (ht : taps ≠ []) :
    ∃ fir tx s0, 0 < fir.length ∧ mappingDataLevels .pam4 (some (getLevels .pam4 false)) 750 = .ok tx ∧
      shippedConfig rnd taps = .ok (shippedArgs rnd fir tx) ∧
      simulationStart (shippedArgs rnd fir tx) 4 27 1 (getLevels .pam4 false) = .ok s0 ∧
      ShipReady fir s0 (List.replicate 4 0) ∧ s0.rx.converge = false ∧ s0.rx.done = false ∧ s0.rx.gain = 1 ∧
      s0.rx.phase = 32 := by
  obtain ⟨tx, h1, h2⟩ := ship_levels
  obtain ⟨fir, h3, h4⟩ : ∃ fir, upsample taps 64 = .ok fir ∧ 0 < fir.length := by
    refine ⟨_, rfl, ?_⟩
    cases taps with
    | nil => exact absurd rfl ht
    | cons a l => simp
  obtain ⟨o, h5, h6⟩ := eqDelay_init
  refine ⟨fir, tx, ⟨List.replicate 13 1, ⟨List.replicate (fir.length - 1) 0, List.replicate 1023 0⟩,
    { mem := ⟨List.replicate 3 0, o⟩, gain := 1, phase := 32 }⟩, h4, h1, ?_, ?_, ?_, rfl, rfl, rfl, rfl⟩
  · unfold shippedConfig
    rw [h1]
    simp only [bind, Except.bind]
    rw [h3]
    rfl
  · unfold simulationStart
    have hc : channelInit (shippedArgs rnd fir tx).chan = .ok ⟨List.replicate (fir.length - 1) 0, List.replicate 1023 0⟩ := by
      rw [channelInit_rest (shippedArgs rnd fir tx).chan [1] rfl (show 0 < 8 by decide) (show 0 < 64 by decide) h4 rfl rfl]
      have e : max ([1] : List ℝ).length (shippedArgs rnd fir tx).chan.firCoefs.length - 1 = fir.length - 1 := by
        have : (shippedArgs rnd fir tx).chan.firCoefs.length = fir.length := rfl
        rw [this, List.length_singleton]
        omega
      have e' : (shippedArgs rnd fir tx).chan.osr * (shippedArgs rnd fir tx).chan.span * 2 - 1 = 1023 := by
        show 64 * 8 * 2 - 1 = 1023
        norm_num
      rw [e, e']
    rw [hc]
    simp only [bind, Except.bind]
    rw [h5]
    simp only []
    have hb : berInit (shippedArgs rnd fir tx).prbs (List.replicate (getPolynomial (shippedArgs rnd fir tx).prbs).length 1)
      = .ok _ := berInit_eq .prbs13 (List.replicate 13 1) rfl
    rw [hb]
    rfl
  · exact ⟨List.length_replicate, ⟨List.length_replicate, List.length_replicate⟩, List.length_replicate, h6, List.length_replicate, by norm_num⟩

end Verif
