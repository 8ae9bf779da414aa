import Verif.Lemmas.BlockRate
import Verif.Props.BitErrorRate
import Verif.Props.CodingTests

/-!
# Block errors of the linear code over the noisy two-level link (C103)

The data go through `coding_linear`, `bin2symbol`, optionally `coding_gray`, `mapping`, `awgn`, `slicer`, `demapping`, optionally
`decoding_gray`, `symbol2bin` and `decoding_linear`.
-/

open Finset MeasureTheory ProbabilityTheory

namespace Verif
open Spec (qFunc IsBinary BinaryMatrix Word codeBit seq block flipProb flipped wordOf codeDist MinDist decodedProb)

/-- the decoder of the library applied to one block -/
def linearDecoder (G : List (List Int)) (b : List Int) : List Int :=
  match decodingLinear b G with
  | .ok out => out
  | .error _ => []

theorem linearDecoder_eq {n : ℕ} {G : List (List Int)} (hG : BinaryMatrix n G) (hk : 0 < G.length) (hn : 0 < n) (b : List Int)
    (hb : Word n b) : linearDecoder G b = linDec G b := by
  unfold linearDecoder
  rw [decoding_one hG hk hn b hb]

/-- decisions of a two-level link: bit `b` is wrong iff draw `b` lies in a region of probability `Q(t)` -/
theorem two_regions (gray : Bool) (c : Constellation) (hc : c = .nrz ∨ c = .ook) (f : SymFlags) (fs : Bool) (bits : List Int)
    (hbin : IsBinary bits) (h2 : 2 ≤ bits.length) (sym : List Int) (hsym : txSymbols gray c f bits = .ok sym) (lv : List ℝ)
    (hlv : mapping sym c fs none false = .ok lv) (hnz : ∃ x ∈ lv, x ≠ 0) (snr : ℝ) :
    ∃ s t, awgnStd lv snr = some s ∧ 0 < s ∧ t = ((getLevels c fs).getD 1 0 - (getLevels c fs).getD 0 0) / (2 * s) ∧
      (∀ x : Fin bits.length → ℝ, ∃ y out, awgn (List.ofFn x) lv snr = some y ∧ rxBits gray c f fs y = .ok out ∧ out.length = bits.length) ∧
      ∃ W : Fin bits.length → Set ℝ, (∀ i, MeasurableSet (W i)) ∧ (∀ i, (gaussianReal 0 1).real (W i) = qFunc t) ∧
        ∀ (x : Fin bits.length → ℝ) (i : Fin bits.length), BitWrong gray c f fs bits lv snr (List.ofFn x) i ↔ x i ∈ W i := by
  have hM : numLevels c = 2 := by rcases hc with rfl | rfl <;> rfl
  have hc3 : c ≠ .pam3 := by rcases hc with rfl | rfl <;> decide
  obtain ⟨s, t, h4, hs0, ht, hrun, hq⟩ := C98_two gray c hc f fs bits hbin h2 sym hsym lv hlv hnz snr
  refine ⟨s, t, h4, hs0, ht, hrun, ?_⟩
  obtain ⟨sym', h3, hsl, -⟩ := tx_valid gray c hc3 1 le_rfl (by rw [hM]; rfl) f bits hbin (Nat.mod_one _) (by omega)
  rw [h3] at hsym
  obtain rfl := Except.ok.inj hsym
  rw [Nat.div_one] at hsl
  obtain ⟨_, _, -, -, -, -, hp⟩ := link_prob gray c hc3 1 le_rfl (by rw [hM]; rfl) f fs bits hbin (Nat.mod_one _) (by omega)
    sym' h3 lv hlv hnz snr
  rw [hsl] at hp
  have hW : ∀ i : Fin bits.length, ∃ W, MeasurableSet W ∧ ∀ x : Fin bits.length → ℝ,
      BitWrong gray c f fs bits lv snr (List.ofFn x) i ↔ x i ∈ W := by
    intro i
    obtain ⟨W, g1, g2⟩ := (hp i i.2).2 0 one_pos
    refine ⟨W, g1, fun x => ?_⟩
    have := g2 x
    rwa [one_mul, add_zero] at this
  choose W hWm hWx using hW
  refine ⟨W, hWm, fun i => ?_, fun x i => hWx i x⟩
  rw [← hq i i.2, ← draws_single i]
  congr 1
  ext x
  exact (hWx i x).symm

theorem rxBits_binary (gray : Bool) (c : Constellation) (hc : c = .nrz ∨ c = .ook) (f : SymFlags) (fs : Bool) (y : List ℝ)
    (out : List Int) (h : rxBits gray c f fs y = .ok out) : IsBinary out := by
  have hM : numLevels c = 2 := by rcases hc with rfl | rfl <;> rfl
  have key : ∀ s : List Int, symbol2bin s (numLevels c) f = .ok out → IsBinary out := by
    intro s hs
    rw [hM, symbol2bin_two] at hs
    rw [← Except.ok.inj hs]
    intro x hx
    rw [List.mem_flatten] at hx
    obtain ⟨l, hl, hx⟩ := hx
    rw [List.mem_map] at hl
    obtain ⟨a, -, rfl⟩ := hl
    split_ifs at hx
    · rw [List.mem_map] at hx
      obtain ⟨z, hz, rfl⟩ := hx
      have := symBits_binary 1 a z hz
      omega
    · exact symBits_binary 1 a x hx
  unfold rxBits at h
  cases hz : slicer (.vec y) (some (getLevels c fs)) with
  | error e => rw [hz] at h; cases h
  | ok z =>
    rw [hz] at h
    cases z with
    | vec z =>
      simp only [bind, Except.bind] at h
      cases h1 : (demapping z c fs false).1 with
      | error e => rw [h1] at h; cases h
      | ok r =>
        rw [h1] at h
        simp only at h
        cases h2 : rxSymbols gray c r with
        | error e => rw [h2] at h; cases h
        | ok s =>
          rw [h2] at h
          exact key s h
    | _ => cases h

/-- **C103.** NRZ and OOK: the wrong bits are independent. For every set `A` of bit positions and every part `S` of it, the
probability that among the bits of `A` exactly those of `S` are wrong is `q^|S| (1-q)^(|A|-|S|)` with `q = Q(d/2σ)`. -/
theorem C103_channel (gray : Bool) (c : Constellation) (hc : c = .nrz ∨ c = .ook) (f : SymFlags) (fs : Bool) (bits : List Int)
    (hbin : IsBinary bits) (h2 : 2 ≤ bits.length) (sym : List Int) (hsym : txSymbols gray c f bits = .ok sym) (lv : List ℝ)
    (hlv : mapping sym c fs none false = .ok lv) (hnz : ∃ x ∈ lv, x ≠ 0) (snr : ℝ) :
    ∃ s t, awgnStd lv snr = some s ∧ 0 < s ∧ t = ((getLevels c fs).getD 1 0 - (getLevels c fs).getD 0 0) / (2 * s) ∧
      ∀ A S : Finset ℕ, (∀ b ∈ A, b < bits.length) → S ⊆ A →
        (normalDraws bits.length).real {x | ∀ b ∈ A, (BitWrong gray c f fs bits lv snr (List.ofFn x) b ↔ b ∈ S)}
          = qFunc t ^ S.card * (1 - qFunc t) ^ (A.card - S.card) := by
  obtain ⟨s, t, h4, hs0, ht, -, W, hWm, hWq, hWx⟩ := two_regions gray c hc f fs bits hbin h2 sym hsym lv hlv hnz snr
  refine ⟨s, t, h4, hs0, ht, fun A S hA hS => ?_⟩
  have hc1 : ∀ B : Finset ℕ, (∀ b ∈ B, b < bits.length) → (univ.filter fun i : Fin bits.length => (i : ℕ) ∈ B).card = B.card := by
    intro B hB
    rw [← card_map Fin.valEmbedding]
    congr 1
    ext b
    simp only [mem_map, mem_filter, mem_univ, true_and, Fin.valEmbedding_apply]
    exact ⟨fun ⟨i, hi, e⟩ => e ▸ hi, fun hb => ⟨⟨b, hB b hb⟩, hb, rfl⟩⟩
  have h := box_law W hWm _ hWq (univ.filter fun i : Fin bits.length => (i : ℕ) ∈ A) (univ.filter fun i : Fin bits.length => (i : ℕ) ∈ S)
    (fun i hi => by
      rw [mem_filter] at hi ⊢
      exact ⟨hi.1, hS hi.2⟩)
  rw [hc1 A hA, hc1 S fun b hb => hA b (hS hb)] at h
  rw [← h]
  congr 1
  ext x
  simp only [mem_filter, mem_univ, true_and]
  constructor
  · intro hx i hi
    rw [← hWx x i]
    exact hx i hi
  · intro hx b hb
    rw [hWx x ⟨b, hA b hb⟩]
    exact hx ⟨b, hA b hb⟩ hb

theorem codeBit_congr (G : List (List Int)) (u v : ℕ → Int) (h : ∀ i < G.length, u i = v i) (j : ℕ) : codeBit G u j = codeBit G v j := by
  unfold codeBit
  rw [sum_congr rfl fun i hi => by rw [h i (mem_range.1 hi)]]

/-- **C103.** The coded link: data block `r` (zero padded at the end) is returned with the probability that the decoder of the
library returns it when every bit of its codeword is inverted independently with probability `Q(d/2σ)`; no step raises. -/
theorem C103_link (gray : Bool) (c : Constellation) (hc : c = .nrz ∨ c = .ook) (f : SymFlags) (fs : Bool) {n : ℕ} {G : List (List Int)}
    (hG : BinaryMatrix n G) (hk : 0 < G.length) (hn : 0 < n) (data : List Int) (hd : IsBinary data) (code : List Int)
    (hcode : codingLinear data G = .ok code) (h2 : 2 ≤ code.length) (sym : List Int) (hsym : txSymbols gray c f code = .ok sym)
    (lv : List ℝ) (hlv : mapping sym c fs none false = .ok lv) (hnz : ∃ x ∈ lv, x ≠ 0) (snr : ℝ) :
    ∃ s t, awgnStd lv snr = some s ∧ 0 < s ∧ t = ((getLevels c fs).getD 1 0 - (getLevels c fs).getD 0 0) / (2 * s) ∧
      (∀ x : Fin code.length → ℝ, ∃ y rcv out, awgn (List.ofFn x) lv snr = some y ∧ rxBits gray c f fs y = .ok rcv ∧
        decodingLinear rcv G = .ok out ∧ out.length = (data.length + G.length - 1) / G.length * G.length) ∧
      ∀ r < (data.length + G.length - 1) / G.length,
        (normalDraws code.length).real {x | ∃ y rcv out, awgn (List.ofFn x) lv snr = some y ∧ rxBits gray c f fs y = .ok rcv ∧
            decodingLinear rcv G = .ok out ∧ ∀ i < G.length, out.getD (r * G.length + i) 0 = data.getD (r * G.length + i) 0}
          = decodedProb n G (linearDecoder G) (qFunc t) (List.ofFn fun i : Fin G.length => data.getD (r * G.length + i) 0) := by
  classical
  obtain ⟨code', hcode', hcb, hcl, hcv⟩ := C30_encoder hG hk data hd
  rw [hcode] at hcode'
  obtain rfl := Except.ok.inj hcode'
  obtain ⟨s, t, h4, hs0, ht, hrun, W, hWm, hWq, hWx⟩ := two_regions gray c hc f fs code hcb h2 sym hsym lv hlv hnz snr
  have hdec : ∀ rcv : List Int, IsBinary rcv → rcv.length = code.length →
      decodingLinear rcv G = .ok ((rows n rcv).map (linDec G)).flatten ∧
      rows G.length ((rows n rcv).map (linDec G)).flatten = (rows n rcv).map (linDec G) ∧
      ((rows n rcv).map (linDec G)).flatten.length = (data.length + G.length - 1) / G.length * G.length := by
    intro rcv hb hl
    have hlen : ∀ l ∈ (rows n rcv).map (linDec G), l.length = G.length := by
      intro l hl
      rw [List.mem_map] at hl
      obtain ⟨b, hb', rfl⟩ := hl
      exact (linDec_min hG hk hn b (rows_word n hb b hb')).1.1
    refine ⟨decoding_linDec hG hk hn rcv hb, rows_flatten _ hk _ hlen, ?_⟩
    obtain ⟨out, g1, g2, -⟩ := linear_blocks hG hk hn rcv hb
    rw [decoding_linDec hG hk hn rcv hb] at g1
    rw [Except.ok.inj g1, g2, hl, hcl, Nat.mul_div_cancel_left _ hn]
  refine ⟨s, t, h4, hs0, ht, fun x => ?_, fun r hr => ?_⟩
  · obtain ⟨y, rcv, e1, e2, e3⟩ := hrun x
    have hb := rxBits_binary gray c hc f fs y rcv e2
    obtain ⟨g1, -, g3⟩ := hdec rcv hb e3
    exact ⟨y, rcv, _, e1, e2, g1, g3⟩
  have hpos : ∀ j < n, r * n + j < code.length := by
    intro j hj
    rw [hcl]
    have := Nat.mul_le_mul_left n (Nat.succ_le_of_lt hr)
    rw [Nat.mul_succ, Nat.mul_comm n r] at this
    omega
  let ι : Fin n ↪ Fin code.length := ⟨fun j => ⟨r * n + j, hpos j j.2⟩, fun a b h => by
    have := congrArg Fin.val h
    simp only at this
    exact Fin.ext (by omega)⟩
  obtain ⟨u, hu⟩ : ∃ u : List Int, u = List.ofFn fun i : Fin G.length => data.getD (r * G.length + i) 0 := ⟨_, rfl⟩
  rw [← hu]
  have hul : u.length = G.length := by rw [hu, List.length_ofFn]
  have hug : ∀ i < G.length, u.getD i 0 = data.getD (r * G.length + i) 0 := by
    intro i hi
    rw [hu, List.getD_eq_getElem _ 0 (by simpa using hi), List.getElem_ofFn]
  have hcu : ∀ j < n, code.getD (r * n + j) 0 = codeBit G (seq u) j := by
    intro j hj
    rw [hcv r j hr hj]
    exact codeBit_congr G _ _ (fun i hi => (hug i hi).symm) j
  have h := part_law W hWm _ hWq ι (fun S => linearDecoder G (flipped n (codeBit G (seq u)) S) = u)
  unfold decodedProb
  refine Eq.trans ?_ (h.trans (sum_congr rfl fun S _ => by congr))
  congr 1
  ext x
  simp only [Set.mem_ofPred_eq]
  obtain ⟨y, rcv, e1, e2, e3⟩ := hrun x
  have hb := rxBits_binary gray c hc f fs y rcv e2
  obtain ⟨g1, g2, g3⟩ := hdec rcv hb e3
  have hwrong : ∀ i : Fin code.length, (x i ∈ W i ↔ rcv.getD i 0 ≠ code.getD i 0) := by
    intro i
    rw [← hWx x i]
    constructor
    · rintro ⟨y', out, k1, k2, k3⟩
      rw [e1] at k1
      obtain rfl := Option.some.inj k1
      rw [e2] at k2
      obtain rfl := Except.ok.inj k2
      exact k3
    · exact fun k => ⟨y, rcv, e1, e2, k⟩
  have hrn : r < rcv.length / n := by rw [e3, hcl, Nat.mul_div_cancel_left _ hn]; exact hr
  have hblock : (rows n rcv).getD r [] = flipped n (codeBit G (seq u)) (univ.filter fun j => x (ι j) ∈ W (ι j)) := by
    have hwd : Word n ((rows n rcv).getD r []) := rows_word n hb _ (mem_of_getD [] _ (by rw [rows_length]; exact hrn))
    refine ext_getD 0 (by rw [hwd.1, flipped_length]) fun j hj => ?_
    rw [hwd.1] at hj
    rw [rows_getD 0 n rcv r j hrn hj]
    have hf := flipped_getD n (codeBit G (seq u)) (univ.filter fun j => x (ι j) ∈ W (ι j)) ⟨j, hj⟩
    simp only [mem_filter, mem_univ, true_and] at hf
    rw [hf]
    have hw := hwrong (ι ⟨j, hj⟩)
    rw [hw]
    have hι : ((ι ⟨j, hj⟩ : Fin code.length) : ℕ) = r * n + j := rfl
    rw [hι, ← hcu j hj]
    have b1 := hb _ (mem_of_getD 0 rcv (by rw [e3]; exact hpos j hj))
    have b2 := hcb _ (mem_of_getD 0 code (hpos j hj))
    split_ifs with k
    · omega
    · push Not at k
      exact k
  have hout : ∀ i < G.length, ((rows n rcv).map (linDec G)).flatten.getD (r * G.length + i) 0 =
      (linDec G (flipped n (codeBit G (seq u)) (univ.filter fun j => x (ι j) ∈ W (ι j)))).getD i 0 := by
    intro i hi
    rw [← rows_getD 0 G.length _ r i (by rw [g3, Nat.mul_div_cancel _ hk]; exact hr) hi, g2, ← hblock,
      getD_map_lt (linDec G) [] [] _ (by rw [rows_length]; exact hrn)]
  have hfw : Word n (flipped n (codeBit G (seq u)) (univ.filter fun j => x (ι j) ∈ W (ι j))) :=
    flipped_word n _ (fun j _ => codeBit_bit G _ j) _
  rw [linearDecoder_eq hG hk hn _ hfw]
  have hll := (linDec_min hG hk hn _ hfw).1.1
  constructor
  · rintro ⟨y', rcv', out, k1, k2, k3, k4⟩
    rw [e1] at k1
    obtain rfl := Option.some.inj k1
    rw [e2] at k2
    obtain rfl := Except.ok.inj k2
    rw [g1] at k3
    obtain rfl := Except.ok.inj k3
    refine ext_getD 0 (by rw [hll, hul]) fun i hi => ?_
    rw [hll] at hi
    rw [← hout i hi, k4 i hi, hug i hi]
  · intro k
    refine ⟨y, rcv, _, e1, e2, g1, fun i hi => ?_⟩
    rw [hout i hi, k, hug i hi]

theorem near_decoded {n t : ℕ} {G : List (List Int)} (hG : BinaryMatrix n G) (hk : 0 < G.length) (hn : 0 < n)
    (hmin : MinDist n G (2 * t + 1)) (u : List Int) (hu : Word G.length u) (S : Finset (Fin n)) (hS : S.card ≤ t) :
    linearDecoder G (flipped n (codeBit G (seq u)) S) = u := by
  have hc : ∀ j < n, codeBit G (seq u) j = 0 ∨ codeBit G (seq u) j = 1 := fun j _ => codeBit_bit G _ j
  have hfw := flipped_word n _ hc S
  rw [linearDecoder_eq hG hk hn _ hfw]
  obtain ⟨h1, h2⟩ := linDec_min hG hk hn _ hfw
  by_contra hne
  have h3 := hmin _ u h1 hu hne
  have h4 := h2 u hu
  have h5 := dist_flipped n _ hc S
  have h6 := dist_triangle n (codeBit G (seq (linDec G (flipped n (codeBit G (seq u)) S)))) (seq (flipped n (codeBit G (seq u)) S))
    (codeBit G (seq u))
  rw [dist_comm n (seq (flipped n (codeBit G (seq u)) S))] at h6
  omega

theorem sum_card_le (n t : ℕ) (F : ℕ → ℝ) :
    ∑ S : Finset (Fin n), (if S.card ≤ t then F S.card else 0) = ∑ w ∈ range (t + 1), (n.choose w : ℝ) * F w := by
  rw [sum_card n (fun w => if w ≤ t then F w else 0)]
  have h1 : ∀ N : ℕ, t ≤ N → n ≤ N → ∑ w ∈ range (t + 1), (n.choose w : ℝ) * F w
      = ∑ w ∈ range (N + 1), (n.choose w : ℝ) * (if w ≤ t then F w else 0) := by
    intro N h1 _
    rw [← sum_subset (range_subset_range.2 (by omega : t + 1 ≤ N + 1))]
    · refine sum_congr rfl fun w hw => ?_
      rw [if_pos (by rw [mem_range] at hw; omega)]
    · intro w _ hw
      rw [mem_range, not_lt] at hw
      rw [if_neg (by omega), mul_zero]
  rw [h1 (max t n) (le_max_left _ _) (le_max_right _ _)]
  refine sum_subset (range_subset_range.2 (by have := le_max_right t n; omega)) fun w _ hw => ?_
  rw [mem_range, not_lt] at hw
  rw [Nat.choose_eq_zero_of_lt (by omega), Nat.cast_zero, zero_mul]

/-- **C103.** A code whose codewords differ in at least `2t+1` positions: every data word is returned at least with the
probability that at most `t` of the `n` bits are inverted. -/
theorem C103_bound {n t : ℕ} {G : List (List Int)} (hG : BinaryMatrix n G) (hk : 0 < G.length) (hn : 0 < n)
    (hmin : MinDist n G (2 * t + 1)) (p : ℝ) (hp0 : 0 ≤ p) (hp1 : p ≤ 1) (u : List Int) (hu : Word G.length u) :
    ∑ w ∈ range (t + 1), (n.choose w : ℝ) * (p ^ w * (1 - p) ^ (n - w)) ≤ decodedProb n G (linearDecoder G) p u := by
  rw [← sum_card_le n t (fun w => p ^ w * (1 - p) ^ (n - w))]
  unfold decodedProb
  refine sum_le_sum fun S _ => ?_
  split_ifs with h1 h2 h2
  · exact le_rfl
  · exact absurd (near_decoded hG hk hn hmin u hu S h1) h2
  · exact flipProb_nonneg n p hp0 hp1 S
  · exact le_rfl

/-- **C103.** If besides every word lies within `t` of a codeword (a perfect code), the bound is the exact probability, for every
data word. -/
theorem C103_perfect {n t : ℕ} {G : List (List Int)} (hG : BinaryMatrix n G) (hk : 0 < G.length) (hn : 0 < n)
    (hmin : MinDist n G (2 * t + 1)) (hcov : ∀ b, Word n b → codeDist n G b ≤ t) (p : ℝ) (u : List Int) (hu : Word G.length u) :
    decodedProb n G (linearDecoder G) p u = ∑ w ∈ range (t + 1), (n.choose w : ℝ) * (p ^ w * (1 - p) ^ (n - w)) := by
  rw [← sum_card_le n t (fun w => p ^ w * (1 - p) ^ (n - w))]
  unfold decodedProb
  refine sum_congr rfl fun S _ => ?_
  have hc : ∀ j < n, codeBit G (seq u) j = 0 ∨ codeBit G (seq u) j = 1 := fun j _ => codeBit_bit G _ j
  have hfw := flipped_word n _ hc S
  split_ifs with h1 h2 h2
  · rfl
  · have h3 := hcov _ hfw
    rw [codeDist_eq hG hk hn _ hfw, ← linearDecoder_eq hG hk hn _ hfw, h1, dist_flipped n _ hc S] at h3
    exact absurd h3 h2
  · exact absurd (near_decoded hG hk hn hmin u hu S h2) h1
  · rfl

open Classical in
/-- the sum over the data words, for any decoder -/
theorem sum_decoded {n : ℕ} (G : List (List Int)) (dec : List Int → List Int) (p : ℝ) :
    ∑ U : Finset (Fin G.length), decodedProb n G dec p (wordOf G.length U) = ∑ B : Finset (Fin n), ∑ U : Finset (Fin G.length),
      if dec (wordOf n B) = wordOf G.length U then
        p ^ Spec.dist n (codeBit G (seq (wordOf G.length U))) (seq (wordOf n B))
          * (1 - p) ^ (n - Spec.dist n (codeBit G (seq (wordOf G.length U))) (seq (wordOf n B))) else 0 := by
  rw [sum_comm]
  refine sum_congr rfl fun U _ => ?_
  have h := sum_flipped n (codeBit G (seq (wordOf G.length U))) (fun j _ => codeBit_bit G _ j)
    (fun b d => if dec b = wordOf G.length U then p ^ d * (1 - p) ^ (n - d) else 0)
  rw [← h]
  unfold decodedProb flipProb
  exact sum_congr rfl fun S _ => by congr

open Classical in
/-- **C103.** The probability of a correct block, summed over all data words, is the sum of `p^d (1-p)^(n-d)` over all received
words, `d` the distance from the nearest codeword. -/
theorem C103_average {n : ℕ} {G : List (List Int)} (hG : BinaryMatrix n G) (hk : 0 < G.length) (hn : 0 < n) (p : ℝ) :
    ∑ U : Finset (Fin G.length), decodedProb n G (linearDecoder G) p (wordOf G.length U)
      = ∑ B : Finset (Fin n), p ^ codeDist n G (wordOf n B) * (1 - p) ^ (n - codeDist n G (wordOf n B)) := by
  rw [sum_decoded]
  refine sum_congr rfl fun B _ => ?_
  have hb := wordOf_word n B
  obtain ⟨h1, -⟩ := linDec_min hG hk hn _ hb
  obtain ⟨U, hU⟩ := wordOf_surj _ _ h1
  rw [linearDecoder_eq hG hk hn _ hb, sum_eq_single U]
  · rw [if_pos hU.symm, codeDist_eq hG hk hn _ hb, hU]
  · intro V _ hV
    rw [if_neg]
    intro h
    exact hV (wordOf_inj _ _ _ (h.symm.trans hU.symm))
  · intro h
    exact absurd (mem_univ U) h

theorem weight_anti (n : ℕ) (p : ℝ) (hp0 : 0 ≤ p) (hp : p ≤ 1 / 2) (a b : ℕ) (hab : a ≤ b) (hb : b ≤ n) :
    p ^ b * (1 - p) ^ (n - b) ≤ p ^ a * (1 - p) ^ (n - a) := by
  obtain ⟨d, rfl⟩ := Nat.exists_eq_add_of_le hab
  rw [show n - a = d + (n - (a + d)) by omega, pow_add, pow_add]
  have h1 : p ^ d ≤ (1 - p) ^ d := pow_le_pow_left₀ hp0 (by linarith) d
  have h2 : 0 ≤ p ^ a := pow_nonneg hp0 a
  have h3 : 0 ≤ (1 - p) ^ (n - (a + d)) := pow_nonneg (by linarith) _
  nlinarith [mul_le_mul_of_nonneg_left h1 (mul_nonneg h2 h3)]

theorem dist_le_width (n : ℕ) (a b : ℕ → Int) : Spec.dist n a b ≤ n := by
  unfold Spec.dist
  exact (card_filter_le _ _).trans (card_range n).le

open Classical in
/-- **C103.** No decoder does better on average over the data: for `p ≤ 1/2` the library's decoder has the largest sum of the
probabilities of a correct block. -/
theorem C103_optimal {n : ℕ} {G : List (List Int)} (hG : BinaryMatrix n G) (hk : 0 < G.length) (hn : 0 < n) (p : ℝ) (hp0 : 0 ≤ p)
    (hp : p ≤ 1 / 2) (dec : List Int → List Int) :
    ∑ U : Finset (Fin G.length), decodedProb n G dec p (wordOf G.length U)
      ≤ ∑ U : Finset (Fin G.length), decodedProb n G (linearDecoder G) p (wordOf G.length U) := by
  rw [C103_average hG hk hn, sum_decoded]
  refine sum_le_sum fun B _ => ?_
  have hpos : ∀ d : ℕ, 0 ≤ p ^ d * (1 - p) ^ (n - d) := fun d => mul_nonneg (pow_nonneg hp0 _) (pow_nonneg (by linarith) _)
  by_cases hex : ∃ U, dec (wordOf n B) = wordOf G.length U
  · obtain ⟨U, hU⟩ := hex
    rw [sum_eq_single U, if_pos hU]
    · exact weight_anti n p hp0 hp _ _ (Finset.inf'_le _ (mem_univ U)) (dist_le_width n _ _)
    · intro V _ hV
      rw [if_neg]
      intro h
      exact hV (wordOf_inj _ _ _ (h.symm.trans hU))
    · intro h
      exact absurd (mem_univ U) h
  · push Not at hex
    rw [sum_eq_zero fun U _ => if_neg (hex U)]
    exact hpos _

/-- distance from the nearest word with even parity -/
theorem parity_dist (k : ℕ) (hk : 0 < k) (B : Finset (Fin (k + 1))) :
    codeDist (k + 1) (parityG k) (wordOf (k + 1) B) = if Even B.card then 0 else 1 := by
  obtain ⟨b, hb⟩ : ∃ b, b = wordOf (k + 1) B := ⟨_, rfl⟩
  have hw : Word (k + 1) b := hb ▸ wordOf_word _ B
  have hbit : ∀ j < k + 1, seq b j = 0 ∨ seq b j = 1 := fun j hj => hw.2 _ (mem_of_getD 0 b (by rw [hw.1]; exact hj))
  have hsum : ∑ j ∈ range (k + 1), seq b j = B.card := by
    have e : ∀ j : Fin (k + 1), seq b (j : ℕ) = if j ∈ B then 1 else 0 := fun j => by rw [hb]; exact wordOf_getD _ B j
    rw [Finset.sum_range, sum_congr rfl fun j _ => e j]
    simp
  rw [sum_range_succ] at hsum
  have heven : Even B.card ↔ (∑ j ∈ range k, seq b j) % 2 = seq b k := by
    have := hbit k (by omega)
    rw [Nat.even_iff]
    omega
  rw [← hb]
  have hup : ∀ j < k, codeBit (parityG k) (seq (b.take k)) j = seq b j := by
    intro j hj
    rw [parity_codeBit k _ j (by omega), if_neg (by omega)]
    show (b.take k).getD j 0 % 2 = b.getD j 0
    rw [take_getD 0 b k j hj]
    have : b.getD j 0 = 0 ∨ b.getD j 0 = 1 := hbit j (by omega)
    omega
  have hlast : codeBit (parityG k) (seq (b.take k)) k = (∑ j ∈ range k, seq b j) % 2 := by
    have e : ∀ j ∈ range k, seq (b.take k) j = seq b j := fun j hj => take_getD 0 b k j (mem_range.1 hj)
    rw [parity_codeBit k _ k (by omega), if_pos rfl, sum_congr rfl e]
  have htw : Word (parityG k).length (b.take k) := by
    rw [parityG_length]
    exact ⟨by rw [List.length_take, hw.1]; omega, fun x hx => hw.2 x (List.mem_of_mem_take hx)⟩
  obtain ⟨U, hU⟩ := wordOf_surj _ _ htw
  have hle : codeDist (k + 1) (parityG k) b ≤ Spec.dist (k + 1) (codeBit (parityG k) (seq (b.take k))) (seq b) := by
    rw [← hU]
    exact Finset.inf'_le _ (mem_univ U)
  have hsub : (range (k + 1)).filter (fun j => codeBit (parityG k) (seq (b.take k)) j ≠ seq b j) ⊆ {k} := by
    intro j hj
    rw [mem_filter, mem_range] at hj
    rw [mem_singleton]
    by_contra hne
    exact hj.2 (hup j (by omega))
  split_ifs with he
  · refine Nat.le_zero.1 (hle.trans (le_of_eq ?_))
    unfold Spec.dist
    rw [card_eq_zero, filter_eq_empty_iff]
    intro j hj
    rw [mem_range] at hj
    rw [not_not]
    rcases Nat.lt_succ_iff_lt_or_eq.1 hj with h | rfl
    · exact hup j h
    · rw [hlast]
      exact heven.1 he
  · refine le_antisymm (hle.trans ((card_le_card hsub).trans (card_singleton k).le)) (Finset.le_inf' _ _ fun V _ => ?_)
    by_contra hlt
    have h0 : Spec.dist (k + 1) (codeBit (parityG k) (seq (wordOf (parityG k).length V))) (seq b) = 0 := by omega
    unfold Spec.dist at h0
    rw [card_eq_zero, filter_eq_empty_iff] at h0
    have hall : ∀ j < k + 1, codeBit (parityG k) (seq (wordOf (parityG k).length V)) j = seq b j := fun j hj =>
      not_not.1 (h0 (mem_range.2 hj))
    refine he (heven.2 ?_)
    rw [← hall k (by omega), parity_codeBit k _ k (by omega), if_pos rfl]
    have : ∀ j ∈ range k, seq b j = seq (wordOf (parityG k).length V) j % 2 := by
      intro j hj
      rw [mem_range] at hj
      rw [← hall j (by omega), parity_codeBit k _ j (by omega), if_neg (by omega)]
    rw [sum_congr rfl this, ← Finset.sum_int_mod]

/-- **C103.** The code of the project's own tests (data bits and a parity bit) gains nothing: on average over the data, the
probability of a correct block is that of `k` bits sent without code, `(1-p)^k`. -/
theorem C103_parity (k : ℕ) (hk : 0 < k) (p : ℝ) :
    (∑ U : Finset (Fin (parityG k).length), decodedProb (k + 1) (parityG k) (linearDecoder (parityG k)) p (wordOf (parityG k).length U)) / 2 ^ k
      = (1 - p) ^ k := by
  rw [C103_average (parityG_matrix k) (by rw [parityG_length]; exact hk) (by omega)]
  have h1 : ∀ B : Finset (Fin (k + 1)), p ^ codeDist (k + 1) (parityG k) (wordOf (k + 1) B)
      * (1 - p) ^ (k + 1 - codeDist (k + 1) (parityG k) (wordOf (k + 1) B))
      = (1 - p) ^ k / 2 + ((1 - p) ^ (k + 1) - p * (1 - p) ^ k) / 2 * (-1) ^ B.card := by
    intro B
    rw [parity_dist k hk]
    by_cases he : Even B.card
    · rw [if_pos he, he.neg_one_pow]
      simp only [pow_zero, Nat.sub_zero, pow_succ]
      ring
    · rw [if_neg he, (Nat.not_even_iff_odd.1 he).neg_one_pow]
      simp only [Nat.add_sub_cancel, pow_succ]
      ring
  have h2 : ∑ B : Finset (Fin (k + 1)), (-1 : ℝ) ^ B.card = 0 := by
    have := sum_card (k + 1) (fun w => (-1 : ℝ) ^ w)
    rw [this]
    have h3 := add_pow (-1 : ℝ) 1 (k + 1)
    rw [neg_add_cancel, zero_pow (by omega)] at h3
    rw [h3]
    exact sum_congr rfl fun w _ => by rw [one_pow]; ring
  rw [sum_congr rfl fun B _ => h1 B, sum_add_distrib, ← mul_sum, h2, mul_zero, add_zero, sum_const, card_univ, Fintype.card_finset,
    Fintype.card_fin, nsmul_eq_mul, pow_succ]
  push_cast
  field_simp

theorem exG_matrix : BinaryMatrix 7 exG := by
  intro r hr
  simp [exG] at hr
  rcases hr with rfl | rfl | rfl | rfl <;> refine ⟨rfl, ?_⟩ <;> intro x hx <;> simp at hx <;> omega

theorem exG_minDist : MinDist 7 exG (2 * 1 + 1) := by
  have : ∀ u ∈ getBinPerm 4, ∀ v ∈ getBinPerm 4, u ≠ v →
      2 * 1 + 1 ≤ Spec.dist 7 (codeBit exG (seq u)) (codeBit exG (seq v)) := by decide +kernel
  exact fun u v hu hv => this u ((mem_getBinPerm 4 u).2 hu) v ((mem_getBinPerm 4 v).2 hv)

theorem exG_cover (b : List Int) (hb : Word 7 b) : codeDist 7 exG b ≤ 1 := by
  have : ∀ b ∈ getBinPerm 7, ∃ u ∈ getBinPerm 4, Spec.dist 7 (codeBit exG (seq u)) (seq b) ≤ 1 := by decide +kernel
  obtain ⟨u, hu, h⟩ := this b ((mem_getBinPerm 7 b).2 hb)
  obtain ⟨U, hU⟩ := wordOf_surj _ _ ((mem_getBinPerm 4 u).1 hu)
  refine le_trans ?_ h
  rw [← hU]
  exact Finset.inf'_le _ (mem_univ U)

/-- **C103.** The [7,4] Hamming code: every data word is returned with probability `(1-p)^6 (1+6p)`, more than the `(1-p)^4` of
four bits without code for every `0 < p < 1/2`. -/
theorem C103_hamming (p : ℝ) (hp0 : 0 < p) (hp : p < 1 / 2) (u : List Int) (hu : Word 4 u) :
    decodedProb 7 exG (linearDecoder exG) p u = (1 - p) ^ 6 * (1 + 6 * p) ∧
      (1 - p) ^ 4 < decodedProb 7 exG (linearDecoder exG) p u := by
  have h := C103_perfect exG_matrix (by decide) (by decide) exG_minDist exG_cover p u hu
  have e : ∑ w ∈ range (1 + 1), ((7 : ℕ).choose w : ℝ) * (p ^ w * (1 - p) ^ (7 - w)) = (1 - p) ^ 6 * (1 + 6 * p) := by
    rw [sum_range_succ, sum_range_one]
    norm_num
    ring
  rw [h, e]
  refine ⟨rfl, ?_⟩
  have h4 : 0 < (1 - p) ^ 4 := pow_pos (by linarith) 4
  have h5 : 1 < (1 - p) ^ 2 * (1 + 6 * p) := by nlinarith [mul_pos hp0 (mul_pos (by linarith : 0 < 1 - 2 * p) (by linarith : 0 < 4 - 3 * p))]
  nlinarith [mul_lt_mul_of_pos_left h5 h4]

/-- the code of the library on one received block with one error, and with two (returned wrongly) -/
example : linearDecoder exG (flipped 7 (codeBit exG (seq [1, 0, 1, 1])) {2}) = [1, 0, 1, 1] ∧
    linearDecoder exG (flipped 7 (codeBit exG (seq [1, 0, 1, 1])) {2, 5}) = [1, 0, 0, 1] := by decide +kernel

/-- the hypotheses of `C103_link`: five bits in two blocks of the Hamming code, through the NRZ link -/
example (snr : ℝ) : ∃ sym lv, codingLinear [1, 0, 1, 1, 1] exG = .ok [1, 0, 1, 1, 0, 1, 0, 1, 0, 0, 0, 1, 1, 0] ∧
    txSymbols true .nrz ⟨false, false, false, true⟩ [1, 0, 1, 1, 0, 1, 0, 1, 0, 0, 0, 1, 1, 0] = .ok sym ∧
    mapping sym .nrz false none false = .ok lv ∧ (∃ x ∈ lv, x ≠ 0) ∧
    ∃ s t : ℝ, 0 < s ∧ t = (1 - -1) / (2 * s) ∧ (normalDraws 14).real {x | ∃ y rcv out, awgn (List.ofFn x) lv snr = some y ∧
      rxBits true .nrz ⟨false, false, false, true⟩ false y = .ok rcv ∧ decodingLinear rcv exG = .ok out ∧
      ∀ i < 4, out.getD (1 * 4 + i) 0 = ([1, 0, 1, 1, 1] : List Int).getD (1 * 4 + i) 0} = (1 - qFunc t) ^ 6 * (1 + 6 * qFunc t) := by
  have hc : codingLinear [1, 0, 1, 1, 1] exG = .ok [1, 0, 1, 1, 0, 1, 0, 1, 0, 0, 0, 1, 1, 0] := by decide +kernel
  have hs : txSymbols true .nrz ⟨false, false, false, true⟩ [1, 0, 1, 1, 0, 1, 0, 1, 0, 0, 0, 1, 1, 0]
      = .ok [0, 1, 0, 0, 1, 0, 1, 0, 1, 1, 1, 0, 0, 1] := by decide +kernel
  have hl : getLevels .nrz false = [-1, 1] := by simp [getLevels, intLevels]
  have hm : mapping [0, 1, 0, 0, 1, 0, 1, 0, 1, 1, 1, 0, 0, 1] .nrz false none false
      = .ok [-1, 1, -1, -1, 1, -1, 1, -1, 1, 1, 1, -1, -1, 1] := by
    rw [mapping_values .nrz false _ (by decide), hl]
    rfl
  have hnz : ∃ x ∈ ([-1, 1, -1, -1, 1, -1, 1, -1, 1, 1, 1, -1, -1, 1] : List ℝ), x ≠ 0 := ⟨1, by simp, one_ne_zero⟩
  refine ⟨_, _, hc, hs, hm, hnz, ?_⟩
  obtain ⟨s, t, -, h1, h2, -, h3⟩ := C103_link true .nrz (Or.inl rfl) ⟨false, false, false, true⟩ false exG_matrix (by decide) (by decide)
    [1, 0, 1, 1, 1] (by simp [IsBinary]) _ hc (by decide) _ hs _ hm hnz snr
  rw [hl] at h2
  refine ⟨s, t, h1, h2, (h3 1 (by decide)).trans ?_⟩
  have h := C103_perfect exG_matrix (by decide) (by decide) exG_minDist exG_cover (qFunc t) _ (⟨by decide, fun x hx => by
      have e : (List.ofFn fun i : Fin exG.length => ([1, 0, 1, 1, 1] : List Int).getD (1 * exG.length + i) 0) = [1, 0, 0, 0] := by decide +kernel
      rw [e] at hx
      simp at hx
      omega⟩ :
    Word 4 (List.ofFn fun i : Fin exG.length => ([1, 0, 1, 1, 1] : List Int).getD (1 * exG.length + i) 0))
  rw [h, sum_range_succ, sum_range_one]
  norm_num
  ring

end Verif
