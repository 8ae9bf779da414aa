import Verif.Lemmas.CodedRate
import Verif.Props.BlockRate
import Verif.Props.ConvDec
import Verif.Props.Survivor

/-!
# Block errors of the convolutional code over the noisy two-level link (C112)

The data go through `coding_conv`, `bin2symbol`, optionally `coding_gray`, `mapping`, `awgn`, `slicer`, `demapping`, optionally
`decoding_gray`, `symbol2bin` and `decoding_conv_ml` or `decoding_conv_viterbi`.
-/

open Finset MeasureTheory ProbabilityTheory

namespace Verif
open Spec

/-- `decoding_conv_ml` applied to one block of `n` steps -/
def mlBlock (nO n : ℕ) (G : ConvG) (fb : Fb) (b : List Int) : List Int :=
  match decodingConvMl b G (n * nO) (fb.map Prod.fst) (fb.map Prod.snd) with
  | .ok out => out
  | .error _ => []

/-- `decoding_conv_viterbi` applied to one block of `n` steps -/
def vitBlock (nO n : ℕ) (G : ConvG) (fb : Fb) (b : List Int) : List Int :=
  match decodingConvViterbi b G (n * nO) (fb.map Prod.fst) (fb.map Prod.snd) with
  | .ok (out, _) => out
  | .error _ => []

theorem returnedProb_congr (N : ℕ) (dec : List Int → List Int) (p : ℝ) {c c' : ℕ → Int} (h : ∀ j < N, c j = c' j) (u : List Int) :
    returnedProb N dec p c u = returnedProb N dec p c' u := by
  have e : ∀ S, flipped N c S = flipped N c' S := by
    intro S
    unfold flipped
    congr 1
    funext j
    rw [h j j.2]
  unfold returnedProb
  simp only [e]

theorem isCode_bits {nO n : ℕ} {G : ConvG} {fb : Fb} (hpos : 0 < nO) {u : List Int} {c : ℕ → Int} (h : IsCode nO n G fb u c) :
    ∀ j, c j = 0 ∨ c j = 1 := by
  obtain ⟨w, -, h2, h3⟩ := h
  intro j
  rcases Nat.lt_or_ge j (n * nO) with hj | hj
  · have hij : j / nO * nO + j % nO = j := by rw [Nat.mul_comm]; exact Nat.div_add_mod j nO
    rw [← hij, h2 _ _ (Nat.div_lt_of_lt_mul (by rwa [Nat.mul_comm])) (Nat.mod_lt _ hpos)]
    exact Int.emod_two_eq_zero_or_one _
  · exact Or.inl (h3 j hj)

section ml
variable {nO n : ℕ} {G : ConvG} {fb : Fb}

theorem mlBlock_eq (h : GoodCode nO G fb) (hpos : 0 < nO) (hf : Fits nO G fb) (hn : 0 < n) (b : List Int) (hb : Word (n * nO) b) :
    mlBlock nO n G fb b = (tile (getBinPerm (G.length * (n * nO / nOut G))) (trellisStates G).length).getD
      (argmin ((convCodebook G (fb.map Prod.fst) (fb.map Prod.snd) (n * nO)).map (fun c => hammingDist c b))) [] := by
  have htb : 0 < n * nO := Nat.mul_pos hn hpos
  unfold mlBlock
  rw [decodingConvMl_eq h hpos hf hb.2 (n * nO) htb, rows_one _ htb b hb.1]
  unfold mlDecoding
  rw [List.map_singleton, List.flatten_singleton]

theorem ml_blocks (h : GoodCode nO G fb) (hpos : 0 < nO) (hf : Fits nO G fb) (hn : 0 < n) (rcv : List Int) (hr : IsBinary rcv) :
    decodingConvMl rcv G (n * nO) (fb.map Prod.fst) (fb.map Prod.snd) = .ok ((rows (n * nO) rcv).map (mlBlock nO n G fb)).flatten := by
  have htb : 0 < n * nO := Nat.mul_pos hn hpos
  rw [decodingConvMl_eq h hpos hf hr (n * nO) htb]
  unfold mlDecoding
  congr 2
  refine List.map_congr_left fun b hb => ?_
  exact (mlBlock_eq h hpos hf hn b (rows_word _ hr b hb)).symm

theorem mlBlock_min (h : GoodCode nO G fb) (hpos : 0 < nO) (hf : Fits nO G fb) (hn : 0 < n) (b : List Int) (hb : Word (n * nO) b) :
    Word (G.length * n) (mlBlock nO n G fb b) ∧ ∃ c, IsCode nO n G fb (mlBlock nO n G fb b) c ∧
      ∀ v' c', Word (G.length * n) v' → IsCode nO n G fb v' c' → Spec.dist (n * nO) c (seq b) ≤ Spec.dist (n * nO) c' (seq b) := by
  obtain ⟨v, h1, h2, h3⟩ := convMl_pick h hpos hf (n * nO) b hb
  rw [← mlBlock_eq h hpos hf hn b hb] at h2
  rw [h2]
  rw [Nat.mul_div_cancel n hpos] at h1 h3
  exact ⟨h1, h3⟩

end ml

/-- **C112.** The exhaustive decoder: a block of `n` encoder steps is lost at most with the sum, over all words that the encoder
writes for other data from any register contents, of `(2√(p(1-p)))^d`, `d` the number of positions in which the word differs from
the one sent. -/
theorem C112_ml_union {nO n : ℕ} {G : ConvG} {fb : Fb} (h : GoodCode nO G fb) (hpos : 0 < nO) (hf : Fits nO G fb) (hn : 0 < n)
    (p : ℝ) (hp0 : 0 ≤ p) (hp1 : p ≤ 1 / 2) (u : List Int) (hu : Word (G.length * n) u) (c : ℕ → Int) (hc : IsCode nO n G fb u c) :
    1 - ∑ B ∈ rivals nO n G fb u, (2 * √(p * (1 - p))) ^ Spec.dist (n * nO) c (seq (wordOf (n * nO) B))
      ≤ returnedProb (n * nO) (mlBlock nO n G fb) p c u := by
  classical
  have hcb := isCode_bits hpos hc
  refine union_bound (n * nO) p hp0 hp1 c (fun j _ => hcb j) (mlBlock nO n G fb) u (rivals nO n G fb u)
    (fun B => seq (wordOf (n * nO) B)) (fun B _ j _ => binary_getD (wordOf_word (n * nO) B).2 j) fun S hS => ?_
  have hfw := flipped_word (n * nO) c (fun j _ => hcb j) S
  obtain ⟨h1, c', h2, h3⟩ := mlBlock_min h hpos hf hn _ hfw
  have hcb' := isCode_bits hpos h2
  obtain ⟨B, hB⟩ := wordOf_surj (n * nO) (List.ofFn fun j : Fin (n * nO) => c' j) ⟨by simp, fun x hx => by
    rw [List.mem_ofFn] at hx
    obtain ⟨j, rfl⟩ := hx
    exact hcb' j⟩
  have hBc : ∀ j < n * nO, c' j = seq (wordOf (n * nO) B) j := by
    intro j hj
    unfold seq
    rw [hB, List.getD_eq_getElem _ 0 (by simpa using hj), List.getElem_ofFn]
  refine ⟨B, ?_, ?_⟩
  · unfold rivals
    rw [mem_filter]
    exact ⟨mem_univ _, _, c', h1, hS, h2, hBc⟩
  · rw [← dist_congr (n * nO) hBc (fun _ _ => rfl)]
    exact h3 u c hu hc

/-- **C112.** If words of different data differ in at least `2t+1` positions whatever the register contents, the exhaustive decoder
returns every block at least with the probability that at most `t` of its bits are inverted. -/
theorem C112_ml_ball {nO n t : ℕ} {G : ConvG} {fb : Fb} (h : GoodCode nO G fb) (hpos : 0 < nO) (hf : Fits nO G fb) (hn : 0 < n)
    (hdist : ∀ v v' c c', Word (G.length * n) v → Word (G.length * n) v' → IsCode nO n G fb v c → IsCode nO n G fb v' c' → v ≠ v' →
      2 * t + 1 ≤ Spec.dist (n * nO) c c')
    (p : ℝ) (hp0 : 0 ≤ p) (hp1 : p ≤ 1) (u : List Int) (hu : Word (G.length * n) u) (c : ℕ → Int) (hc : IsCode nO n G fb u c) :
    ∑ w ∈ range (t + 1), ((n * nO).choose w : ℝ) * (p ^ w * (1 - p) ^ (n * nO - w))
      ≤ returnedProb (n * nO) (mlBlock nO n G fb) p c u := by
  have hcb := isCode_bits hpos hc
  rw [← sum_card_le (n * nO) t (fun w => p ^ w * (1 - p) ^ (n * nO - w))]
  refine ball_bound (n * nO) t p hp0 hp1 c _ u fun S hS => ?_
  have hfw := flipped_word (n * nO) c (fun j _ => hcb j) S
  obtain ⟨h1, c', h2, h3⟩ := mlBlock_min h hpos hf hn _ hfw
  by_contra hne
  have h4 := hdist _ u c' c h1 hu h2 hc hne
  have h5 := h3 u c hu hc
  have h6 := dist_flipped (n * nO) c (fun j _ => hcb j) S
  have h7 := dist_triangle (n * nO) c' (seq (flipped (n * nO) c S)) c
  rw [dist_comm (n * nO) (seq (flipped (n * nO) c S))] at h7
  omega

section vit
variable {nO n : ℕ} {G : ConvG} {fb : Fb}

theorem vit_one (h : GoodCode nO G fb) (hpos : 0 < nO) (hf : Fits nO G fb) (hm : HasMemory nO G) (hid : Identified nO G fb)
    (hn : 0 < n) (b : List Int) (hb : Word (n * nO) b) :
    Word (G.length * n) (vitBlock nO n G fb b) ∧ (∃ w, IsSurvivor nO n G fb (seq b) (vitBlock nO n G fb b) w) ∧
      ∃ last, viterbiBlock G (fb.map Prod.fst) (fb.map Prod.snd) b = .ok (vitBlock nO n G fb b, last) := by
  have htb : 0 < n * nO := Nat.mul_pos hn hpos
  obtain ⟨v, w, last, p, -, h2, h3, h4, -⟩ := block_survivors h hpos hf hm hid hn b hb.2
    (by rw [hb.1, Nat.mul_div_cancel n hpos]) (seq b) (fun _ _ => rfl)
  have e : vitBlock nO n G fb b = v := by
    unfold vitBlock
    rw [decodingConvViterbi_eq h hpos hf hb.2 (n * nO) htb [(v, last)] (by
      rw [rows_one _ htb b hb.1]
      exact mapM_okP _ (fun _ => (v, last)) [b] (fun a ha => by rw [List.mem_singleton.1 ha]; exact h2)) (v, last) rfl]
    simp
  rw [e]
  exact ⟨h3, ⟨w, h4⟩, last, h2⟩

theorem vit_blocks (h : GoodCode nO G fb) (hpos : 0 < nO) (hf : Fits nO G fb) (hm : HasMemory nO G) (hid : Identified nO G fb)
    (hn : 0 < n) (rcv : List Int) (hr : IsBinary rcv) (hl : n * nO ≤ rcv.length) :
    ∃ last, decodingConvViterbi rcv G (n * nO) (fb.map Prod.fst) (fb.map Prod.snd)
      = .ok (((rows (n * nO) rcv).map (vitBlock nO n G fb)).flatten, last) := by
  have htb : 0 < n * nO := Nat.mul_pos hn hpos
  have hw := rows_word (n * nO) hr
  have hex : ∀ b, ∃ last, b ∈ rows (n * nO) rcv → viterbiBlock G (fb.map Prod.fst) (fb.map Prod.snd) b = .ok (vitBlock nO n G fb b, last) := by
    intro b
    by_cases hb : b ∈ rows (n * nO) rcv
    · obtain ⟨-, -, last, e⟩ := vit_one h hpos hf hm hid hn b (hw b hb)
      exact ⟨last, fun _ => e⟩
    · exact ⟨0, fun hb' => absurd hb' hb⟩
  choose last hlast using hex
  have hm' := mapM_okP (viterbiBlock G (fb.map Prod.fst) (fb.map Prod.snd)) (fun b => (vitBlock nO n G fb b, last b)) (rows (n * nO) rcv)
    (fun b hb => hlast b hb)
  have hne : (rows (n * nO) rcv).map (fun b => (vitBlock nO n G fb b, last b)) ≠ [] := by
    intro e
    have := congrArg List.length e
    rw [List.length_map, rows_length, List.length_nil] at this
    have := Nat.div_pos hl htb
    omega
  refine ⟨(((rows (n * nO) rcv).map (fun b => (vitBlock nO n G fb b, last b))).getLast hne).2, ?_⟩
  rw [decodingConvViterbi_eq h hpos hf hr (n * nO) htb _ hm' _ (List.getLast?_eq_some_getLast hne), List.map_map]
  rfl

end vit

/-- **C112.** The Viterbi decoder of the library selects paths by the last transition alone. If transitions into the same register
contents differ in at least `2E+1` bits, and so do two runs that stay apart, it returns every block at least with the probability
that at most `E` of its bits are inverted. Partial: the condition on the transitions is not met by usual codes, see
`C112_negative_viterbi`. -/
theorem C112_viterbi_ball_partial {nO n E : ℕ} {G : ConvG} {fb : Fb} (h : GoodCode nO G fb) (hpos : 0 < nO) (hf : Fits nO G fb)
    (hm : HasMemory nO G) (hid : Identified nO G fb) (hn : 0 < n)
    (hmerge : MergeDist nO G fb (2 * E + 1)) (hdiv : DivergeDist nO G fb 1 (2 * E + 1)) (hapart : ApartDist nO G fb n (2 * E + 1))
    (p : ℝ) (hp0 : 0 ≤ p) (hp1 : p ≤ 1) (u : List Int) (hu : Word (G.length * n) u) (c : ℕ → Int) (hc : IsCode nO n G fb u c) :
    ∑ w ∈ range (E + 1), ((n * nO).choose w : ℝ) * (p ^ w * (1 - p) ^ (n * nO - w))
      ≤ returnedProb (n * nO) (vitBlock nO n G fb) p c u := by
  have htb : 0 < n * nO := Nat.mul_pos hn hpos
  have hcb := isCode_bits hpos hc
  rw [← sum_card_le (n * nO) E (fun w => p ^ w * (1 - p) ^ (n * nO - w))]
  refine ball_bound (n * nO) E p hp0 hp1 c _ u fun S hS => ?_
  have hfw := flipped_word (n * nO) c (fun j _ => hcb j) S
  obtain ⟨w, hw, hbit, -⟩ := hc
  set b := flipped (n * nO) c S with hb
  have hone : b.length / (n * nO) = 1 := by rw [hfw.1, Nat.div_self htb]
  have hdivn : n * nO / nO = n := Nat.mul_div_cancel n hpos
  have hrun : runDist nO n G fb u w (block b (n * nO) 0) ≤ E := by
    have h1 := dist_flipped (n * nO) c (fun j _ => hcb j) S
    rw [dist_blocks n nO] at h1
    refine le_trans (le_of_eq ?_) hS
    rw [← h1]
    unfold runDist stepDist
    refine Finset.sum_congr rfl (fun t ht => ?_)
    rw [Finset.mem_range] at ht
    apply dist_congr
    · intro j hj
      exact (hbit t j ht hj).symm
    · intro j _
      unfold block seq
      rw [Nat.zero_mul, Nat.zero_add]
  have hstep : ∀ t : ℕ, t < n → stepDist nO G fb u w t (block b (n * nO) 0) t ≤ runDist nO n G fb u w (block b (n * nO) 0) := by
    intro t ht
    unfold runDist
    exact Finset.single_le_sum (f := fun t => stepDist nO G fb u w t (block b (n * nO) 0) t) (fun _ _ => Nat.zero_le _)
      (Finset.mem_range.2 ht)
  obtain ⟨last, -, h2, -⟩ := C97_corrects_partial (tb := n * nO) h hpos hf hm hid (Nat.le_mul_of_pos_left nO hn) b hfw.2
    (by rw [hfw.1]) (fun _ => u) (fun _ => w) (by
      rw [hdivn, hone]
      intro q hq
      obtain rfl : q = 0 := by omega
      refine ⟨hu, hw, fun t ht => ?_, fun k hk => ?_, ?_⟩
      · intro u u' x x' a b c d e f
        have := hmerge u u' x x' a b c d e f
        have := hstep t ht
        omega
      · refine divergeDist_mono ?_ (divergeDist_of_one (by omega) hdiv)
        have := sum_stepDist_le (nO := nO) (n := n) (G := G) (fb := fb) (v := u) (w := w) (r := block b (n * nO) 0) k
        omega
      · intro x x' y y' a b c d e
        have := hapart x x' y y' a b c d e
        omega)
  unfold vitBlock
  rw [h2, hone]
  simp

/-! ## the link -/

/-- a decoder that works block by block, behind the link -/
theorem block_link (gray : Bool) (c : Constellation) (hc : c = .nrz ∨ c = .ook) (f : SymFlags) (fs : Bool) (code : List Int)
    (hcb : IsBinary code) (h2 : 2 ≤ code.length) (sym : List Int) (hsym : txSymbols gray c f code = .ok sym)
    (lv : List ℝ) (hlv : mapping sym c fs none false = .ok lv) (hnz : ∃ x ∈ lv, x ≠ 0) (snr : ℝ) (tb K : ℕ) (htb : 0 < tb) (hK : 0 < K)
    (dec : List Int → List Int) (hdec : ∀ b, Word tb b → (dec b).length = K) (decode : List Int → Py (List Int))
    (hdecode : ∀ rcv, IsBinary rcv → rcv.length = code.length → decode rcv = .ok ((rows tb rcv).map dec).flatten) :
    ∃ s t, awgnStd lv snr = some s ∧ 0 < s ∧ t = ((getLevels c fs).getD 1 0 - (getLevels c fs).getD 0 0) / (2 * s) ∧
      (∀ x : Fin code.length → ℝ, ∃ y rcv out, awgn (List.ofFn x) lv snr = some y ∧ rxBits gray c f fs y = .ok rcv ∧
        decode rcv = .ok out ∧ out.length = code.length / tb * K) ∧
      ∀ r < code.length / tb, ∀ u : List Int, u.length = K →
        (normalDraws code.length).real {x | ∃ y rcv out, awgn (List.ofFn x) lv snr = some y ∧ rxBits gray c f fs y = .ok rcv ∧
            decode rcv = .ok out ∧ ∀ i < K, out.getD (r * K + i) 0 = u.getD i 0}
          = returnedProb tb dec (qFunc t) (block code tb r) u := by
  classical
  obtain ⟨s, t, h4, hs0, ht, hrun, W, hWm, hWq, hWx⟩ := two_regions gray c hc f fs code hcb h2 sym hsym lv hlv hnz snr
  have hd : ∀ rcv : List Int, IsBinary rcv → rcv.length = code.length →
      rows K ((rows tb rcv).map dec).flatten = (rows tb rcv).map dec ∧
      ((rows tb rcv).map dec).flatten.length = code.length / tb * K := by
    intro rcv hb hl
    have hlen : ∀ l ∈ (rows tb rcv).map dec, l.length = K := by
      intro l hl
      rw [List.mem_map] at hl
      obtain ⟨b, hb', rfl⟩ := hl
      exact hdec b (rows_word tb hb b hb')
    refine ⟨rows_flatten _ hK _ hlen, ?_⟩
    rw [flatten_uniform_length _ _ hlen, List.length_map, rows_length, hl]
  refine ⟨s, t, h4, hs0, ht, fun x => ?_, fun r hr u hu => ?_⟩
  · obtain ⟨y, rcv, e1, e2, e3⟩ := hrun x
    have hb := rxBits_binary gray c hc f fs y rcv e2
    exact ⟨y, rcv, _, e1, e2, hdecode rcv hb e3, (hd rcv hb e3).2⟩
  have hpos : ∀ j < tb, r * tb + j < code.length := by
    intro j hj
    have h5 : (r + 1) * tb ≤ code.length := (Nat.le_div_iff_mul_le htb).1 hr
    rw [Nat.succ_mul] at h5
    omega
  let ι : Fin tb ↪ Fin code.length := ⟨fun j => ⟨r * tb + j, hpos j j.2⟩, fun a b h => by
    have := congrArg Fin.val h
    simp only at this
    exact Fin.ext (by omega)⟩
  have h := part_law W hWm _ hWq ι (fun S => dec (flipped tb (block code tb r) S) = u)
  unfold returnedProb
  refine Eq.trans ?_ (h.trans (sum_congr rfl fun S _ => by congr))
  congr 1
  ext x
  simp only [Set.mem_ofPred_eq]
  obtain ⟨y, rcv, e1, e2, e3⟩ := hrun x
  have hb := rxBits_binary gray c hc f fs y rcv e2
  have g1 := hdecode rcv hb e3
  obtain ⟨g2, g3⟩ := hd rcv hb e3
  have hwrong : ∀ i : Fin code.length, (x i ∈ W i ↔ rcv.getD i 0 ≠ code.getD i 0) := by
    intro i
    rw [← hWx x i]
    constructor
    · rintro ⟨y', out, k1, k2, k3⟩
      rw [e1] at k1
      obtain rfl := Option.some.inj k1
      rw [e2] at k2
      obtain rfl := Except.ok.inj k2
      exact k3
    · exact fun k => ⟨y, rcv, e1, e2, k⟩
  have hrn : r < rcv.length / tb := by rw [e3]; exact hr
  have hblock : (rows tb rcv).getD r [] = flipped tb (block code tb r) (univ.filter fun j => x (ι j) ∈ W (ι j)) := by
    have hwd : Word tb ((rows tb rcv).getD r []) := rows_word tb hb _ (mem_of_getD [] _ (by rw [rows_length]; exact hrn))
    refine ext_getD 0 (by rw [hwd.1, flipped_length]) fun j hj => ?_
    rw [hwd.1] at hj
    rw [rows_getD 0 tb rcv r j hrn hj]
    have hf := flipped_getD tb (block code tb r) (univ.filter fun j => x (ι j) ∈ W (ι j)) ⟨j, hj⟩
    simp only [mem_filter, mem_univ, true_and] at hf
    rw [hf]
    have hw := hwrong (ι ⟨j, hj⟩)
    rw [hw]
    have hι : ((ι ⟨j, hj⟩ : Fin code.length) : ℕ) = r * tb + j := rfl
    rw [hι]
    have b1 := hb _ (mem_of_getD 0 rcv (by rw [e3]; exact hpos j hj))
    have b2 := hcb _ (mem_of_getD 0 code (hpos j hj))
    have hbk : block code tb r ((⟨j, hj⟩ : Fin tb) : ℕ) = code.getD (r * tb + j) 0 := rfl
    rw [hbk]
    split_ifs with k
    · omega
    · push Not at k
      exact k
  have hout : ∀ i < K, ((rows tb rcv).map dec).flatten.getD (r * K + i) 0 =
      (dec (flipped tb (block code tb r) (univ.filter fun j => x (ι j) ∈ W (ι j)))).getD i 0 := by
    intro i hi
    rw [← rows_getD 0 K _ r i (by rw [g3, Nat.mul_div_cancel _ hK]; exact hr) hi, g2, ← hblock,
      getD_map_lt dec [] [] _ (by rw [rows_length]; exact hrn)]
  have hll : (dec (flipped tb (block code tb r) (univ.filter fun j => x (ι j) ∈ W (ι j)))).length = K :=
    hdec _ (flipped_word tb _ (fun j _ => binary_getD hcb _) _)
  constructor
  · rintro ⟨y', rcv', out, k1, k2, k3, k4⟩
    rw [e1] at k1
    obtain rfl := Option.some.inj k1
    rw [e2] at k2
    obtain rfl := Except.ok.inj k2
    rw [g1] at k3
    obtain rfl := Except.ok.inj k3
    refine ext_getD 0 (by rw [hll, hu]) fun i hi => ?_
    rw [hll] at hi
    rw [← hout i hi, k4 i hi]
  · intro k
    refine ⟨y, rcv, _, e1, e2, g1, fun i hi => ?_⟩
    rw [hout i hi, k]

/-- block `r` of the coded stream -/
theorem coded_block {nO n : ℕ} {G : ConvG} {fb : Fb} (h : GoodCode nO G fb) (hd : DirectLong nO G fb) (hpos : 0 < nO)
    (hf : Fits nO G fb) (hn : 0 < n) (data : List Int) (hdat : IsBinary data) (code : List Int)
    (hcode : codingConv id data G (fb.map Prod.fst) (fb.map Prod.snd) = .ok code) :
    IsBinary code ∧ code.length / (n * nO) = (data.length + G.length - 1) / G.length / n ∧
      ∀ r < (data.length + G.length - 1) / G.length / n, ∃ u c, Word (G.length * n) u ∧ IsCode nO n G fb u c ∧
        (∀ i < G.length * n, u.getD i 0 = data.getD (r * (G.length * n) + i) 0) ∧ ∀ j < n * nO, c j = block code (n * nO) r j := by
  have hG : 0 < G.length := List.length_pos_of_ne_nil h.1.1
  obtain ⟨c1, e1, e2, e3, e4⟩ := stream_block (n := n) h hd hpos hf hn data hdat
  rw [hcode] at e1
  obtain rfl := Except.ok.inj e1
  have hnb : code.length / (n * nO) = (data.length + G.length - 1) / G.length / n := by
    rw [e2, Nat.mul_div_mul_right _ _ hpos]; rfl
  refine ⟨e3, hnb, fun r hr => ?_⟩
  obtain ⟨s, hs, hvw, hblk⟩ := e4 r hr
  refine ⟨_, _, hvw, (cw_isCode (n := n) h hpos hf 0 s _ hs hvw).1, fun i hi => ?_, fun j hj => ?_⟩
  · rw [rows_getD 0 _ _ r _ (by rw [padTo_length _ hG, Nat.mul_comm, Nat.mul_div_mul_left _ _ hG]; exact hr) hi, padTo_getD]
  · unfold cw seq
    rw [List.replicate_zero, List.append_nil, ← hblk]
    exact rows_getD 0 _ _ r j (by rw [hnb]; exact hr) hj

/-- **C112.** The coded link with the exhaustive decoder. Complete blocks of `n` encoder steps are returned with the probability that
the decoder returns them when every code bit is inverted independently with probability `q = Q(d/2σ)`, and a block is lost at most
with the sum of `(2√(q(1-q)))^d` over the words of other data; no step raises. -/
theorem C112_ml_link (gray : Bool) (c : Constellation) (hc : c = .nrz ∨ c = .ook) (f : SymFlags) (fs : Bool) {nO n : ℕ} {G : ConvG} {fb : Fb}
    (h : GoodCode nO G fb) (hd : DirectLong nO G fb) (hpos : 0 < nO) (hf : Fits nO G fb) (hn : 0 < n) (data : List Int)
    (hdat : IsBinary data) (code : List Int) (hcode : codingConv id data G (fb.map Prod.fst) (fb.map Prod.snd) = .ok code)
    (h2 : 2 ≤ code.length) (sym : List Int) (hsym : txSymbols gray c f code = .ok sym)
    (lv : List ℝ) (hlv : mapping sym c fs none false = .ok lv) (hnz : ∃ x ∈ lv, x ≠ 0) (snr : ℝ) :
    ∃ s t, awgnStd lv snr = some s ∧ 0 < s ∧ t = ((getLevels c fs).getD 1 0 - (getLevels c fs).getD 0 0) / (2 * s) ∧
      (∀ x : Fin code.length → ℝ, ∃ y rcv out, awgn (List.ofFn x) lv snr = some y ∧ rxBits gray c f fs y = .ok rcv ∧
        decodingConvMl rcv G (n * nO) (fb.map Prod.fst) (fb.map Prod.snd) = .ok out ∧
        out.length = (data.length + G.length - 1) / G.length / n * (G.length * n)) ∧
      ∀ r < (data.length + G.length - 1) / G.length / n, ∃ u w, Word (G.length * n) u ∧ IsCode nO n G fb u w ∧
        (∀ i < G.length * n, u.getD i 0 = data.getD (r * (G.length * n) + i) 0) ∧
        (normalDraws code.length).real {x | ∃ y rcv out, awgn (List.ofFn x) lv snr = some y ∧ rxBits gray c f fs y = .ok rcv ∧
            decodingConvMl rcv G (n * nO) (fb.map Prod.fst) (fb.map Prod.snd) = .ok out ∧
            ∀ i < G.length * n, out.getD (r * (G.length * n) + i) 0 = data.getD (r * (G.length * n) + i) 0}
          = returnedProb (n * nO) (mlBlock nO n G fb) (qFunc t) w u ∧
        1 - ∑ B ∈ rivals nO n G fb u, (2 * √(qFunc t * (1 - qFunc t))) ^ Spec.dist (n * nO) w (seq (wordOf (n * nO) B))
          ≤ returnedProb (n * nO) (mlBlock nO n G fb) (qFunc t) w u := by
  have hG : 0 < G.length := List.length_pos_of_ne_nil h.1.1
  obtain ⟨hcb, hnb, hblk⟩ := coded_block (n := n) h hd hpos hf hn data hdat code hcode
  obtain ⟨s, t, h4, hs0, ht, hrun, hlink⟩ := block_link gray c hc f fs code hcb h2 sym hsym lv hlv hnz snr (n * nO) (G.length * n)
    (Nat.mul_pos hn hpos) (Nat.mul_pos hG hn) (mlBlock nO n G fb) (fun b hb => (mlBlock_min h hpos hf hn b hb).1.1)
    (fun rcv => decodingConvMl rcv G (n * nO) (fb.map Prod.fst) (fb.map Prod.snd)) (fun rcv hb _ => ml_blocks h hpos hf hn rcv hb)
  rw [hnb] at hrun hlink
  have ht0 : 0 < t := by
    rw [ht]
    refine div_pos ?_ (by linarith)
    rcases hc with rfl | rfl <;> cases fs <;> norm_num [getLevels, intLevels]
  refine ⟨s, t, h4, hs0, ht, hrun, fun r hr => ?_⟩
  obtain ⟨u, w, hu, hw, hud, hwb⟩ := hblk r hr
  refine ⟨u, w, hu, hw, hud, ?_, C112_ml_union h hpos hf hn (qFunc t) (qFunc_pos t).le (qFunc_lt_half ht0).le u hu w hw⟩
  rw [returnedProb_congr _ _ _ hwb, ← hlink r hr u hu.1]
  congr 1
  ext x
  simp only [Set.mem_ofPred_eq]
  constructor
  · rintro ⟨y, rcv, out, k1, k2, k3, k4⟩
    exact ⟨y, rcv, out, k1, k2, k3, fun i hi => by rw [k4 i hi, hud i hi]⟩
  · rintro ⟨y, rcv, out, k1, k2, k3, k4⟩
    exact ⟨y, rcv, out, k1, k2, k3, fun i hi => by rw [k4 i hi, hud i hi]⟩

/-- **C112.** The coded link with the Viterbi decoder, which also returns the last state. Partial: codes whose transitions are
identified by output and end state. -/
theorem C112_viterbi_link_partial (gray : Bool) (c : Constellation) (hc : c = .nrz ∨ c = .ook) (f : SymFlags) (fs : Bool) {nO n : ℕ}
    {G : ConvG} {fb : Fb} (h : GoodCode nO G fb) (hd : DirectLong nO G fb) (hpos : 0 < nO) (hf : Fits nO G fb) (hm : HasMemory nO G)
    (hid : Identified nO G fb) (hn : 0 < n) (data : List Int) (hl : n ≤ (data.length + G.length - 1) / G.length)
    (hdat : IsBinary data) (code : List Int) (hcode : codingConv id data G (fb.map Prod.fst) (fb.map Prod.snd) = .ok code)
    (h2 : 2 ≤ code.length) (sym : List Int) (hsym : txSymbols gray c f code = .ok sym)
    (lv : List ℝ) (hlv : mapping sym c fs none false = .ok lv) (hnz : ∃ x ∈ lv, x ≠ 0) (snr : ℝ) :
    ∃ s t, awgnStd lv snr = some s ∧ 0 < s ∧ t = ((getLevels c fs).getD 1 0 - (getLevels c fs).getD 0 0) / (2 * s) ∧
      (∀ x : Fin code.length → ℝ, ∃ y rcv out last, awgn (List.ofFn x) lv snr = some y ∧ rxBits gray c f fs y = .ok rcv ∧
        decodingConvViterbi rcv G (n * nO) (fb.map Prod.fst) (fb.map Prod.snd) = .ok (out, last) ∧
        out.length = (data.length + G.length - 1) / G.length / n * (G.length * n)) ∧
      ∀ r < (data.length + G.length - 1) / G.length / n, ∃ u w, Word (G.length * n) u ∧ IsCode nO n G fb u w ∧
        (∀ i < G.length * n, u.getD i 0 = data.getD (r * (G.length * n) + i) 0) ∧
        (normalDraws code.length).real {x | ∃ y rcv out last, awgn (List.ofFn x) lv snr = some y ∧ rxBits gray c f fs y = .ok rcv ∧
            decodingConvViterbi rcv G (n * nO) (fb.map Prod.fst) (fb.map Prod.snd) = .ok (out, last) ∧
            ∀ i < G.length * n, out.getD (r * (G.length * n) + i) 0 = data.getD (r * (G.length * n) + i) 0}
          = returnedProb (n * nO) (vitBlock nO n G fb) (qFunc t) w u := by
  have hG : 0 < G.length := List.length_pos_of_ne_nil h.1.1
  have htb : 0 < n * nO := Nat.mul_pos hn hpos
  obtain ⟨hcb, hnb, hblk⟩ := coded_block (n := n) h hd hpos hf hn data hdat code hcode
  have hlen : n * nO ≤ code.length := by
    have : 1 ≤ code.length / (n * nO) := by rw [hnb]; exact Nat.div_pos hl hn
    have := (Nat.le_div_iff_mul_le htb).1 this
    omega
  have hiff : ∀ rcv out, ((decodingConvViterbi rcv G (n * nO) (fb.map Prod.fst) (fb.map Prod.snd)).map Prod.fst = .ok out) ↔
      ∃ last, decodingConvViterbi rcv G (n * nO) (fb.map Prod.fst) (fb.map Prod.snd) = .ok (out, last) := by
    intro rcv out
    cases decodingConvViterbi rcv G (n * nO) (fb.map Prod.fst) (fb.map Prod.snd) with
    | error e => simp [Except.map]
    | ok x =>
      obtain ⟨a, b⟩ := x
      simp [Except.map]
  obtain ⟨s, t, h4, hs0, ht, hrun, hlink⟩ := block_link gray c hc f fs code hcb h2 sym hsym lv hlv hnz snr (n * nO) (G.length * n)
    htb (Nat.mul_pos hG hn) (vitBlock nO n G fb) (fun b hb => (vit_one h hpos hf hm hid hn b hb).1.1)
    (fun rcv => (decodingConvViterbi rcv G (n * nO) (fb.map Prod.fst) (fb.map Prod.snd)).map Prod.fst) (fun rcv hb hl' =>
      (hiff _ _).2 (vit_blocks h hpos hf hm hid hn rcv hb (by omega)))
  rw [hnb] at hrun hlink
  refine ⟨s, t, h4, hs0, ht, fun x => ?_, fun r hr => ?_⟩
  · obtain ⟨y, rcv, out, k1, k2, k3, k4⟩ := hrun x
    obtain ⟨last, k5⟩ := (hiff _ _).1 k3
    exact ⟨y, rcv, out, last, k1, k2, k5, k4⟩
  obtain ⟨u, w, hu, hw, hud, hwb⟩ := hblk r hr
  refine ⟨u, w, hu, hw, hud, ?_⟩
  rw [returnedProb_congr _ _ _ hwb, ← hlink r hr u hu.1]
  congr 1
  ext x
  simp only [Set.mem_ofPred_eq]
  constructor
  · rintro ⟨y, rcv, out, last, k1, k2, k3, k4⟩
    exact ⟨y, rcv, out, k1, k2, (hiff _ _).2 ⟨last, k3⟩, fun i hi => by rw [k4 i hi, hud i hi]⟩
  · rintro ⟨y, rcv, out, k1, k2, k3, k4⟩
    obtain ⟨last, k5⟩ := (hiff _ _).1 k3
    exact ⟨y, rcv, out, last, k1, k2, k5, fun i hi => by rw [k4 i hi, hud i hi]⟩

/-! ## the linear code -/

theorem codeBit_diff {n : ℕ} (G : List (List Int)) (U V : Finset (Fin G.length)) :
    Spec.dist n (codeBit G (seq (wordOf G.length U))) (codeBit G (seq (wordOf G.length V)))
      = Spec.dist n (codeBit G (seq (wordOf G.length (symmDiff U V)))) (fun _ => 0) := by
  unfold Spec.dist
  congr 1
  refine filter_congr fun j _ => ?_
  have hsum : ∃ z : Int, (∑ i ∈ range G.length, seq (wordOf G.length (symmDiff U V)) i * (G.getD i []).getD j 0)
      = (∑ i ∈ range G.length, seq (wordOf G.length U) i * (G.getD i []).getD j 0)
        + (∑ i ∈ range G.length, seq (wordOf G.length V) i * (G.getD i []).getD j 0) - 2 * z := by
    refine ⟨∑ i ∈ range G.length, (seq (wordOf G.length U) i * seq (wordOf G.length V) i) * (G.getD i []).getD j 0, ?_⟩
    rw [mul_sum, ← sum_add_distrib, ← sum_sub_distrib]
    refine sum_congr rfl fun i hi => ?_
    rw [mem_range] at hi
    have h1 := wordOf_getD G.length U ⟨i, hi⟩
    have h2 := wordOf_getD G.length V ⟨i, hi⟩
    have h3 := wordOf_getD G.length (symmDiff U V) ⟨i, hi⟩
    unfold seq
    simp only at h1 h2 h3
    rw [h1, h2, h3]
    by_cases hU : (⟨i, hi⟩ : Fin G.length) ∈ U <;> by_cases hV : (⟨i, hi⟩ : Fin G.length) ∈ V <;>
      simp [mem_symmDiff, hU, hV]
    ring
  obtain ⟨z, hz⟩ := hsum
  unfold codeBit
  rw [hz]
  dsimp only
  omega

/-- **C112.** The block code of C103: whatever the data word, it is lost at most with the sum of `(2√(p(1-p)))^w` over the weights
`w` of the codewords of all nonzero data words. -/
theorem C112_linear_union {n : ℕ} {G : List (List Int)} (hG : BinaryMatrix n G) (hk : 0 < G.length) (hn : 0 < n) (p : ℝ) (hp0 : 0 ≤ p)
    (hp1 : p ≤ 1 / 2) (u : List Int) (hu : Word G.length u) :
    1 - ∑ V ∈ univ.erase (∅ : Finset (Fin G.length)),
        (2 * √(p * (1 - p))) ^ Spec.dist n (codeBit G (seq (wordOf G.length V))) (fun _ => 0)
      ≤ decodedProb n G (linearDecoder G) p u := by
  classical
  obtain ⟨U, rfl⟩ := wordOf_surj G.length u hu
  have hc : ∀ (V : Finset (Fin G.length)), ∀ j < n, codeBit G (seq (wordOf G.length V)) j = 0 ∨ codeBit G (seq (wordOf G.length V)) j = 1 :=
    fun V j _ => codeBit_bit G _ j
  have hb := union_bound n p hp0 hp1 (codeBit G (seq (wordOf G.length U))) (hc U) (linearDecoder G) (wordOf G.length U)
    (univ.erase ∅) (fun V => codeBit G (seq (wordOf G.length (symmDiff U V)))) (fun V _ => hc _) fun S hS => by
      have hfw := flipped_word n _ (hc U) S
      obtain ⟨h1, h2⟩ := linDec_min hG hk hn _ hfw
      rw [linearDecoder_eq hG hk hn _ hfw] at hS
      obtain ⟨B, hB⟩ := wordOf_surj G.length _ h1
      refine ⟨symmDiff U B, ?_, ?_⟩
      · rw [mem_erase]
        refine ⟨fun h0 => hS ?_, mem_univ _⟩
        rw [← Finset.bot_eq_empty, symmDiff_eq_bot] at h0
        rw [← hB, h0]
      · rw [symmDiff_symmDiff_cancel_left, hB]
        exact h2 _ hu
  refine le_trans (le_of_eq ?_) hb
  congr 1
  refine sum_congr rfl fun V _ => ?_
  rw [codeBit_diff, symmDiff_symmDiff_cancel_left]

/-! ## a code for which the selection by the last transition costs the correction of single errors -/

/-- rate 1/3 code with one memory cell: the bit twice, and its sum with the bit before -/
def exV : ConvG := [[[1, 0], [1, 0], [1, 1]]]

theorem exV_good : GoodCode 3 exV none := ⟨goodG_of (by decide) (by decide), fun l u h => by cases h⟩

theorem exV_memory : HasMemory 3 exV := by
  intro i j hi hj
  have : i = 0 := by simp [exV] at hi; omega
  subst this
  have : j = 0 ∨ j = 1 ∨ j = 2 := by omega
  rcases this with rfl | rfl | rfl <;> decide

theorem exV_run {u : List Int} (hu : IsBinary u) {w : ℕ → ℤ → Int} (hw : IsRun exV none u w) (t : ℕ) :
    w 0 t = u.getD t 0 ∧ runBit exV none u w t 0 = w 0 t ∧ runBit exV none u w t 1 = w 0 t ∧
      runBit exV none u w t 2 = (w 0 t + w 0 (t - 1)) % 2 := by
  have h1 := (hw 0 (by decide)).1 t (by omega)
  have h2 : w 0 t = u.getD t 0 := by
    rw [h1]
    have := binary_getD hu t
    simp only [Spec.poly, inBit, exV, List.length_singleton, Nat.sub_self, range_zero, sum_empty, add_zero, Nat.cast_nonneg, if_true,
      Int.toNat_natCast, mul_one]
    omega
  have hb := binary_getD hu t
  refine ⟨h2, ?_, ?_, ?_⟩
  · simp [runBit, encBit, isDirect, tapSum, tf, exV, Finset.sum_range_succ]
    rw [h2]; omega
  · simp [runBit, encBit, isDirect, tapSum, tf, exV, Finset.sum_range_succ]
    rw [h2]; omega
  · simp [runBit, encBit, isDirect, tapSum, tf, exV, Finset.sum_range_succ]

theorem exV_identified : Identified 3 exV none := by
  intro u u' w w' hu hu' hw hw' ho _
  obtain ⟨a1, a2, -, a4⟩ := exV_run hu.2 hw 0
  obtain ⟨b1, b2, -, b4⟩ := exV_run hu'.2 hw' 0
  have h0 : runBit exV none u w 0 0 = runBit exV none u' w' 0 0 := ho 0 (by decide)
  have h2 : runBit exV none u w 0 2 = runBit exV none u' w' 0 2 := ho 2 (by decide)
  have p1 := (hw 0 (by decide)).2 (-1) (by decide)
  have p2 := (hw' 0 (by decide)).2 (-1) (by decide)
  rw [a2, b2] at h0
  rw [a4, b4, h0] at h2
  simp only [Nat.cast_zero, zero_sub] at h2 h0 a1 b1
  constructor
  · intro i hi k hk
    have : i = 0 := by simp [exV] at hi; omega
    subst this
    have : k = 0 := by simp [exV, tf] at hk; omega
    subst this
    simp only [Nat.cast_zero, sub_zero]
    omega
  · obtain ⟨l1, -⟩ := hu
    obtain ⟨l2, -⟩ := hu'
    refine ext_getD 0 (by rw [l1, l2]) fun i hi => ?_
    obtain rfl : i = 0 := by rw [l1] at hi; simp [exV] at hi; omega
    rw [← a1, ← b1, h0]

/-- the words of the code -/
theorem exV_code {n : ℕ} {u : List Int} (hu : IsBinary u) {c : ℕ → Int} (hc : IsCode 3 n exV none u c) :
    ∃ w : ℕ → ℤ → Int, IsRun exV none u w ∧ (∀ t : ℕ, w 0 t = u.getD t 0) ∧ ∀ t < n, c (t * 3) = u.getD t 0 ∧ c (t * 3 + 1) = u.getD t 0 ∧
      c (t * 3 + 2) = (u.getD t 0 + w 0 ((t : ℤ) - 1)) % 2 := by
  obtain ⟨w, hw, h2, -⟩ := hc
  refine ⟨w, hw, fun t => (exV_run hu hw t).1, fun t ht => ?_⟩
  obtain ⟨a1, a2, a3, a4⟩ := exV_run hu hw t
  rw [a1] at a2 a3 a4
  exact ⟨(h2 t 0 ht (by decide)).trans a2, (h2 t 1 ht (by decide)).trans a3, (h2 t 2 ht (by decide)).trans a4⟩

/-- words of different data differ in at least three positions -/
theorem exV_dist {n : ℕ} (hn : 2 ≤ n) (v v' : List Int) (c c' : ℕ → Int) (hv : Word (exV.length * n) v) (hv' : Word (exV.length * n) v')
    (hc : IsCode 3 n exV none v c) (hc' : IsCode 3 n exV none v' c') (hne : v ≠ v') : 2 * 1 + 1 ≤ Spec.dist (n * 3) c c' := by
  obtain ⟨w, hw, g1, g2⟩ := exV_code hv.2 hc
  obtain ⟨w', hw', g1', g2'⟩ := exV_code hv'.2 hc'
  have hlen : exV.length * n = n := by simp [exV]
  rw [hlen] at hv hv'
  have three : ∀ i j k : ℕ, i < n * 3 → j < n * 3 → k < n * 3 → i ≠ j → i ≠ k → j ≠ k → c i ≠ c' i → c j ≠ c' j → c k ≠ c' k →
      3 ≤ Spec.dist (n * 3) c c' := by
    intro i j k hi hj hk h1 h2 h3 h4 h5 h6
    have hcard : ({i, j, k} : Finset ℕ).card = 3 := by
      rw [card_insert_of_notMem (by simp [h1, h2]), card_insert_of_notMem (by simp [h3]), card_singleton]
    refine le_trans (le_of_eq hcard.symm) ?_
    unfold Spec.dist
    refine card_le_card fun x hx => ?_
    rw [mem_insert, mem_insert, mem_singleton] at hx
    rw [mem_filter, mem_range]
    rcases hx with rfl | rfl | rfl
    · exact ⟨hi, h4⟩
    · exact ⟨hj, h5⟩
    · exact ⟨hk, h6⟩
  have hex : ∃ t, t < n ∧ v.getD t 0 ≠ v'.getD t 0 := by
    by_contra hcon
    push Not at hcon
    exact hne (ext_getD 0 (by rw [hv.1, hv'.1]) fun i hi => hcon i (by rw [hv.1] at hi; exact hi))
  classical
  obtain ⟨t, ⟨htn, htd⟩, hmin⟩ : ∃ t, (t < n ∧ v.getD t 0 ≠ v'.getD t 0) ∧ ∀ s < t, v.getD s 0 = v'.getD s 0 := by
    refine ⟨Nat.find hex, Nat.find_spec hex, fun s hs => ?_⟩
    have := Nat.find_min hex hs
    by_contra hcon
    exact this ⟨lt_trans hs (Nat.find_spec hex).1, hcon⟩
  obtain ⟨x1, x2, x3⟩ := g2 t htn
  obtain ⟨y1, y2, y3⟩ := g2' t htn
  have bv := binary_getD hv.2 t
  have bv' := binary_getD hv'.2 t
  rcases Nat.eq_zero_or_pos t with rfl | ht0
  · obtain ⟨x4, -, x6⟩ := g2 1 (by omega)
    obtain ⟨y4, -, y6⟩ := g2' 1 (by omega)
    have e0 := g1 0
    have e0' := g1' 0
    simp only [Nat.cast_one, sub_self, Nat.cast_zero] at x6 y6 e0 e0'
    rw [e0] at x6
    rw [e0'] at y6
    by_cases h1 : v.getD 1 0 = v'.getD 1 0
    · refine three (0 * 3) (0 * 3 + 1) (1 * 3 + 2) (by omega) (by omega) (by omega) (by omega) (by omega) (by omega)
        (by rw [x1, y1]; exact htd) (by rw [x2, y2]; exact htd) ?_
      rw [x6, y6, h1]
      omega
    · refine three (0 * 3) (0 * 3 + 1) (1 * 3) (by omega) (by omega) (by omega) (by omega) (by omega) (by omega)
        (by rw [x1, y1]; exact htd) (by rw [x2, y2]; exact htd) (by rw [x4, y4]; exact h1)
  · have hp : ((t : ℤ) - 1) = ((t - 1 : ℕ) : ℤ) := by omega
    rw [hp, g1] at x3
    rw [hp, g1', ← hmin (t - 1) (by omega)] at y3
    refine three (t * 3) (t * 3 + 1) (t * 3 + 2) (by omega) (by omega) (by omega) (by omega) (by omega) (by omega)
      (by rw [x1, y1]; exact htd) (by rw [x2, y2]; exact htd) ?_
    rw [x3, y3]
    have := binary_getD hv.2 (t - 1)
    omega

/-- one error in the third bit of a step other than the first: the Viterbi decoder returns other data -/
theorem exV_single {n : ℕ} (hn : 0 < n) (u : List Int) (hu : Word (exV.length * n) u) (c : ℕ → Int) (hc : IsCode 3 n exV none u c) (t : ℕ)
    (ht0 : 0 < t) (htn : t < n) (i : Fin (n * 3)) (hi : (i : ℕ) = t * 3 + 2) :
    vitBlock 3 n exV none (flipped (n * 3) c {i}) ≠ u := by
  have hcb := isCode_bits (by decide) hc
  have hfw := flipped_word (n * 3) c (fun j _ => hcb j) {i}
  obtain ⟨-, ⟨w, hw, hs⟩, -⟩ := vit_one exV_good (by decide) (fits_none _ _) exV_memory exV_identified hn _ hfw
  intro he
  rw [he] at hw hs
  obtain ⟨w0, hw0, g1, g2⟩ := exV_code hu.2 hc
  obtain ⟨x1, x2, x3⟩ := g2 t htn
  have hp : ((t : ℤ) - 1) = ((t - 1 : ℕ) : ℤ) := by omega
  rw [hp, g1] at x3
  have hr : ∀ j (hj : j < 3), (fun j => seq (flipped (n * 3) c {i}) (t * 3 + j)) j = if j = 2 then 1 - c (t * 3 + 2) else c (t * 3 + j) := by
    intro j hj
    have hlt : t * 3 + j < n * 3 := by omega
    have := flipped_getD (n * 3) c {i} ⟨t * 3 + j, hlt⟩
    show (flipped (n * 3) c {i}).getD (t * 3 + j) 0 = _
    simp only at this
    rw [this]
    by_cases h2 : j = 2
    · subst h2
      rw [if_pos rfl, if_pos (by rw [mem_singleton]; exact Fin.ext hi.symm)]
    · rw [if_neg h2, if_neg (by rw [mem_singleton, Fin.ext_iff, hi]; simp only; omega)]
  have bu := binary_getD hu.2 t
  have bp := binary_getD hu.2 (t - 1)
  obtain ⟨a1, a2, a3, a4⟩ := exV_run hu.2 hw t
  have ap := (exV_run hu.2 hw (t - 1)).1
  rw [hp, ap, a1] at a4
  rw [a1] at a2 a3
  let w' : ℕ → ℤ → Int := fun _ k => if k = 0 then u.getD t 0 else if k = -1 then 1 - u.getD (t - 1) 0 else 0
  have hw' : IsRun exV none [u.getD t 0] w' := by
    intro i0 hi0
    have : i0 = 0 := by simp [exV] at hi0; omega
    subst this
    refine ⟨fun k hk => ?_, fun k hk => ?_⟩
    · simp only [Spec.poly, List.length_singleton, Nat.sub_self, range_zero, sum_empty, add_zero, inBit, hk, if_true, w']
      by_cases hk0 : k = 0
      · subst hk0
        rw [if_pos rfl]
        show u.getD t 0 = u.getD t 0 % 2
        omega
      · rw [if_neg hk0, if_neg (by omega)]
        have : 1 ≤ k.toNat := by omega
        simp only [exV, List.length_singleton, mul_one]
        rw [getD_of_le 0 [u.getD t 0] (by simp; omega)]
        rfl
    · simp only [w']
      rw [if_neg (by omega)]
      split_ifs <;> omega
  have hbin : IsBinary [u.getD t 0] := fun x hx => by rw [List.mem_singleton] at hx; rw [hx]; exact bu
  obtain ⟨b1, b2, b3, b4⟩ := exV_run hbin hw' 0
  have c1 : w' 0 ((0 : ℕ) : ℤ) = u.getD t 0 := rfl
  have c2 : w' 0 (((0 : ℕ) : ℤ) - 1) = 1 - u.getD (t - 1) 0 := rfl
  rw [c1] at b2 b3 b4
  rw [c2] at b4
  have hstep := hs t htn [u.getD t 0] w' ⟨by simp [exV], hbin⟩ hw' (by
    simp only [cellsAt, exV, tf]
    simp
    show u.getD t 0 = _
    exact a1.symm)
  have d0 : stepDist 3 exV none [u.getD t 0] w' 0 (seq (flipped (n * 3) c {i})) t = 0 := by
    unfold stepDist Spec.dist
    rw [card_eq_zero, filter_eq_empty_iff]
    intro j hj
    rw [mem_range] at hj
    rw [not_not, hr j hj]
    have : j = 0 ∨ j = 1 ∨ j = 2 := by omega
    rcases this with rfl | rfl | rfl
    · rw [b2, if_neg (by decide)]; exact x1.symm
    · rw [b3, if_neg (by decide)]; exact x2.symm
    · rw [b4, if_pos rfl, x3]; omega
  have d1 : 1 ≤ stepDist 3 exV none u w t (seq (flipped (n * 3) c {i})) t := by
    unfold stepDist Spec.dist
    rw [Nat.one_le_iff_ne_zero, Ne, card_eq_zero, filter_eq_empty_iff]
    intro hcon
    have h2 := hcon (mem_range.2 (by decide : 2 < 3))
    rw [not_not, hr 2 (by decide), a4, if_pos rfl, x3] at h2
    omega
  rw [d0] at hstep
  omega

/-- **C112.** The code property is lost by the Viterbi decoder: words of this code differ in three positions, the exhaustive decoder
loses a block of `n` steps only with a probability of order `p²`, the Viterbi decoder of the library with at least
`(n-1)·p·(1-p)^(3n-1)`, because single errors mislead its selection by the last transition. -/
theorem C112_negative_viterbi (n : ℕ) (hn : 2 ≤ n) (p : ℝ) (hp0 : 0 ≤ p) (hp1 : p ≤ 1) (u : List Int) (hu : Word (exV.length * n) u)
    (c : ℕ → Int) (hc : IsCode 3 n exV none u c) :
    1 - returnedProb (n * 3) (mlBlock 3 n exV none) p c u ≤ (3 * (n : ℝ) - 1) ^ 2 * p ^ 2 ∧
    ((n : ℝ) - 1) * (p * (1 - p) ^ (n * 3 - 1)) ≤ 1 - returnedProb (n * 3) (vitBlock 3 n exV none) p c u := by
  classical
  constructor
  · have h := C112_ml_ball (t := 1) exV_good (by decide) (fits_none _ _) (by omega : 0 < n)
      (fun v v' c c' a1 a2 a3 a4 a5 => exV_dist hn v v' c c' a1 a2 a3 a4 a5) p hp0 hp1 u hu c hc
    rw [sum_range_succ, sum_range_one, Nat.choose_zero_right, Nat.choose_one_right, pow_zero, pow_one, Nat.cast_one, one_mul, one_mul,
      Nat.sub_zero] at h
    obtain ⟨m, hm⟩ : ∃ m, n * 3 = m + 1 := ⟨n * 3 - 1, by omega⟩
    have hmr : 3 * (n : ℝ) - 1 = m := by
      have : ((n * 3 : ℕ) : ℝ) = m + 1 := by rw [hm]; push_cast; ring
      push_cast at this
      linarith
    rw [hmr]
    have h2 : ((n * 3 : ℕ) : ℝ) = m + 1 := by rw [hm]; push_cast; ring
    rw [h2] at h
    have h3 : (1 - p) ^ (n * 3) = (1 - p) ^ m * (1 - p) := by rw [hm, pow_succ]
    have h4 : n * 3 - 1 = m := by omega
    rw [h3, h4] at h
    have hbern : 1 - m * p ≤ (1 - p) ^ m := by
      have := one_add_mul_le_pow (by linarith : (-2 : ℝ) ≤ -p) m
      rw [← sub_eq_add_neg] at this
      linarith
    have h5 : 0 ≤ 1 + (m : ℝ) * p := by positivity
    nlinarith [mul_le_mul_of_nonneg_right hbern h5]
  · have hinj : ∀ t : Fin (n - 1), ((t : ℕ) + 1) * 3 + 2 < n * 3 := fun t => by have := t.2; omega
    let φ : Fin (n - 1) → Finset (Fin (n * 3)) := fun t => {⟨((t : ℕ) + 1) * 3 + 2, hinj t⟩}
    have hφ : Function.Injective φ := by
      intro a b hab
      have := singleton_injective hab
      rw [Fin.mk.injEq] at this
      exact Fin.ext (by omega)
    have hlost : ∀ S ∈ univ.image φ, vitBlock 3 n exV none (flipped (n * 3) c S) ≠ u := by
      intro S hS
      rw [mem_image] at hS
      obtain ⟨t, -, rfl⟩ := hS
      exact exV_single (by omega) u hu c hc ((t : ℕ) + 1) (by omega) (by have := t.2; omega) _ rfl
    have hsum : ∑ S ∈ univ.image φ, flipProb (n * 3) p S = ((n : ℝ) - 1) * (p * (1 - p) ^ (n * 3 - 1)) := by
      rw [sum_image (fun a _ b _ h => hφ h)]
      have : ∀ t : Fin (n - 1), flipProb (n * 3) p (φ t) = p * (1 - p) ^ (n * 3 - 1) := by
        intro t
        unfold flipProb
        rw [card_singleton, pow_one]
      rw [sum_congr rfl fun t _ => this t, sum_const, card_univ, Fintype.card_fin, nsmul_eq_mul, Nat.cast_sub (by omega), Nat.cast_one]
    have htot := flipProb_total (n * 3) p
    rw [← hsum, ← htot]
    unfold returnedProb
    rw [← sum_sub_distrib]
    have hterm : ∀ S : Finset (Fin (n * 3)), 0 ≤ flipProb (n * 3) p S - (if vitBlock 3 n exV none (flipped (n * 3) c S) = u then flipProb (n * 3) p S else 0) := by
      intro S
      have := flipProb_nonneg (n * 3) p hp0 hp1 S
      split_ifs <;> simp [this]
    refine le_trans (sum_le_sum fun S hS => ?_) (sum_le_sum_of_subset_of_nonneg (subset_univ (univ.image φ)) fun S _ _ => hterm S)
    rw [if_neg (hlost S hS), sub_zero]

/-! ## concrete cases -/

/-- the code of `C112_negative_viterbi`: a block of three steps, one wrong bit -/
example : codingConv id [1, 0, 1] exV = .ok [1, 1, 1, 0, 0, 1, 1, 1, 1] ∧
    mlBlock 3 3 exV none [1, 1, 1, 0, 0, 0, 1, 1, 1] = [1, 0, 1] ∧ vitBlock 3 3 exV none [1, 1, 1, 0, 0, 0, 1, 1, 1] = [0, 0, 1] := by
  decide +kernel

/-- a code that meets the conditions of `C112_viterbi_ball_partial` for single errors and blocks of two or more steps -/
example (n : ℕ) (hn : 2 ≤ n) : MergeDist 4 exM none (2 * 1 + 1) ∧ DivergeDist 4 exM none 1 (2 * 1 + 1) ∧ ApartDist 4 exM none n (2 * 1 + 1) :=
  ⟨merge_of exM_good (by decide) (fits_none _ _) _ (by decide +kernel), diverge_of exM_good (by decide) (fits_none _ _) _ _ (by decide +kernel),
    apartDist_mono hn (apart_of exM_good (by decide) (fits_none _ _) _ _ (by decide +kernel))⟩

/-- the hypotheses of `C112_ml_link` and `C112_viterbi_link_partial`: four bits in two blocks of two steps, through the NRZ link; the
second block is lost at most with `25 q²` -/
example (snr : ℝ) : ∃ sym lv, codingConv id [1, 0, 1, 1] exV = .ok [1, 1, 1, 0, 0, 1, 1, 1, 1, 1, 1, 0] ∧
    txSymbols true .nrz ⟨false, false, false, true⟩ [1, 1, 1, 0, 0, 1, 1, 1, 1, 1, 1, 0] = .ok sym ∧
    mapping sym .nrz false none false = .ok lv ∧ (∃ x ∈ lv, x ≠ 0) ∧
    ∃ s t : ℝ, 0 < s ∧ t = (1 - -1) / (2 * s) ∧ 1 - 25 * qFunc t ^ 2 ≤ (normalDraws 12).real {x | ∃ y rcv out,
      awgn (List.ofFn x) lv snr = some y ∧
      rxBits true .nrz ⟨false, false, false, true⟩ false y = .ok rcv ∧ decodingConvMl rcv exV 6 = .ok out ∧
      ∀ i < 2, out.getD (1 * 2 + i) 0 = ([1, 0, 1, 1] : List Int).getD (1 * 2 + i) 0} := by
  have hc : codingConv id [1, 0, 1, 1] exV = .ok [1, 1, 1, 0, 0, 1, 1, 1, 1, 1, 1, 0] := by decide +kernel
  have hs : txSymbols true .nrz ⟨false, false, false, true⟩ [1, 1, 1, 0, 0, 1, 1, 1, 1, 1, 1, 0]
      = .ok [0, 0, 0, 1, 1, 0, 0, 0, 0, 0, 0, 1] := by decide +kernel
  have hl : getLevels .nrz false = [-1, 1] := by simp [getLevels, intLevels]
  have hm : mapping [0, 0, 0, 1, 1, 0, 0, 0, 0, 0, 0, 1] .nrz false none false
      = .ok [-1, -1, -1, 1, 1, -1, -1, -1, -1, -1, -1, 1] := by
    rw [mapping_values .nrz false _ (by decide), hl]
    rfl
  have hnz : ∃ x ∈ ([-1, -1, -1, 1, 1, -1, -1, -1, -1, -1, -1, 1] : List ℝ), x ≠ 0 := ⟨1, by simp, one_ne_zero⟩
  refine ⟨_, _, hc, hs, hm, hnz, ?_⟩
  obtain ⟨s, t, -, h1, h2, -, h3⟩ := C112_ml_link (n := 2) true .nrz (Or.inl rfl) ⟨false, false, false, true⟩ false exV_good
    (directLong_none _ _) (by decide) (fits_none _ _) (by decide) [1, 0, 1, 1] (by simp [IsBinary]) _ hc (by decide) _ hs _ hm hnz snr
  rw [hl] at h2
  refine ⟨s, t, h1, h2, ?_⟩
  obtain ⟨u, w, hu, hw, -, h4, -⟩ := h3 1 (by decide)
  have h6 : t = (1 - -1) / (2 * s) := h2
  have h7 : 0 < t := by rw [h6]; exact div_pos (by norm_num) (by linarith)
  have h5 := (C112_negative_viterbi 2 le_rfl (qFunc t) (qFunc_pos t).le (by linarith [qFunc_lt_half h7]) u hu w hw).1
  refine le_trans ?_ (le_of_eq h4.symm)
  norm_num at h5 ⊢
  linarith

end Verif
