import Verif.Lemmas.ViterbiCode
import Verif.Lemmas.ConvExample

/-!
# Convolutional decoders (C37-C39)
-/

namespace Verif
open Spec

/-! ## C37 exhaustive maximum likelihood decoder -/

/-- **C37.** For every complete block of `tb` received bits the decoder returns data whose output from some
initial register contents (zero in the columns beyond the last complete output) is at minimal Hamming
distance from the block, among all data words and all initial register contents. -/
theorem C37_maximum_likelihood {nO tb : ℕ} {G : ConvG} {fb : Fb} (h : GoodCode nO G fb) (hpos : 0 < nO)
    (hf : Fits nO G fb) (htb : nO ≤ tb) (rcv : List Int) (hr : IsBinary rcv) :
    ∃ out, decodingConvMl rcv G tb (fb.map Prod.fst) (fb.map Prod.snd) = .ok out ∧
      out.length = rcv.length / tb * (G.length * (tb / nO)) ∧
      ∀ r, r < rcv.length / tb →
        Word (G.length * (tb / nO)) ((rows (G.length * (tb / nO)) out).getD r []) ∧
        ∃ c, IsCode nO (tb / nO) G fb ((rows (G.length * (tb / nO)) out).getD r []) c ∧
          ∀ v c', Word (G.length * (tb / nO)) v → IsCode nO (tb / nO) G fb v c' →
            dist tb c (block rcv tb r) ≤ dist tb c' (block rcv tb r) := by
  have hG : 0 < G.length := List.length_pos_of_ne_nil h.1.1
  have hdiv : 0 < tb / nO := Nat.div_pos htb hpos
  have hK : 0 < G.length * (tb / nO) := Nat.mul_pos hG hdiv
  set K := G.length * (tb / nO) with hKdef
  set pick := fun b : List Int => (tile (getBinPerm (G.length * (tb / nOut G))) (trellisStates G).length).getD
    (argmin ((convCodebook G (fb.map Prod.fst) (fb.map Prod.snd) tb).map (fun c => hammingDist c b))) [] with hpick
  have hp : ∀ b, Word tb b → Word K (pick b) ∧
      ∃ c, IsCode nO (tb / nO) G fb (pick b) c ∧ ∀ v' c', Word K v' → IsCode nO (tb / nO) G fb v' c' →
          dist tb c (seq b) ≤ dist tb c' (seq b) := by
    intro b hb
    obtain ⟨v, hv, he, hc⟩ := convMl_pick h hpos hf tb b hb
    have he' : pick b = v := he
    rw [he']
    exact ⟨hv, hc⟩
  have hrow := rows_word tb hr
  have hout : decodingConvMl rcv G tb (fb.map Prod.fst) (fb.map Prod.snd) = .ok ((rows tb rcv).map pick).flatten :=
    decodingConvMl_eq h hpos hf hr tb (by omega)
  have huni : ∀ r ∈ (rows tb rcv).map pick, r.length = K := by
    intro r hr
    rw [List.mem_map] at hr
    obtain ⟨b, hb, rfl⟩ := hr
    exact (hp b (hrow b hb)).1.1
  refine ⟨_, hout, ?_, ?_⟩
  · rw [flatten_uniform_length _ _ huni, List.length_map, rows_length]
  · intro r hrr
    have hlt : r < (rows tb rcv).length := by rw [rows_length]; exact hrr
    rw [rows_flatten _ hK _ huni, getD_map_lt _ [] [] _ hlt]
    set b := (rows tb rcv).getD r [] with hb
    obtain ⟨h1, c, h2, h3⟩ := hp b (hrow b (mem_of_getD [] _ hlt))
    refine ⟨h1, c, h2, fun v c' hv hc' => ?_⟩
    have hbb : ∀ i < tb, seq b i = block rcv tb r i := fun i hi => rows_getD 0 tb rcv r i hrr hi
    have := h3 v c' hv hc'
    rwa [dist_congr tb (fun _ _ => rfl) hbb, dist_congr tb (fun _ _ => rfl) hbb] at this

/-- **C37.** If outputs of `n` steps for different data differ in at least `2t+1` positions whatever the
initial register contents, and every block of the received stream differs from the encoded stream in at
most `t` positions, the decoder returns the data of all complete blocks; beyond the end of `p` it returns
the zeros the encoder padded with. -/
theorem C37_corrects_errors {nO n t : ℕ} {G : ConvG} {fb : Fb} (h : GoodCode nO G fb) (hd : DirectLong nO G fb)
    (hpos : 0 < nO) (hf : Fits nO G fb) (hn : 0 < n)
    (hdist : ∀ v v' c c', Word (G.length * n) v → Word (G.length * n) v' → IsCode nO n G fb v c →
      IsCode nO n G fb v' c' → v ≠ v' → 2 * t + 1 ≤ dist (n * nO) c c')
    (p rcv c : List Int) (hp : IsBinary p)
    (hc : codingConv id p G (fb.map Prod.fst) (fb.map Prod.snd) = .ok c) (hr : IsBinary rcv)
    (hl : rcv.length = c.length)
    (herr : ∀ r, r < c.length / (n * nO) → dist (n * nO) (block c (n * nO) r) (block rcv (n * nO) r) ≤ t) :
    ∃ out, decodingConvMl rcv G (n * nO) (fb.map Prod.fst) (fb.map Prod.snd) = .ok out ∧
      out.length = (p.length + G.length - 1) / G.length / n * (G.length * n) ∧
      ∀ q, q < out.length → out.getD q 0 = p.getD q 0 := by
  have hG : 0 < G.length := List.length_pos_of_ne_nil h.1.1
  have htb : nO ≤ n * nO := Nat.le_mul_of_pos_left nO hn
  have hdiv : n * nO / nO = n := Nat.mul_div_cancel n hpos
  have hK : 0 < G.length * n := Nat.mul_pos hG hn
  obtain ⟨c1, e1, e2, _, e4⟩ := stream_block (n := n) h hd hpos hf hn p hp
  have : c1 = c := by rw [hc] at e1; exact (Except.ok.inj e1).symm
  subst this
  have hnb : rcv.length / (n * nO) = (p.length + G.length - 1) / G.length / n := by
    rw [hl, e2, Nat.mul_div_mul_right _ _ hpos]; rfl
  obtain ⟨out, h1, h2, h3⟩ := C37_maximum_likelihood h hpos hf htb rcv hr
  rw [hdiv] at h2 h3
  rw [hnb] at h2 h3
  refine ⟨out, h1, h2, fun q hq => ?_⟩
  set r := q / (G.length * n) with hrdef
  have hj : q % (G.length * n) < G.length * n := Nat.mod_lt _ hK
  have hij : r * (G.length * n) + q % (G.length * n) = q := by
    rw [Nat.mul_comm]; exact Nat.div_add_mod q _
  have hrr : r < (p.length + G.length - 1) / G.length / n := by
    rw [h2] at hq
    exact Nat.div_lt_of_lt_mul (by rwa [Nat.mul_comm])
  obtain ⟨s, hs, hvw, hblk⟩ := e4 r hrr
  obtain ⟨hw, cb, hcb, hmin⟩ := h3 r hrr
  set v := (rows (G.length * n) (padTo G.length p)).getD r [] with hv
  set u := (rows (G.length * n) out).getD r [] with hu
  have hcv := (cw_isCode (n := n) h hpos hf 0 s v hs hvw).1
  have hcw : ∀ i < n * nO, seq (cw G (fb.map Prod.fst) (fb.map Prod.snd) 0 s v) i = block c1 (n * nO) r i := by
    intro i hi
    unfold cw seq
    rw [List.replicate_zero, List.append_nil, ← hblk]
    exact rows_getD 0 _ _ r i (by rw [e2, Nat.mul_div_mul_right _ _ hpos]; exact hrr) hi
  have huv : u = v := by
    by_contra hne
    have hdd := hdist u v cb _ hw hvw hcb hcv hne
    have hmm := hmin v _ hvw hcv
    have her := herr r (by rw [← hl, hnb]; exact hrr)
    rw [dist_congr (n * nO) hcw (fun _ _ => rfl)] at hmm
    rw [dist_congr (n * nO) (fun _ _ => rfl) hcw] at hdd
    have htri := dist_triangle (n * nO) cb (block rcv (n * nO) r) (block c1 (n * nO) r)
    rw [dist_comm (n * nO) (block rcv (n * nO) r) (block c1 (n * nO) r)] at htri
    omega
  have ho : u.getD (q % (G.length * n)) 0 = out.getD q 0 := by
    rw [hu, rows_getD 0 _ _ r _ (by rw [h2, Nat.mul_div_cancel _ hK]; exact hrr) hj, hij]
  rw [← ho, huv, hv, rows_getD 0 _ _ r _ (by
    rw [padTo_length _ hG, Nat.mul_comm, Nat.mul_div_mul_left _ _ hG]; exact hrr) hj, hij, padTo_getD]

/-- **C37.** If the output of `n` steps determines the data, error-free blocks are decoded exactly. -/
theorem C37_error_free {nO n : ℕ} {G : ConvG} {fb : Fb} (h : GoodCode nO G fb) (hd : DirectLong nO G fb)
    (hpos : 0 < nO) (hf : Fits nO G fb) (hn : 0 < n)
    (hdet : ∀ v v' c, Word (G.length * n) v → Word (G.length * n) v' → IsCode nO n G fb v c →
      IsCode nO n G fb v' c → v = v')
    (p : List Int) (hp : IsBinary p) :
    ∃ c out, codingConv id p G (fb.map Prod.fst) (fb.map Prod.snd) = .ok c ∧
      decodingConvMl c G (n * nO) (fb.map Prod.fst) (fb.map Prod.snd) = .ok out ∧
      out.length = (p.length + G.length - 1) / G.length / n * (G.length * n) ∧
      ∀ q, q < out.length → out.getD q 0 = p.getD q 0 := by
  obtain ⟨c, e1, _, e3, _⟩ := stream_block (n := n) h hd hpos hf hn p hp
  obtain ⟨out, h1, h2, h3⟩ := C37_corrects_errors (t := 0) h hd hpos hf hn (by
    intro v v' c c' hv hv' hc hc' hne
    by_contra hcon
    have h0 : dist (n * nO) c c' = 0 := by omega
    apply hne
    refine hdet v v' c hv hv' hc ?_
    have : c = c' := by
      funext q
      rcases Nat.lt_or_ge q (n * nO) with hq | hq
      · unfold dist at h0
        rw [Finset.card_eq_zero, Finset.filter_eq_empty_iff] at h0
        have := h0 (Finset.mem_range.2 hq)
        simpa using this
      · obtain ⟨_, _, _, z1⟩ := hc
        obtain ⟨_, _, _, z2⟩ := hc'
        rw [z1 q hq, z2 q hq]
    rw [this]; exact hc') p c c hp e1 e3 rfl (by intro r _; simp [dist])
  exact ⟨c, out, e1, h1, h2, h3⟩

/-- The (7,5) code meets the hypotheses of `C37_error_free` with blocks of two steps. -/
example : ∀ v v' c, Word (ex75.length * 2) v → Word (ex75.length * 2) v' → IsCode 2 2 ex75 none v c →
    IsCode 2 2 ex75 none v' c → v = v' := by
  apply code_determined ex75_good (by decide) (fits_none _ _)
  decide +kernel

example : codingConv id [1, 0, 0, 1] ex75 = .ok [1, 1, 1, 0, 1, 1, 1, 1] := by decide +kernel

example : decodingConvMl [1, 1, 1, 0, 1, 1, 1, 1] ex75 4 = .ok [1, 0, 0, 1] := by decide +kernel

/-- The (7,5) code with outputs sent three times meets those of `C37_corrects_errors` with `t = 1`. -/
example : ∀ v v' c c', Word (ex75r.length * 2) v → Word (ex75r.length * 2) v' → IsCode 6 2 ex75r none v c →
    IsCode 6 2 ex75r none v' c' → v ≠ v' → 2 * 1 + 1 ≤ dist (2 * 6) c c' := by
  apply code_distance ex75r_good (by decide) (fits_none _ _)
  decide +kernel

/-! ## C38 Viterbi decoder, error-free blocks -/

/-- **C38** (partial: every input has memory, i.e. the trellis has no parallel transitions; see
`C38_negative_parallel` for what happens otherwise). If transitions are identified by output and end
state, and the output of the `tb / nO` steps of a block determines the data, then every received block
that agrees with an output for the data `v r`, from whatever initial register contents, is decoded
to `v r`. -/
theorem C38_error_free_partial {nO tb : ℕ} {G : ConvG} {fb : Fb} (h : GoodCode nO G fb) (hpos : 0 < nO)
    (hf : Fits nO G fb) (hm : HasMemory nO G) (hid : Identified nO G fb) (htb : nO ≤ tb)
    (hdet : ∀ v v' c, Word (G.length * (tb / nO)) v → Word (G.length * (tb / nO)) v' →
      IsCode nO (tb / nO) G fb v c → IsCode nO (tb / nO) G fb v' c → v = v')
    (rcv : List Int) (hr : IsBinary rcv) (hlen : tb ≤ rcv.length) (v : ℕ → List Int)
    (hv : ∀ r, r < rcv.length / tb → Word (G.length * (tb / nO)) (v r) ∧
      ∃ c, IsCode nO (tb / nO) G fb (v r) c ∧ ∀ i < tb / nO * nO, c i = block rcv tb r i) :
    ∃ last, decodingConvViterbi rcv G tb (fb.map Prod.fst) (fb.map Prod.snd)
      = .ok (((List.range (rcv.length / tb)).map v).flatten, last) := by
  have hdiv : 0 < tb / nO := Nat.div_pos htb hpos
  have hblk : ∀ r, r < rcv.length / tb → ∃ last,
      viterbiBlock G (fb.map Prod.fst) (fb.map Prod.snd) ((rows tb rcv).getD r []) = .ok (v r, last) := by
    intro r hrr
    have hmem := mem_of_getD [] (rows tb rcv) (i := r) (by rw [rows_length]; exact hrr)
    have hw := rows_word tb hr _ hmem
    obtain ⟨hvr, c, hc, hcb⟩ := hv r hrr
    obtain ⟨v', last, e1, e2, e3⟩ := viterbiBlock_code h hpos hf hm hid hdiv _ (v r) hw.2 (by rw [hw.1]) hvr c hc
      (fun i hi => by
        rw [hcb i hi, rows_getD 0 tb rcv r i hrr (lt_of_lt_of_le hi (Nat.div_mul_le_self tb nO))]
        rfl)
    exact ⟨last, by rw [e1, hdet v' (v r) c e2 hvr e3 hc]⟩
  choose! last hlast using hblk
  have hrows : rows tb rcv = (List.range (rcv.length / tb)).map (fun r => (rows tb rcv).getD r []) := by
    apply ext_getD [] (by simp [rows_length])
    intro r hr
    rw [rows_length] at hr
    rw [getD_map_lt _ 0 [] _ (by simpa using hr), getD_of_lt 0 (List.range _) (by simpa using hr), List.getElem_range]
  have hmap : (rows tb rcv).mapM (viterbiBlock G (fb.map Prod.fst) (fb.map Prod.snd))
      = .ok ((List.range (rcv.length / tb)).map (fun r => (v r, last r))) := by
    rw [hrows, List.mapM_map]
    apply mapM_okP
    intro r hr
    exact hlast r (List.mem_range.1 hr)
  have hpos' : 0 < rcv.length / tb := Nat.div_pos hlen (by omega)
  obtain ⟨N, hN⟩ : ∃ N, rcv.length / tb = N + 1 := ⟨rcv.length / tb - 1, by omega⟩
  refine ⟨last N, ?_⟩
  rw [decodingConvViterbi_eq h hpos hf hr tb (by omega) _ hmap (v N, last N) (by
    rw [hN, List.range_succ]; simp)]
  rw [List.map_map]
  rfl

/-- **C38** (partial, as above). The encoded stream is decoded: all complete blocks of `n` steps of the data
are returned; beyond the end of `p` come the zeros the encoder padded with. -/
theorem C38_stream_partial {nO n : ℕ} {G : ConvG} {fb : Fb} (h : GoodCode nO G fb) (hd : DirectLong nO G fb)
    (hpos : 0 < nO) (hf : Fits nO G fb) (hm : HasMemory nO G) (hid : Identified nO G fb) (hn : 0 < n)
    (hdet : ∀ v v' c, Word (G.length * n) v → Word (G.length * n) v' → IsCode nO n G fb v c →
      IsCode nO n G fb v' c → v = v')
    (p : List Int) (hp : IsBinary p) (hl : n ≤ (p.length + G.length - 1) / G.length) :
    ∃ c out last, codingConv id p G (fb.map Prod.fst) (fb.map Prod.snd) = .ok c ∧
      decodingConvViterbi c G (n * nO) (fb.map Prod.fst) (fb.map Prod.snd) = .ok (out, last) ∧
      out.length = (p.length + G.length - 1) / G.length / n * (G.length * n) ∧
      ∀ q, q < out.length → out.getD q 0 = p.getD q 0 := by
  have hG : 0 < G.length := List.length_pos_of_ne_nil h.1.1
  have hdiv : n * nO / nO = n := Nat.mul_div_cancel n hpos
  have hK : 0 < G.length * n := Nat.mul_pos hG hn
  obtain ⟨c, e1, e2, e3, e4⟩ := stream_block (n := n) h hd hpos hf hn p hp
  have e2' : c.length = (p.length + G.length - 1) / G.length * nO := e2
  have hR : c.length / (n * nO) = (p.length + G.length - 1) / G.length / n := by
    rw [e2', Nat.mul_div_mul_right _ _ hpos]
  set v := fun r => (rows (G.length * n) (padTo G.length p)).getD r [] with hv
  obtain ⟨last, h1⟩ := C38_error_free_partial (tb := n * nO) h hpos hf hm hid (Nat.le_mul_of_pos_left nO hn)
    (by rw [hdiv]; exact hdet) c e3 (by rw [e2']; exact Nat.mul_le_mul_right _ hl) v (by
      rw [hdiv, hR]
      intro r hr
      obtain ⟨s, hs, hvw, hblk⟩ := e4 r hr
      refine ⟨hvw, _, (cw_isCode (n := n) h hpos hf 0 s (v r) hs hvw).1, fun i hi => ?_⟩
      unfold cw seq
      rw [List.replicate_zero, List.append_nil, ← hblk]
      exact rows_getD 0 _ _ r i (by rw [hR]; exact hr) hi)
  rw [hR] at h1
  have huni : ∀ row ∈ (List.range ((p.length + G.length - 1) / G.length / n)).map v, row.length = G.length * n := by
    intro row hrow
    rw [List.mem_map] at hrow
    obtain ⟨r, hr, rfl⟩ := hrow
    obtain ⟨_, _, hvw, _⟩ := e4 r (List.mem_range.1 hr)
    exact hvw.1
  have hol : ((List.range ((p.length + G.length - 1) / G.length / n)).map v).flatten.length
      = (p.length + G.length - 1) / G.length / n * (G.length * n) := by
    rw [flatten_uniform_length _ _ huni]; simp
  refine ⟨c, _, last, e1, h1, hol, fun q hq => ?_⟩
  rw [hol] at hq
  have hj : q % (G.length * n) < G.length * n := Nat.mod_lt _ hK
  have hij : q / (G.length * n) * (G.length * n) + q % (G.length * n) = q := by
    rw [Nat.mul_comm]; exact Nat.div_add_mod q _
  have hrr : q / (G.length * n) < (p.length + G.length - 1) / G.length / n :=
    Nat.div_lt_of_lt_mul (by rwa [Nat.mul_comm])
  conv_lhs => rw [← hij]
  rw [flatten_getD 0 _ _ huni _ _ (by simpa using hrr) hj, getD_map_lt _ 0 [] _ (by simpa using hrr),
    getD_of_lt 0 (List.range _) (by simpa using hrr), List.getElem_range, hv]
  simp only []
  rw [rows_getD 0 _ _ _ _ (by
    rw [padTo_length _ hG, Nat.mul_comm (nBlocks _ _), Nat.mul_div_mul_left _ _ hG]; exact hrr) hj, hij, padTo_getD]

/-- **C38** *violated* for codes with parallel transitions: `Trellis` stores one transition per pair of
states, later inputs overwrite earlier ones. The repetition code has no memory, its transitions are
identified by their output, and its output determines the data; yet the error-free block of the data
`[1, 0]` is decoded to `[1, 1]`. -/
theorem C38_negative_parallel :
    GoodCode 2 [[[1], [1]]] none ∧ Identified 2 [[[1], [1]]] none ∧
    codingConv id [1, 0] [[[1], [1]]] = .ok [1, 1, 0, 0] ∧
    decodingConvViterbi [1, 1, 0, 0] [[[1], [1]]] 4 = .ok ([1, 1], 0) ∧
    decodingConvMl [1, 1, 0, 0] [[[1], [1]]] 4 = .ok [1, 0] := by
  refine ⟨⟨goodG_of (by decide) (by decide), fun l u h => by cases h⟩, ?_, by decide +kernel, by decide +kernel,
    by decide +kernel⟩
  intro u u' w w' hu hu' hw hw' ho _
  refine ⟨fun i hi k hk => ?_, ?_⟩
  · have : i = 0 := by simp at hi; omega
    subst this
    simp [tf] at hk
  · have h0 := ho 0 (by decide)
    have r1 := (hw 0 (by decide)).1 0 le_rfl
    have r2 := (hw' 0 (by decide)).1 0 le_rfl
    obtain ⟨l1, b1⟩ := hu
    obtain ⟨l2, b2⟩ := hu'
    match u, l1, u', l2 with
    | [a], _, [b], _ =>
      have := b1 a (by simp)
      have := b2 b (by simp)
      simp [poly, inBit] at r1 r2
      simp [encBit, isDirect, tapSum, tf, r1, r2] at h0
      congr 1
      omega

/-- The (7,5) code meets the hypotheses of the C38 theorems (with `n = 2` steps per block, see C37). -/
example : GoodCode 2 ex75 none ∧ HasMemory 2 ex75 ∧ Identified 2 ex75 none := by
  refine ⟨ex75_good, ?_, ?_⟩
  · intro i j hi hj
    have : i = 0 := by simp [ex75] at hi; omega
    subst this
    have : j = 0 ∨ j = 1 := by omega
    rcases this with rfl | rfl <;> decide
  · intro u u' w w' hu hu' hw hw' ho hst
    have h0 := ho 1 (by decide)
    have c0 := hst 0 (by decide) 0 (by decide)
    have c1 := hst 0 (by decide) 1 (by decide)
    have r1 := (hw 0 (by decide)).1 0 le_rfl
    have r2 := (hw' 0 (by decide)).1 0 le_rfl
    have p1 := (hw 0 (by decide)).2 (-2) (by decide)
    have p2 := (hw' 0 (by decide)).2 (-2) (by decide)
    obtain ⟨l1, b1⟩ := hu
    obtain ⟨l2, b2⟩ := hu'
    match u, l1, u', l2 with
    | [a], _, [b], _ =>
      have := b1 a (by simp)
      have := b2 b (by simp)
      simp [poly, inBit] at r1 r2 c0 c1
      simp [encBit, isDirect, tapSum, tf, ex75, Finset.sum_range_succ, r1, r2] at h0
      constructor
      · intro i hi k hk
        have : i = 0 := by simp [ex75] at hi; omega
        subst this
        have : k = 0 ∨ k = 1 := by simp [ex75, tf] at hk; omega
        rcases this with rfl | rfl
        · simpa using c1
        · simp
          omega
      · congr 1
        omega

example : decodingConvViterbi [1, 1, 1, 0, 1, 1, 1, 1] ex75 4 = .ok ([1, 0, 0, 1], 2) := by decide +kernel

/-! ## C39 Viterbi decoder, received blocks with errors -/

/-- **C39** *violated*: the survivor of a state is chosen by the distance of the last step alone, not by
the accumulated distance. For this block of four steps of the (7,5) code there is data whose output
(from some start state) is at distance 1, but the decoder returns data whose outputs are all at
distance 2 or more: a single bit error is not corrected. -/
theorem C39_negative_greedy :
    decodingConvViterbi [0, 1, 0, 0, 0, 1, 0, 0] ex75 8 = .ok ([0, 0, 0, 0], 0) ∧
    (∀ c, IsCode 2 4 ex75 none [0, 0, 0, 0] c → 2 ≤ dist 8 c (seq [0, 1, 0, 0, 0, 1, 0, 0])) ∧
    ∃ v c, Word 4 v ∧ IsCode 2 4 ex75 none v c ∧ dist 8 c (seq [0, 1, 0, 0, 0, 1, 0, 0]) = 1 := by
  have hb : Word 8 [0, 1, 0, 0, 0, 1, 0, 0] := ⟨rfl, by intro x hx; simp at hx; omega⟩
  refine ⟨by decide +kernel, ?_, ?_⟩
  · intro c hc
    have hv : Word (ex75.length * 4) [0, 0, 0, 0] := ⟨rfl, by intro x hx; simp at hx; omega⟩
    obtain ⟨s, hs, hq⟩ := isCode_cw ex75_good (by decide) (fits_none _ _) 0 _ c hv hc
    have hw := (cw_isCode ex75_good (by decide) (fits_none _ _) 0 s _ hs hv).2
    have hall : ∀ s ∈ getBinPerm 2, 2 ≤ hammingDist (cw ex75 none none 0 s [0, 0, 0, 0]) [0, 1, 0, 0, 0, 1, 0, 0] := by
      decide +kernel
    have : 2 ≤ hammingDist (cw ex75 (Option.map Prod.fst (none : Fb)) (Option.map Prod.snd (none : Fb)) 0 s [0, 0, 0, 0])
        [0, 1, 0, 0, 0, 1, 0, 0] := hall s ((mem_getBinPerm _ _).2 hs)
    rw [hammingDist_eq 8 _ _ hw hb, dist_congr 8 (fun q _ => hq q) (fun _ _ => rfl)] at this
    exact_mod_cast this
  · obtain ⟨x, hx, hd⟩ : ∃ x ∈ convPairs ex75 4, hammingDist (cw ex75 none none 0 x.1 x.2) [0, 1, 0, 0, 0, 1, 0, 0] = 1 := by
      decide +kernel
    obtain ⟨hs, hv⟩ := (mem_convPairs ex75 4 x.1 x.2).1 hx
    obtain ⟨h1, h2⟩ := cw_isCode (n := 4) ex75_good (by decide) (fits_none 2 ex75) 0 x.1 x.2 hs hv
    have h3 := hammingDist_eq 8 (cw ex75 none none 0 x.1 x.2) _ h2 hb
    rw [hd] at h3
    exact ⟨x.2, _, hv, h1, by exact_mod_cast h3.symm⟩

/-- **C39** (partial: blocks of one step, every input has memory). For every received block the
decoder returns data whose output from some initial register contents is at minimal distance from the
bits of the step. For longer blocks the claim is false (`C39_negative_greedy`); error-free longer blocks
are covered by C38. -/
theorem C39_single_step_partial {nO tb : ℕ} {G : ConvG} {fb : Fb} (h : GoodCode nO G fb) (hpos : 0 < nO)
    (hf : Fits nO G fb) (hm : HasMemory nO G) (htb : tb / nO = 1)
    (rcv : List Int) (hr : IsBinary rcv) (hlen : tb ≤ rcv.length) :
    ∃ (v : ℕ → List Int) (last : ℕ), decodingConvViterbi rcv G tb (fb.map Prod.fst) (fb.map Prod.snd)
      = .ok (((List.range (rcv.length / tb)).map v).flatten, last) ∧
      ∀ r, r < rcv.length / tb → Word G.length (v r) ∧ ∃ c, IsCode nO 1 G fb (v r) c ∧
        ∀ v' c', Word G.length v' → IsCode nO 1 G fb v' c' → dist nO c (block rcv tb r) ≤ dist nO c' (block rcv tb r) := by
  have hnt : nO ≤ tb := by
    by_contra hcon
    rw [Nat.div_eq_of_lt (by omega)] at htb
    omega
  have hblk : ∀ r, r < rcv.length / tb → ∃ v last, 
      viterbiBlock G (fb.map Prod.fst) (fb.map Prod.snd) ((rows tb rcv).getD r []) = .ok (v, last) ∧ Word G.length v ∧
      ∃ c, IsCode nO 1 G fb v c ∧
        ∀ v' c', Word G.length v' → IsCode nO 1 G fb v' c' → dist nO c (block rcv tb r) ≤ dist nO c' (block rcv tb r) := by
    intro r hrr
    have hmem := mem_of_getD [] (rows tb rcv) (i := r) (by rw [rows_length]; exact hrr)
    have hw := rows_word tb hr _ hmem
    obtain ⟨v, last, s, e1, e2, e3, e4⟩ := viterbiBlock_single h hpos hf hm _ hw.2 (by rw [hw.1]; exact htb)
    have one : ∀ u : List Int, G.length * 1 = G.length ∧ (u.length = G.length → rows G.length u = [u]) := by
      intro u
      refine ⟨by omega, fun hu => ?_⟩
      have hG : 0 < G.length := List.length_pos_of_ne_nil h.1.1
      unfold rows
      rw [hu, Nat.div_self hG]
      simp [← hu]
    have hcw : ∀ s u, Word G.length u → cw G (fb.map Prod.fst) (fb.map Prod.snd) 0 s u
        = (trellisStep G (fb.map Prod.fst) (fb.map Prod.snd) s u).1 := by
      intro s u hu
      unfold cw
      rw [(one u).2 hu.1]
      simp [trellisWalk]
    have hb : ((rows tb rcv).getD r []).take nO = (List.range nO).map (block rcv tb r) := by
      apply ext_getD 0 (by rw [List.length_take, hw.1]; simp [hnt])
      intro i hi
      have hi' : i < nO := by simp at hi; omega
      rw [getD_map_lt _ 0 0 _ (by simpa using hi'), getD_of_lt 0 (List.range _) (by simpa using hi'), List.getElem_range]
      have := rows_getD 0 tb rcv r i hrr (by omega)
      simp only [List.getD_eq_getElem?_getD] at this
      simp only [List.getD_eq_getElem?_getD, List.getElem?_take, if_pos hi']
      exact this
    have hbw : Word nO (((rows tb rcv).getD r []).take nO) :=
      ⟨by rw [List.length_take, hw.1]; omega, fun x hx => hw.2 x (List.mem_of_mem_take hx)⟩
    have key : ∀ s u, Word (memSizes G).sum s → Word G.length u →
        hammingDist (((rows tb rcv).getD r []).take nO) (trellisStep G (fb.map Prod.fst) (fb.map Prod.snd) s u).1
          = dist nO (seq (cw G (fb.map Prod.fst) (fb.map Prod.snd) 0 s u)) (block rcv tb r) := by
      intro s u hs hu
      have hcode := (cw_isCode (n := 1) h hpos hf 0 s u hs (by rw [(one u).1]; exact hu)).2
      rw [← hcw s u hu, hammingDist_eq nO _ _ hbw (by simpa using hcode), dist_comm]
      congr 1
      apply dist_congr nO (fun _ _ => rfl)
      intro i hi
      unfold seq
      rw [hb, getD_map_lt _ 0 0 _ (by simpa using hi), getD_of_lt 0 (List.range _) (by simpa using hi), List.getElem_range]
    refine ⟨v, last, e1, e2, _, (cw_isCode (n := 1) h hpos hf 0 s v e3 (by rw [(one v).1]; exact e2)).1, ?_⟩
    intro v' c' hv' hc'
    obtain ⟨s', hs', hq⟩ := isCode_cw h hpos hf 0 v' c' (by rw [(one v').1]; exact hv') hc'
    have := e4 s' v' hs' hv'
    rw [key s v e3 e2, key s' v' hs' hv', dist_congr nO (fun i _ => hq i) (fun _ _ => rfl)] at this
    exact_mod_cast this
  choose! v last hl1 hl2 hl3 using hblk
  have hrows : rows tb rcv = (List.range (rcv.length / tb)).map (fun r => (rows tb rcv).getD r []) := by
    apply ext_getD [] (by simp [rows_length])
    intro r hr
    rw [rows_length] at hr
    rw [getD_map_lt _ 0 [] _ (by simpa using hr), getD_of_lt 0 (List.range _) (by simpa using hr), List.getElem_range]
  have hmap : (rows tb rcv).mapM (viterbiBlock G (fb.map Prod.fst) (fb.map Prod.snd))
      = .ok ((List.range (rcv.length / tb)).map (fun r => (v r, last r))) := by
    rw [hrows, List.mapM_map]
    apply mapM_okP
    intro r hr
    exact hl1 r (List.mem_range.1 hr)
  have hpos' : 0 < rcv.length / tb := Nat.div_pos hlen (by omega)
  obtain ⟨N, hN⟩ : ∃ N, rcv.length / tb = N + 1 := ⟨rcv.length / tb - 1, by omega⟩
  refine ⟨v, last N, ?_, fun r hr => ⟨hl2 r hr, hl3 r hr⟩⟩
  rw [decodingConvViterbi_eq h hpos hf hr tb (by omega) _ hmap (v N, last N) (by
    rw [hN, List.range_succ]; simp)]
  rw [List.map_map]
  rfl

/-- A pattern shorter than one block raises UnboundLocalError. -/
theorem C39_no_block {nO tb : ℕ} {G : ConvG} {fb : Fb} (h : GoodCode nO G fb) (hpos : 0 < nO)
    (hf : Fits nO G fb) (htb : 0 < tb) (rcv : List Int) (hr : IsBinary rcv) (hlen : rcv.length < tb) :
    decodingConvViterbi rcv G tb (fb.map Prod.fst) (fb.map Prod.snd) = .error .unboundLocal := by
  have hG : 0 < G.length := List.length_pos_of_ne_nil h.1.1
  unfold decodingConvViterbi
  rw [goodCode_check h hr]
  simp only [bind, Except.bind]
  rw [if_neg (by omega), goodG_nOut h.1, if_neg (by omega), trellisCheck_ok (goodCode_fits h hpos hf)]
  have : rows tb rcv = [] := by
    unfold rows
    rw [Nat.div_eq_of_lt hlen]
    rfl
  rw [this]
  rfl

example : decodingConvViterbi [1, 0, 0, 1] ex75 2 = .ok ([0, 0], 1) := by decide +kernel

end Verif
