import Verif.Lemmas.SurvivorFix
import Verif.Lemmas.SurvivorMl

/-!
# Convolutional decoders with error probability, survivors of the Viterbi decoder (C97)
-/

namespace Verif
open Spec

theorem decodingConvViterbiErr_eq {nO : ℕ} {G : ConvG} {fb : Fb} (h : GoodCode nO G fb) (hpos : 0 < nO) (hf : Fits nO G fb)
    {p : List Int} (hp : IsBinary p) (tb : ℕ) (htb : 0 < tb) (bl : List (List Int × Nat × ℚ))
    (hb : (rows tb p).mapM (viterbiBlockErr G (fb.map Prod.fst) (fb.map Prod.snd)) = .ok bl) (x : List Int × Nat × ℚ)
    (hx : bl.getLast? = some x) :
    decodingConvViterbiErr p G tb (fb.map Prod.fst) (fb.map Prod.snd) = .ok ((bl.map (·.1)).flatten, x.2.1, bl.map (·.2.2)) := by
  have hG : 0 < G.length := List.length_pos_of_ne_nil h.1.1
  unfold decodingConvViterbiErr
  rw [goodCode_check h hp]
  simp only [bind, Except.bind]
  rw [if_neg (by omega), goodG_nOut h.1, if_neg (by omega), trellisCheck_ok (goodCode_fits h hpos hf)]
  simp only []
  rw [hb]
  simp only []
  rw [hx]
  rfl

/-- **C97.** What the Viterbi decoder returns for received bits of any kind. Every block is decoded to the data of a run that
survives the selection by the last transition; among the surviving runs it is the one closest to the block, of several the one
with the smallest number of the end state, which is the returned `last_state` (of the last block). The data is the same with
`error_prob=True`, and the reported value is 1 over the number of end states with the least distance, 0 if there is only one. -/
theorem C97_survivors_partial {nO tb : ℕ} {G : ConvG} {fb : Fb} (h : GoodCode nO G fb) (hpos : 0 < nO) (hf : Fits nO G fb)
    (hm : HasMemory nO G) (hid : Identified nO G fb) (htb : nO ≤ tb) (rcv : List Int) (hr : IsBinary rcv) (hlen : tb ≤ rcv.length) :
    ∃ (v : ℕ → List Int) (w : ℕ → ℕ → ℤ → Int) (last : ℕ → ℕ) (p : ℕ → ℚ),
      decodingConvViterbiErr rcv G tb (fb.map Prod.fst) (fb.map Prod.snd)
        = .ok (((List.range (rcv.length / tb)).map v).flatten, last (rcv.length / tb - 1), (List.range (rcv.length / tb)).map p) ∧
      decodingConvViterbi rcv G tb (fb.map Prod.fst) (fb.map Prod.snd)
        = .ok (((List.range (rcv.length / tb)).map v).flatten, last (rcv.length / tb - 1)) ∧
      ∀ q < rcv.length / tb, Word (G.length * (tb / nO)) (v q) ∧
        IsSurvivor nO (tb / nO) G fb (block rcv tb q) (v q) (w q) ∧ wordNum (cellsAt G (w q) (tb / nO : ℕ)) = last q ∧
        (∀ v' w', Word (G.length * (tb / nO)) v' → IsSurvivor nO (tb / nO) G fb (block rcv tb q) v' w' →
          runDist nO (tb / nO) G fb (v q) (w q) (block rcv tb q) ≤ runDist nO (tb / nO) G fb v' w' (block rcv tb q) ∧
          (runDist nO (tb / nO) G fb v' w' (block rcv tb q) = runDist nO (tb / nO) G fb (v q) (w q) (block rcv tb q) →
            (last q : ℤ) ≤ wordNum (cellsAt G w' (tb / nO : ℕ)))) ∧
        p q = if 1 < (endsAt nO (tb / nO) G fb (block rcv tb q) (runDist nO (tb / nO) G fb (v q) (w q) (block rcv tb q))).ncard then
          1 / ((endsAt nO (tb / nO) G fb (block rcv tb q) (runDist nO (tb / nO) G fb (v q) (w q) (block rcv tb q))).ncard : ℚ)
          else 0 := by
  have hdiv : 0 < tb / nO := Nat.div_pos htb hpos
  have hword : ∀ q, q < rcv.length / tb → Word tb ((rows tb rcv).getD q []) := fun q hq =>
    rows_word tb hr _ (mem_of_getD [] (rows tb rcv) (i := q) (by rw [rows_length]; exact hq))
  have hblk := fun (q : ℕ) (hq : q < rcv.length / tb) => block_survivors h hpos hf hm hid hdiv ((rows tb rcv).getD q [])
    (hword q hq).2 (by rw [(hword q hq).1]) (block rcv tb q) (fun i hi => by
      rw [rows_getD 0 tb rcv q i hq (lt_of_lt_of_le hi (Nat.div_mul_le_self tb nO))]
      rfl)
  choose! v w last p h1 h2 h3 using hblk
  have hrows : rows tb rcv = (List.range (rcv.length / tb)).map (fun r => (rows tb rcv).getD r []) := by
    apply ext_getD [] (by simp [rows_length])
    intro r hr
    rw [rows_length] at hr
    rw [map_range_getD _ _ _ _ hr]
  have hmap1 : (rows tb rcv).mapM (viterbiBlockErr G (fb.map Prod.fst) (fb.map Prod.snd))
      = .ok ((List.range (rcv.length / tb)).map (fun r => (v r, last r, p r))) := by
    rw [hrows, List.mapM_map]
    apply mapM_okP
    intro r hr
    exact h1 r (List.mem_range.1 hr)
  have hmap2 : (rows tb rcv).mapM (viterbiBlock G (fb.map Prod.fst) (fb.map Prod.snd))
      = .ok ((List.range (rcv.length / tb)).map (fun r => (v r, last r))) := by
    rw [hrows, List.mapM_map]
    apply mapM_okP
    intro r hr
    exact h2 r (List.mem_range.1 hr)
  have hpos' : 0 < rcv.length / tb := Nat.div_pos hlen (by omega)
  obtain ⟨N, hN⟩ : ∃ N, rcv.length / tb = N + 1 := ⟨rcv.length / tb - 1, by omega⟩
  refine ⟨v, w, last, p, ?_, ?_, h3⟩
  · rw [decodingConvViterbiErr_eq h hpos hf hr tb (by omega) _ hmap1 (v N, last N, p N) (by
      rw [hN, List.range_succ]; simp)]
    rw [List.map_map, List.map_map, hN]
    rfl
  · rw [decodingConvViterbi_eq h hpos hf hr tb (by omega) _ hmap2 (v N, last N) (by
      rw [hN, List.range_succ]; simp)]
    rw [List.map_map, hN]
    rfl

/-- **C97.** For every received block and every register contents there is a surviving run that ends there, and all runs that do
have the same data and the same distance: the selection keeps exactly one path per state. -/
theorem C97_one_survivor_per_state {nO n : ℕ} {G : ConvG} {fb : Fb} (h : GoodCode nO G fb) (hpos : 0 < nO) (hf : Fits nO G fb)
    (hm : HasMemory nO G) (hid : Identified nO G fb) (hn : 0 < n) (r : ℕ → Int) (hr : ∀ i < n * nO, r i = 0 ∨ r i = 1)
    (e : List Int) (he : Word (∑ i ∈ Finset.range G.length, ((tf G i 0).length - 1)) e) :
    (∃ v w, Word (G.length * n) v ∧ IsSurvivor nO n G fb r v w ∧ cellsAt G w n = e) ∧
    ∀ v v' w w', Word (G.length * n) v → Word (G.length * n) v' → IsSurvivor nO n G fb r v w → IsSurvivor nO n G fb r v' w' →
      cellsAt G w n = e → cellsAt G w' n = e → v = v' ∧ runDist nO n G fb v w r = runDist nO n G fb v' w' r := by
  have hsum : (memSizes G).sum = ∑ i ∈ Finset.range G.length, ((tf G i 0).length - 1) := by
    rw [memSizes_eq, ← List.sum_toFinset _ List.nodup_range, List.toFinset_range]
    rfl
  rw [← hsum] at he
  refine ⟨?_, fun v v' w w' hv hv' hs hs' h1 h2 => survivor_unique h hpos hf hm hr hv hv' hs hs' (h1.trans h2.symm)⟩
  obtain ⟨L, _, _, hS⟩ := forward_greedy (goodG_nOut h.1) (goodTrellis h hpos hf hm) (reached h hpos hf hm hid)
    ((List.range n).map (chunkOf nO r)) (by simp; omega) (by
      intro c hc
      rw [List.mem_map] at hc
      obtain ⟨t, ht, rfl⟩ := hc
      exact chunkOf_word (List.mem_range.1 ht) hr)
  obtain ⟨jj, hjj, e1⟩ := state_exists e he
  obtain ⟨s, us, hp, _⟩ := hS jj hjj
  obtain ⟨w, e2, e3, e4, _⟩ := survivor_of_greedy h hpos hf hm hr hp
  exact ⟨us.flatten, w, e2, e3, by rw [cellsAt_eq, e4, e1]⟩

/-- **C97** (partial: the code must have memory and distinguishable transitions, see `C97_negative_bits`). Errors the Viterbi
decoder corrects: if in every step two transitions into the same register contents differ in more than twice the number of errors
of that step, two runs that separate for good with `n - k` steps to go differ in more than twice the errors of those steps, and two
runs that never meet differ in more than twice all errors of the block, then the block is decoded to the sent data, `last_state` is
the state of the sender and the reported error probability is 0. -/
theorem C97_corrects_partial {nO tb : ℕ} {G : ConvG} {fb : Fb} (h : GoodCode nO G fb) (hpos : 0 < nO) (hf : Fits nO G fb)
    (hm : HasMemory nO G) (hid : Identified nO G fb) (htb : nO ≤ tb) (rcv : List Int) (hr : IsBinary rcv) (hlen : tb ≤ rcv.length)
    (v : ℕ → List Int) (w : ℕ → ℕ → ℤ → Int)
    (hv : ∀ q < rcv.length / tb, Word (G.length * (tb / nO)) (v q) ∧ IsRun G fb (v q) (w q) ∧
      (∀ t < tb / nO, MergeDist nO G fb (2 * stepDist nO G fb (v q) (w q) t (block rcv tb q) t + 1)) ∧
      (∀ k < tb / nO, DivergeDist nO G fb (tb / nO - k)
        (2 * ∑ t ∈ Finset.Ico k (tb / nO), stepDist nO G fb (v q) (w q) t (block rcv tb q) t + 1)) ∧
      ApartDist nO G fb (tb / nO) (2 * runDist nO (tb / nO) G fb (v q) (w q) (block rcv tb q) + 1)) :
    ∃ last : ℕ, decodingConvViterbiErr rcv G tb (fb.map Prod.fst) (fb.map Prod.snd)
        = .ok (((List.range (rcv.length / tb)).map v).flatten, last, List.replicate (rcv.length / tb) 0) ∧
      decodingConvViterbi rcv G tb (fb.map Prod.fst) (fb.map Prod.snd)
        = .ok (((List.range (rcv.length / tb)).map v).flatten, last) ∧
      (last : ℤ) = wordNum (cellsAt G (w (rcv.length / tb - 1)) (tb / nO : ℕ)) := by
  obtain ⟨v', w', last, p, e1, e2, e3⟩ := C97_survivors_partial h hpos hf hm hid htb rcv hr hlen
  have hpos' : 0 < rcv.length / tb := Nat.div_pos hlen (by omega)
  have key : ∀ q < rcv.length / tb, v' q = v q ∧ p q = 0 ∧ (last q : ℤ) = wordNum (cellsAt G (w q) (tb / nO : ℕ)) := by
    intro q hq
    obtain ⟨a1, a2, a3, a4, a5⟩ := e3 q hq
    obtain ⟨b1, b2, b3, b4, b5⟩ := hv q hq
    have hs := sent_survives h hpos hf hm b1.2 b2 b3
    have hrb : ∀ i < tb / nO * nO, block rcv tb q i = 0 ∨ block rcv tb q i = 1 := fun i _ => binary_getD hr _
    have lose : ∀ x y, Word (G.length * (tb / nO)) x → IsSurvivor nO (tb / nO) G fb (block rcv tb q) x y →
        runDist nO (tb / nO) G fb x y (block rcv tb q) ≤ runDist nO (tb / nO) G fb (v q) (w q) (block rcv tb q) →
        cellsAt G (w q) (tb / nO : ℕ) = cellsAt G y (tb / nO : ℕ) := by
      intro x y hx hy hle
      by_contra hne
      have := others_lose b1 hx hs hy b4 b5 hne
      omega
    have hle := (a4 (v q) (w q) b1 hs).1
    have hc := lose _ _ a1 a2 hle
    obtain ⟨u1, u2⟩ := survivor_unique h hpos hf hm hrb b1 a1 hs a2 hc
    refine ⟨u1.symm, ?_, by rw [hc, a3]⟩
    rw [a5, if_neg]
    have hsub : endsAt nO (tb / nO) G fb (block rcv tb q) (runDist nO (tb / nO) G fb (v' q) (w' q) (block rcv tb q))
        ⊆ {(last q : ℤ)} := by
      rintro x ⟨y, z, hy, hz, hd, rfl⟩
      have := lose y z hy hz (by rw [hd, u2])
      rw [Set.mem_singleton_iff, ← this, hc, a3]
    have := Set.ncard_le_ncard hsub (Set.finite_singleton _)
    rw [Set.ncard_singleton] at this
    omega
  have hmapv : (List.range (rcv.length / tb)).map v' = (List.range (rcv.length / tb)).map v :=
    List.map_congr_left (fun q hq => (key q (List.mem_range.1 hq)).1)
  have hmapp : (List.range (rcv.length / tb)).map p = List.replicate (rcv.length / tb) 0 := by
    rw [List.map_congr_left (g := fun _ => (0 : ℚ)) (fun q hq => (key q (List.mem_range.1 hq)).2.1)]
    simp
  rw [hmapv, hmapp] at e1
  rw [hmapv] at e2
  exact ⟨_, e1, e2, (key _ (by omega)).2.2⟩

theorem sum_stepDist_le {nO n : ℕ} {G : ConvG} {fb : Fb} {v : List Int} {w : ℕ → ℤ → Int} {r : ℕ → Int} (k : ℕ) :
    ∑ t ∈ Finset.Ico k n, stepDist nO G fb v w t r t ≤ runDist nO n G fb v w r := by
  unfold runDist
  apply Finset.sum_le_sum_of_subset
  intro t ht
  rw [Finset.mem_Ico] at ht
  exact Finset.mem_range.2 ht.2

theorem divergeDist_of_one {nO m D : ℕ} {G : ConvG} {fb : Fb} (hm : 0 < m) (h1 : DivergeDist nO G fb 1 D) :
    DivergeDist nO G fb m D := by
  intro v v' w w' hv hv' hw hw' he hne
  obtain ⟨u, wt, hu, _, hr, c0, c1, hb⟩ := one_run hv.2 hw 0
  obtain ⟨u', wt', hu', _, hr', c0', c1', hb'⟩ := one_run hv'.2 hw' 0
  have := h1 u u' wt wt' (by rw [Nat.mul_one]; exact hu) (by rw [Nat.mul_one]; exact hu') hr hr'
    (by rw [c0, c0']; exact he) (fun t ht => by
      have : t = 0 := by omega
      subst this
      have h2 := hne 0 hm
      rw [show (((0:ℕ):ℤ) + 1) = 1 by norm_num, c1, c1']
      exact h2)
  rw [Finset.sum_range_one, hb, hb'] at this
  obtain ⟨k, rfl⟩ : ∃ k, m = k + 1 := ⟨m - 1, by omega⟩
  rw [Finset.sum_range_succ']
  omega

theorem divergeDist_mono {nO m D D' : ℕ} {G : ConvG} {fb : Fb} (hD : D' ≤ D) (h1 : DivergeDist nO G fb m D) :
    DivergeDist nO G fb m D' := fun v v' w w' a b c d e f => hD.trans (h1 v v' w w' a b c d e f)

/-- two runs that stay apart longer differ at least as much -/
theorem apartDist_mono {nO m n D : ℕ} {G : ConvG} {fb : Fb} (hmn : m ≤ n) (h1 : ApartDist nO G fb m D) : ApartDist nO G fb n D := by
  intro v v' w w' hv hv' hw hw' hne
  have hk : n - m ≤ n := by omega
  have hnm : n - (n - m) = m := by omega
  have d1 := drop_word hk hv
  have d2 := drop_word hk hv'
  rw [hnm] at d1 d2
  have := h1 _ _ (shiftW w (n - m)) (shiftW w' (n - m)) d1 d2 (shift_run hv.2 hw _ (inBit_drop v _))
    (shift_run hv'.2 hw' _ (inBit_drop v' _)) (fun t ht => by
      rw [shift_cells, shift_cells]
      have := hne (t + (n - m)) (by omega)
      rw [show (t : ℤ) + 1 + ((n - m : ℕ) : ℤ) = ((t + (n - m) : ℕ) : ℤ) + 1 by push_cast; ring]
      exact this)
  refine this.trans ?_
  have e : ∑ t ∈ Finset.range m, Spec.dist nO (runBit G fb (v.drop ((n - m) * G.length)) (shiftW w (n - m)) t)
        (runBit G fb (v'.drop ((n - m) * G.length)) (shiftW w' (n - m)) t)
      = ∑ t ∈ Finset.Ico (n - m) n, Spec.dist nO (runBit G fb v w t) (runBit G fb v' w' t) := by
    rw [Finset.sum_Ico_eq_sum_range, hnm]
    refine Finset.sum_congr rfl (fun t _ => ?_)
    apply dist_congr
    · intro j _
      rw [shift_bit _ t j (inBit_drop v _), Nat.add_comm]
    · intro j _
      rw [shift_bit _ t j (inBit_drop v' _), Nat.add_comm]
  rw [e]
  apply Finset.sum_le_sum_of_subset
  intro t ht
  rw [Finset.mem_Ico] at ht
  exact Finset.mem_range.2 ht.2

/-- **C97** (partial: as above). The encoded stream with at most `E` wrong bits in every block of `n` steps is decoded to the data,
beyond the end of `p` to the zeros the encoder padded with, with reported error probability 0 for every block. -/
theorem C97_stream_partial {nO n E : ℕ} {G : ConvG} {fb : Fb} (h : GoodCode nO G fb) (hd : DirectLong nO G fb) (hpos : 0 < nO)
    (hf : Fits nO G fb) (hm : HasMemory nO G) (hid : Identified nO G fb) (hn : 0 < n)
    (hmerge : MergeDist nO G fb (2 * E + 1)) (hdiv : DivergeDist nO G fb 1 (2 * E + 1)) (hapart : ApartDist nO G fb n (2 * E + 1))
    (p rcv c : List Int) (hp : IsBinary p) (hl : n ≤ (p.length + G.length - 1) / G.length)
    (hc : codingConv id p G (fb.map Prod.fst) (fb.map Prod.snd) = .ok c) (hr : IsBinary rcv) (hlen : rcv.length = c.length)
    (herr : ∀ q, q < c.length / (n * nO) → dist (n * nO) (block c (n * nO) q) (block rcv (n * nO) q) ≤ E) :
    ∃ out last, decodingConvViterbiErr rcv G (n * nO) (fb.map Prod.fst) (fb.map Prod.snd)
        = .ok (out, last, List.replicate ((p.length + G.length - 1) / G.length / n) 0) ∧
      decodingConvViterbi rcv G (n * nO) (fb.map Prod.fst) (fb.map Prod.snd) = .ok (out, last) ∧
      out.length = (p.length + G.length - 1) / G.length / n * (G.length * n) ∧
      ∀ q, q < out.length → out.getD q 0 = p.getD q 0 := by
  have hG : 0 < G.length := List.length_pos_of_ne_nil h.1.1
  have hdivn : n * nO / nO = n := Nat.mul_div_cancel n hpos
  have hK : 0 < G.length * n := Nat.mul_pos hG hn
  obtain ⟨c', e1, e2, e3, e4⟩ := stream_block (n := n) h hd hpos hf hn p hp
  have : c' = c := by rw [hc] at e1; exact (Except.ok.inj e1).symm
  subst this
  have e2' : c'.length = (p.length + G.length - 1) / G.length * nO := e2
  have hR : c'.length / (n * nO) = (p.length + G.length - 1) / G.length / n := by
    rw [e2', Nat.mul_div_mul_right _ _ hpos]
  set N := (p.length + G.length - 1) / G.length / n with hN
  set v := fun r => (rows (G.length * n) (padTo G.length p)).getD r [] with hv
  have hrun : ∀ q, q < N → ∃ w, Word (G.length * n) (v q) ∧ IsRun G fb (v q) w ∧
      runDist nO n G fb (v q) w (block rcv (n * nO) q) ≤ E := by
    intro q hq
    obtain ⟨s, hs, hvw, hblk⟩ := e4 q hq
    obtain ⟨w, hw, hst⟩ := state_registers h (v q) s hs
    refine ⟨w, hvw, hw, le_trans (le_of_eq ?_) (herr q (by rw [hR]; exact hq))⟩
    obtain ⟨_, h2, _⟩ := cw_getD h hpos hf 0 (v q) hvw w (fun i hi => (hw i hi).1)
    have hbit : ∀ t j, t < n → j < nO → block c' (n * nO) q (t * nO + j) = runBit G fb (v q) w t j := by
      intro t j ht hj
      have hidx : t * nO + j < n * nO := by
        calc t * nO + j < t * nO + nO := by omega
          _ = (t + 1) * nO := by ring
          _ ≤ n * nO := Nat.mul_le_mul_right _ ht
      have h3 := h2 t j ht hj
      rw [hst] at h3
      unfold cw at h3
      rw [List.replicate_zero, List.append_nil, ← hblk, rows_getD 0 _ _ q _ (by rw [hR]; exact hq) hidx] at h3
      exact h3
    rw [dist_blocks n nO]
    unfold runDist stepDist
    refine Finset.sum_congr rfl (fun t ht => ?_)
    rw [Finset.mem_range] at ht
    apply dist_congr
    · intro j hj
      exact (hbit t j ht hj).symm
    · intro j _
      rfl
  choose! w hw1 hw2 hw3 using hrun
  have hNpos : 0 < N := Nat.div_pos hl hn
  have hR' : rcv.length / (n * nO) = N := by rw [hlen, hR]
  have hstep : ∀ (q t : ℕ), t < n → stepDist nO G fb (v q) (w q) t (block rcv (n * nO) q) t
      ≤ runDist nO n G fb (v q) (w q) (block rcv (n * nO) q) := by
    intro q t ht
    unfold runDist
    exact Finset.single_le_sum (f := fun t => stepDist nO G fb (v q) (w q) t (block rcv (n * nO) q) t) (fun _ _ => Nat.zero_le _)
      (Finset.mem_range.2 ht)
  obtain ⟨last, h1, h1', _⟩ := C97_corrects_partial (tb := n * nO) h hpos hf hm hid (Nat.le_mul_of_pos_left nO hn) rcv hr
    (by
      rw [hlen, e2']
      exact Nat.mul_le_mul_right _ hl) v w (by
      rw [hdivn, hR']
      intro q hq
      have hq3 := hw3 q hq
      refine ⟨hw1 q hq, hw2 q hq, fun t ht => ?_, fun k hk => ?_, ?_⟩
      · intro u u' x x' a b c d e f
        have := hmerge u u' x x' a b c d e f
        have := hstep q t ht
        omega
      · refine divergeDist_mono ?_ (divergeDist_of_one (by omega) hdiv)
        have := sum_stepDist_le (nO := nO) (n := n) (G := G) (fb := fb) (v := v q) (w := w q) (r := block rcv (n * nO) q) k
        omega
      · intro x x' y y' a b c d e
        have := hapart x x' y y' a b c d e
        omega)
  rw [hR'] at h1 h1'
  have huni : ∀ row ∈ (List.range N).map v, row.length = G.length * n := by
    intro row hrow
    rw [List.mem_map] at hrow
    obtain ⟨r, hr, rfl⟩ := hrow
    exact (hw1 r (List.mem_range.1 hr)).1
  have hol : ((List.range N).map v).flatten.length = N * (G.length * n) := by
    rw [flatten_uniform_length _ _ huni]; simp
  refine ⟨_, last, h1, h1', hol, fun q hq => ?_⟩
  rw [hol] at hq
  have hj : q % (G.length * n) < G.length * n := Nat.mod_lt _ hK
  have hij : q / (G.length * n) * (G.length * n) + q % (G.length * n) = q := by
    rw [Nat.mul_comm]; exact Nat.div_add_mod q _
  have hrr : q / (G.length * n) < N := Nat.div_lt_of_lt_mul (by rwa [Nat.mul_comm])
  conv_lhs => rw [← hij]
  rw [flatten_getD 0 _ _ huni _ _ (by simpa using hrr) hj, map_range_getD _ _ _ _ hrr, hv]
  simp only []
  rw [rows_getD 0 _ _ _ _ (by
    rw [padTo_length _ hG, Nat.mul_comm (nBlocks _ _), Nat.mul_div_mul_left _ _ hG]; exact hrr) hj, hij, padTo_getD]

/-! ## exhaustive decoder -/

theorem pairsAt_congr {nO n tb d : ℕ} {G : ConvG} {fb : Fb} {b b' : ℕ → Int} (hb : ∀ i < tb, b i = b' i) :
    pairsAt nO n tb G fb b d = pairsAt nO n tb G fb b' d := by
  unfold pairsAt
  ext x
  simp only [Set.mem_ofPred_eq]
  constructor <;> rintro ⟨h1, c, h2, h3⟩ <;> refine ⟨h1, c, h2, ?_⟩
  · rw [← h3]; exact dist_congr tb (fun _ _ => rfl) (fun i hi => (hb i hi).symm)
  · rw [← h3]; exact dist_congr tb (fun _ _ => rfl) hb

/-- **C97** (partial: the documented count of codewords is a count of pairs, see `C97_negative_count`). `error_prob=True` returns the
same data. The caller's array is overwritten: every block becomes an output for its decoded data that is nearest to what was received,
the bits behind the last complete block stay. The reported value of a block is 0 if nothing had to be changed, and otherwise 1 over the
number of pairs of register contents and data whose output is nearest. -/
theorem C97_ml_error_prob_partial {nO tb : ℕ} {G : ConvG} {fb : Fb} (h : GoodCode nO G fb) (hpos : 0 < nO) (hf : Fits nO G fb)
    (htb : nO ≤ tb) (rcv : List Int) (hr : IsBinary rcv) :
    ∃ out pe after, decodingConvMl rcv G tb (fb.map Prod.fst) (fb.map Prod.snd) = .ok out ∧
      decodingConvMlErr rcv G tb (fb.map Prod.fst) (fb.map Prod.snd) = .ok (out, pe, after) ∧
      pe.length = rcv.length / tb ∧ after.length = rcv.length ∧
      (∀ i, rcv.length / tb * tb ≤ i → after.getD i 0 = rcv.getD i 0) ∧
      ∀ q < rcv.length / tb,
        (∃ s c, Word (G.length * (tb / nO)) ((rows (G.length * (tb / nO)) out).getD q []) ∧
          IsCodeFrom nO (tb / nO) G fb s ((rows (G.length * (tb / nO)) out).getD q []) c ∧ ∀ i < tb, c i = block after tb q i) ∧
        (∀ s v c, Word (G.length * (tb / nO)) v → IsCodeFrom nO (tb / nO) G fb s v c →
          dist tb (block after tb q) (block rcv tb q) ≤ dist tb c (block rcv tb q)) ∧
        pe.getD q 0 = if dist tb (block after tb q) (block rcv tb q) = 0 then 0 else
          1 / ((pairsAt nO (tb / nO) tb G fb (block rcv tb q) (dist tb (block after tb q) (block rcv tb q))).ncard : ℚ) := by
  have hG : 0 < G.length := List.length_pos_of_ne_nil h.1.1
  have hdiv : 0 < tb / nO := Nat.div_pos htb hpos
  have hK : 0 < G.length * (tb / nO) := Nat.mul_pos hG hdiv
  have htb0 : 0 < tb := by omega
  set F := mlBlockErr (tile (getBinPerm (G.length * (tb / nOut G))) (trellisStates G).length)
      (convCodebook G (fb.map Prod.fst) (fb.map Prod.snd) tb) with hF
  have hrow := rows_word tb hr
  have hML : decodingConvMl rcv G tb (fb.map Prod.fst) (fb.map Prod.snd) = .ok (((rows tb rcv).map F).map (·.1)).flatten := by
    rw [decodingConvMl_eq h hpos hf hr tb htb0]
    unfold mlDecoding
    rw [List.map_map]
    refine congrArg Except.ok ?_
    congr 1
    exact List.map_congr_left (fun b hb => ((ml_block h hpos hf tb b (hrow b hb)).1).symm)
  have hE : decodingConvMlErr rcv G tb (fb.map Prod.fst) (fb.map Prod.snd)
      = .ok ((((rows tb rcv).map F).map (·.1)).flatten, ((rows tb rcv).map F).map (·.2.1),
        (((rows tb rcv).map F).map (·.2.2)).flatten ++ rcv.drop (rcv.length / tb * tb)) := by
    unfold decodingConvMlErr
    rw [goodCode_check h hr]
    simp only [bind, Except.bind]
    rw [if_neg (by omega), goodG_nOut h.1, if_neg (by omega), trellisCheck_ok (goodCode_fits h hpos hf)]
    simp only []
    rw [if_neg (by omega)]
    rw [hF, goodG_nOut h.1]
    rfl
  have hu1 : ∀ x ∈ ((rows tb rcv).map F).map (·.1), x.length = G.length * (tb / nO) := by
    intro x hx
    simp only [List.mem_map] at hx
    obtain ⟨y, ⟨b, hb, rfl⟩, rfl⟩ := hx
    exact ((ml_block h hpos hf tb b (hrow b hb)).2.2.1).1
  have hu2 : ∀ x ∈ ((rows tb rcv).map F).map (·.2.2), x.length = tb := by
    intro x hx
    simp only [List.mem_map] at hx
    obtain ⟨y, ⟨b, hb, rfl⟩, rfl⟩ := hx
    exact ((ml_block h hpos hf tb b (hrow b hb)).2.1).1
  have hfl : (((rows tb rcv).map F).map (·.2.2)).flatten.length = rcv.length / tb * tb := by
    rw [flatten_uniform_length _ _ hu2]
    simp [rows_length]
  have hle : rcv.length / tb * tb ≤ rcv.length := Nat.div_mul_le_self _ _
  refine ⟨_, _, _, hML, hE, by simp [rows_length], by rw [List.length_append, hfl, List.length_drop]; omega, ?_, ?_⟩
  · intro i hi
    simp only [List.getD_eq_getElem?_getD]
    rw [List.getElem?_append_right (by rw [hfl]; exact hi), hfl, List.getElem?_drop]
    congr 2
    omega
  · intro q hq
    have hlt : q < (rows tb rcv).length := by rw [rows_length]; exact hq
    set b := (rows tb rcv).getD q [] with hb
    have hbw := hrow b (mem_of_getD [] _ hlt)
    obtain ⟨_, m2, m3, ⟨s, m4⟩, m5, m6⟩ := ml_block h hpos hf tb b hbw
    rw [← hF] at m2 m3 m4 m5 m6
    have hbb : ∀ i < tb, seq b i = block rcv tb q i := fun i hi => rows_getD 0 tb rcv q i hq hi
    have hab : ∀ i < tb, seq (F b).2.2 i
        = block ((((rows tb rcv).map F).map (·.2.2)).flatten ++ rcv.drop (rcv.length / tb * tb)) tb q i := by
      intro i hi
      have hidx : q * tb + i < rcv.length / tb * tb := by
        calc q * tb + i < q * tb + tb := by omega
          _ = (q + 1) * tb := by ring
          _ ≤ _ := Nat.mul_le_mul_right _ hq
      have e1 : block ((((rows tb rcv).map F).map (·.2.2)).flatten ++ rcv.drop (rcv.length / tb * tb)) tb q i
          = (((rows tb rcv).map F).map (·.2.2)).flatten.getD (q * tb + i) 0 := by
        unfold block
        simp only [List.getD_eq_getElem?_getD]
        rw [List.getElem?_append_left (by rw [hfl]; exact hidx)]
      rw [e1, flatten_getD 0 tb _ hu2 q i (by simpa using hlt) hi, List.map_map, getD_map_lt _ [] [] _ hlt]
      rfl
    have hout : (rows (G.length * (tb / nO)) (((rows tb rcv).map F).map (·.1)).flatten).getD q [] = (F b).1 := by
      rw [rows_flatten _ hK _ hu1, List.map_map, getD_map_lt _ [] [] _ hlt]
      rfl
    have hpe : (((rows tb rcv).map F).map (·.2.1)).getD q 0 = (F b).2.1 := by
      rw [List.map_map, getD_map_lt _ [] 0 _ hlt]
      rfl
    have hD := dist_congr tb hab hbb
    refine ⟨⟨s, _, by rw [hout]; exact m3, by rw [hout]; exact m4, hab⟩, fun s v c hv hc => ?_, ?_⟩
    · have := m5 s v c hv hc
      rwa [hD, dist_congr tb (fun _ _ => rfl) hbb] at this
    · rw [hpe, m6, hD, pairsAt_congr hbb]

/-- **C97** *violated*: the value is documented as 1 over the number of codewords with minimal distance, but register contents and
data with the same output are counted apart. The two codewords of one step of this code are both at distance 1 from the block; the
decoder reports 1/4. -/
theorem C97_negative_count :
    GoodCode 2 [[[1, 1], [1, 1]]] none ∧
    decodingConvMlErr [0, 1] [[[1, 1], [1, 1]]] 2 = .ok ([0], [1 / 4], [0, 0]) ∧
    ∀ v c, Word 1 v → IsCode 2 1 [[[1, 1], [1, 1]]] none v c →
      (c 0 = 0 ∧ c 1 = 0 ∨ c 0 = 1 ∧ c 1 = 1) ∧ dist 2 c (seq [0, 1]) = 1 := by
  refine ⟨⟨goodG_of (by decide) (by decide), fun l u h => by cases h⟩, by decide +kernel, ?_⟩
  intro v c hv hc
  obtain ⟨w, _, h2, _⟩ := hc
  have h0 := h2 0 0 (by decide) (by decide)
  have h1 := h2 0 1 (by decide) (by decide)
  have e : c 0 = c 1 := by
    simp only [Nat.zero_mul, Nat.zero_add] at h0 h1
    rw [h0, h1]
    simp [encBit, tf, isDirect]
  have hb : c 0 = 0 ∨ c 0 = 1 := by
    simp only [Nat.zero_mul, Nat.zero_add] at h0
    rw [h0]
    exact encBit_bin _ _ _ _ _ _ _
  refine ⟨by omega, ?_⟩
  have r0 : Finset.range 2 = {0, 1} := by decide
  unfold Spec.dist
  rw [r0, Finset.filter_insert, Finset.filter_singleton]
  rcases hb with hb | hb
  · have : c 1 = 0 := by omega
    simp [hb, this, seq]
  · have : c 1 = 1 := by omega
    simp [hb, this, seq]

/-- **C97** *violated*: without the conditions on the code the decoder can return values that are no bits. Entries of the transition
tables without transition are -1 and take part in the search; here one of them is nearer than the transitions that exist. -/
theorem C97_negative_bits :
    GoodCode 3 [[[1, 1, 1, 1, 0], [0, 1, 1, 1, 0], [1, 1, 0, 0, 0]]] none ∧
    HasMemory 3 [[[1, 1, 1, 1, 0], [0, 1, 1, 1, 0], [1, 1, 0, 0, 0]]] ∧
    decodingConvViterbi [0, 0, 0, 1, 1, 0, 1, 1, 0] [[[1, 1, 1, 1, 0], [0, 1, 1, 1, 0], [1, 1, 0, 0, 0]]] 9
      = .ok ([-1, 0, 0], 1) := by
  refine ⟨⟨goodG_of (by decide) (by decide), fun l u h => by cases h⟩, ?_, by decide +kernel⟩
  intro i j hi hj
  have : i = 0 := by simp at hi; omega
  subst this
  have : j = 0 ∨ j = 1 ∨ j = 2 := by omega
  rcases this with rfl | rfl | rfl <;> decide

/-! ## a code that meets the conditions -/

/-- rate 1/4 code with one memory cell -/
def exM : ConvG := [[[1, 1], [1, 1], [1, 0], [0, 1]]]

theorem exM_good : GoodCode 4 exM none := ⟨goodG_of (by decide) (by decide), fun l u h => by cases h⟩

theorem exM_memory : HasMemory 4 exM := by
  intro i j hi hj
  have : i = 0 := by simp [exM] at hi; omega
  subst this
  have : j = 0 ∨ j = 1 ∨ j = 2 ∨ j = 3 := by omega
  rcases this with rfl | rfl | rfl | rfl <;> decide

theorem exM_identified : Identified 4 exM none := by
  intro u u' w w' hu hu' hw hw' ho _
  have h2 := ho 2 (by decide)
  have h3 := ho 3 (by decide)
  have r1 := (hw 0 (by decide)).1 0 le_rfl
  have r2 := (hw' 0 (by decide)).1 0 le_rfl
  have p1 := (hw 0 (by decide)).2 (-1) (by decide)
  have p2 := (hw' 0 (by decide)).2 (-1) (by decide)
  obtain ⟨l1, b1⟩ := hu
  obtain ⟨l2, b2⟩ := hu'
  match u, l1, u', l2 with
  | [a], _, [b], _ =>
    have := b1 a (by simp)
    have := b2 b (by simp)
    simp [poly, inBit] at r1 r2
    simp [encBit, isDirect, tapSum, tf, exM, Finset.sum_range_succ, r1, r2] at h2 h3
    constructor
    · intro i hi k hk
      have : i = 0 := by simp [exM] at hi; omega
      subst this
      have : k = 0 := by simp [exM, tf] at hk; omega
      subst this
      simp
      omega
    · congr 1
      omega

/-- this code meets the hypotheses of `C97_stream_partial` with `E = 1` for all block lengths from two steps on -/
example (n : ℕ) (hn : 2 ≤ n) : DirectLong 4 exM none ∧ Fits 4 exM none ∧ HasMemory 4 exM ∧ Identified 4 exM none ∧
    MergeDist 4 exM none (2 * 1 + 1) ∧ DivergeDist 4 exM none 1 (2 * 1 + 1) ∧ ApartDist 4 exM none n (2 * 1 + 1) := by
  refine ⟨directLong_none _ _, fits_none _ _, exM_memory, exM_identified, ?_, ?_, ?_⟩
  · exact merge_of exM_good (by decide) (fits_none _ _) _ (by decide +kernel)
  · exact diverge_of exM_good (by decide) (fits_none _ _) _ _ (by decide +kernel)
  · exact apartDist_mono hn (apart_of exM_good (by decide) (fits_none _ _) _ _ (by decide +kernel))

/-- one wrong bit in each block of three steps -/
example : codingConv id [1, 0, 1, 1, 1, 0] exM = .ok [1, 1, 1, 0, 1, 1, 0, 1, 1, 1, 1, 0, 0, 0, 1, 1, 0, 0, 1, 1, 1, 1, 0, 1] ∧
    decodingConvViterbiErr [1, 1, 1, 0, 1, 0, 0, 1, 1, 1, 1, 0, 1, 0, 1, 1, 0, 0, 1, 1, 1, 1, 0, 1] exM 12
      = .ok ([1, 0, 1, 1, 1, 0], 0, [0, 0]) := by
  decide +kernel

/-- a block that is no codeword: five pairs are nearest, the caller's bits are overwritten, the bit behind the block stays -/
example : decodingConvMlErr [0, 1, 0, 0, 0, 0, 1] [[[1, 1, 1], [1, 0, 1]]] 6 = .ok ([0, 0, 0], [1 / 5], [0, 0, 0, 0, 0, 0, 1]) := by
  decide +kernel

end Verif
