import Verif.Lemmas.Survivor
import Verif.Lemmas.Delay

/-! Lemmas: surviving paths of the trellis are the surviving runs of the registers. -/

namespace Verif
open Spec

theorem cellsAt_eq (G : ConvG) (w : ℕ → ℤ → Int) (t : ℤ) : cellsAt G w t = stateAt G w t := by
  unfold cellsAt stateAt
  rw [List.flatMap_def]
  rfl

/-- the received bits of step `q` -/
def chunkOf (nO : ℕ) (r : ℕ → Int) (q : ℕ) : List Int := (List.range nO).map fun j => r (q * nO + j)

/-- the output of step `t` -/
def outOf (nO : ℕ) (G : ConvG) (fb : Fb) (v : List Int) (w : ℕ → ℤ → Int) (t : ℕ) : List Int :=
  (List.range nO).map (runBit G fb v w t)

/-- the data of step `t` -/
def rowOf (G : ConvG) (v : List Int) (t : ℕ) : List Int := (List.range G.length).map fun i => v.getD (t * G.length + i) 0

section
variable {nO : ℕ} {G : ConvG} {fb : Fb}

theorem rowOf_word (G : ConvG) (v : List Int) (hv : IsBinary v) (t : ℕ) : Word G.length (rowOf G v t) := by
  refine ⟨by simp [rowOf], ?_⟩
  intro x hx
  unfold rowOf at hx
  rw [List.mem_map] at hx
  obtain ⟨i, _, rfl⟩ := hx
  exact binary_getD hv _

theorem rowOf_getD (G : ConvG) (v : List Int) (t i : ℕ) (hi : i < G.length) : (rowOf G v t).getD i 0 = inBit v G.length i t := by
  unfold rowOf inBit
  rw [map_range_getD _ _ _ _ hi, if_pos (by omega)]
  simp

theorem outOf_word (nO : ℕ) (G : ConvG) (fb : Fb) (v : List Int) (w : ℕ → ℤ → Int) (t : ℕ) : Word nO (outOf nO G fb v w t) := by
  refine ⟨by simp [outOf], ?_⟩
  intro x hx
  unfold outOf at hx
  rw [List.mem_map] at hx
  obtain ⟨j, _, rfl⟩ := hx
  exact encBit_bin _ _ _ _ _ _ _

theorem chunkOf_word {r : ℕ → Int} {q n : ℕ} (hq : q < n) (hr : ∀ i < n * nO, r i = 0 ∨ r i = 1) : Word nO (chunkOf nO r q) := by
  refine ⟨by simp [chunkOf], ?_⟩
  intro x hx
  unfold chunkOf at hx
  rw [List.mem_map] at hx
  obtain ⟨j, hj, rfl⟩ := hx
  rw [List.mem_range] at hj
  apply hr
  calc q * nO + j < q * nO + nO := by omega
    _ = (q + 1) * nO := by ring
    _ ≤ n * nO := Nat.mul_le_mul_right _ hq

theorem stepDist_eq {r : ℕ → Int} {q n : ℕ} (hq : q < n) (hr : ∀ i < n * nO, r i = 0 ∨ r i = 1) (v : List Int)
    (w : ℕ → ℤ → Int) (t : ℕ) :
    hammingDist (chunkOf nO r q) (outOf nO G fb v w t) = stepDist nO G fb v w t r q := by
  rw [hammingDist_eq nO _ _ (chunkOf_word hq hr) (outOf_word nO G fb v w t), dist_comm]
  unfold stepDist
  congr 1
  apply dist_congr
  · intro j hj
    unfold seq outOf
    rw [map_range_getD _ _ _ _ hj]
  · intro j hj
    unfold seq chunkOf
    rw [map_range_getD _ _ _ _ hj]

theorem run_word {v : List Int} {w : ℕ → ℤ → Int} (hw : IsRun G fb v w) (t : ℤ) : Word (memSizes G).sum (stateAt G w t) :=
  stateAt_word G w t (fun i hi s _ => register_binary (hw i hi).1 (hw i hi).2 s)

/-- a step of a run is a step of the trellis -/
theorem run_step (h : GoodCode nO G fb) (hpos : 0 < nO) (hf : Fits nO G fb) {v : List Int} (hv : IsBinary v)
    {w : ℕ → ℤ → Int} (hw : IsRun G fb v w) (t : ℕ) :
    trellisStep G (fb.map Prod.fst) (fb.map Prod.snd) (stateAt G w t) (rowOf G v t) = (outOf nO G fb v w t, stateAt G w (t + 1)) := by
  rw [trellisStep_eq (goodCode_fits h hpos hf) (fb.map Prod.snd) (inBit v G.length) w t (by omega) (rowOf G v t)
    (fun i hi => (rowOf_getD G v t i hi).symm) (fun i _ => inBit_binary hv _ _ _) (fun i hi => by rw [fbAt_spec]; exact (hw i hi).1)]
  refine Prod.ext ?_ rfl
  simp only []
  apply List.map_congr_left
  intro j _
  exact encBit_congr _ _ _ _ _ _ _ _ (fun i _ => direct_spec fb i j)

theorem rowOf_zero {u : List Int} (hu : Word G.length u) : rowOf G u 0 = u := by
  apply ext_getD 0 (by simp [rowOf, hu.1])
  intro i hi
  rw [show (rowOf G u 0).length = G.length by simp [rowOf]] at hi
  unfold rowOf
  rw [map_range_getD _ _ _ _ hi]
  simp

/-- a trellis step from a state is the first step of a run -/
theorem step_run (h : GoodCode nO G fb) (hpos : 0 < nO) (hf : Fits nO G fb) (m u : List Int)
    (hm : Word (memSizes G).sum m) (hu : Word G.length u) :
    ∃ w, IsRun G fb u w ∧ stateAt G w 0 = m ∧
      trellisStep G (fb.map Prod.fst) (fb.map Prod.snd) m u = (outOf nO G fb u w 0, stateAt G w 1) := by
  obtain ⟨w, hw, hst⟩ := state_registers h u m hm
  refine ⟨w, hw, hst, ?_⟩
  have := run_step h hpos hf hu.2 hw 0
  rw [rowOf_zero hu] at this
  rw [← hst]
  simpa using this

theorem convPoly_length (h : GoodCode nO G fb) (hpos : 0 < nO) (hf : Fits nO G fb) (i : ℕ) (hi : i < G.length) :
    (poly fb i).length - 1 ≤ memOf G i := by
  have hm := memOf_lt h hpos i 0 hi hpos
  match fb, hf with
  | none, _ => simp [poly]
  | some (l, fl), hf =>
    have := (hf l fl rfl i 0 hi hpos).1
    unfold poly polyOf
    simp only []
    cases hl : l.getD i none with
    | none => simp
    | some f => rw [Option.getD_some, this f hl]; omega

/-- predecessors of a state with a chosen oldest cell -/
theorem pred_exists (h : GoodCode nO G fb) (hpos : 0 < nO) (hf : Fits nO G fb) (hm : HasMemory nO G) (e : List Int)
    (he : Word (memSizes G).sum e) (b : Int) (hb : b = 0 ∨ b = 1) :
    ∃ u w, Word G.length u ∧ IsRun G fb u w ∧ stateAt G w 1 = e ∧ w 0 (-(memOf G 0 : ℤ)) = b := by
  have hmem : ∀ i < G.length, 0 < memOf G i := by
    intro i hi
    have h1 := memOf_lt h hpos i 0 hi hpos
    have h2 := hm i 0 hi hpos
    omega
  have hG : 0 < G.length := List.length_pos_of_ne_nil h.1.1
  obtain ⟨we, hwe, hste⟩ := state_registers h [] e he
  obtain ⟨w0, hw0⟩ : ∃ w0 : ℕ → ℤ → Int, ∀ i t, w0 i t = if -t < memOf G i then we i (t - 1) else b := ⟨_, fun _ _ => rfl⟩
  have hbin : ∀ i < G.length, ∀ t ≤ 0, w0 i t = 0 ∨ w0 i t = 1 := by
    intro i hi t ht
    rw [hw0]
    split
    · exact (hwe i hi).2 _ (by omega)
    · exact hb
  set u := (List.range G.length).map fun i => (w0 i 0 + ∑ d ∈ Finset.range ((poly fb i).length - 1),
    (poly fb i).getD (d + 1) 0 * w0 i (0 - (d + 1))) % 2 with hu
  have huw : Word G.length u := by
    refine ⟨by simp [hu], ?_⟩
    intro x hx
    rw [hu, List.mem_map] at hx
    obtain ⟨i, _, rfl⟩ := hx
    exact Int.emod_two_eq_zero_or_one _
  obtain ⟨w, hw, hst⟩ := state_registers h u (stateAt G w0 0) (stateAt_word G w0 0 (fun i hi t ht => hbin i hi t ht.le))
  have hold : ∀ i < G.length, ∀ k < memOf G i, w i (0 - 1 - k) = w0 i (0 - 1 - k) := fun i hi k hk =>
    stateAt_inj hst i hi k hk
  have hnew : ∀ i < G.length, w i 0 = w0 i 0 := by
    intro i hi
    rw [(hw i hi).1 0 le_rfl]
    have e1 : inBit u G.length i 0 = u.getD i 0 := by simp [inBit]
    rw [e1, hu, map_range_getD _ _ _ _ hi]
    have e2 : ∑ d ∈ Finset.range ((poly fb i).length - 1), (poly fb i).getD (d + 1) 0 * w i (0 - (d + 1))
        = ∑ d ∈ Finset.range ((poly fb i).length - 1), (poly fb i).getD (d + 1) 0 * w0 i (0 - (d + 1)) := by
      refine Finset.sum_congr rfl (fun d hd => ?_)
      rw [Finset.mem_range] at hd
      have := convPoly_length h hpos hf i hi
      have := hold i hi d (by omega)
      rw [show (0:ℤ) - (↑d + 1) = 0 - 1 - ↑d by ring, this]
    rw [e2]
    have := hbin i hi 0 le_rfl
    generalize (∑ d ∈ Finset.range ((poly fb i).length - 1), (poly fb i).getD (d + 1) 0 * w0 i (0 - (d + 1))) = S
    omega
  refine ⟨u, w, huw, hw, ?_, ?_⟩
  · rw [← hste]
    apply stateAt_congr
    intro i hi k hk
    have e3 : w0 i (0 - k) = we i (0 - 1 - k) := by
      rw [hw0, if_pos (by omega)]
      congr 1
      ring
    rw [← e3]
    cases k with
    | zero => simpa using hnew i hi
    | succ k =>
      have := hold i hi k (by omega)
      rw [show (1:ℤ) - 1 - ((k + 1 : ℕ) : ℤ) = 0 - 1 - k by push_cast; ring, this]
      congr 1
      push_cast
      ring
  · have hm0 := hmem 0 hG
    have := hold 0 hG (memOf G 0 - 1) (by omega)
    rw [show (0:ℤ) - 1 - ((memOf G 0 - 1 : ℕ) : ℤ) = -(memOf G 0 : ℤ) by omega] at this
    rw [this, hw0, if_neg (by omega)]

theorem hammingDist_le (n : ℕ) (a b : List Int) (ha : Word n a) (hb : Word n b) : hammingDist a b ≤ n := by
  rw [hammingDist_eq n a b ha hb]
  unfold Spec.dist
  have := Finset.card_filter_le (Finset.range n) (fun j => seq a j ≠ seq b j)
  rw [Finset.card_range] at this
  exact_mod_cast this

theorem hammingDist_all (n : ℕ) (c a b : List Int) (hc : Word n c) (ha : Word n a) (hb : Word n b)
    (h1 : hammingDist c a = n) (h2 : hammingDist c b = n) : a = b := by
  rw [hammingDist_eq n c a hc ha] at h1
  rw [hammingDist_eq n c b hc hb] at h2
  have full : ∀ x : List Int, (Spec.dist n (seq c) (seq x) : ℤ) = n → ∀ j < n, seq c j ≠ seq x j := by
    intro x hx
    have hx' : ((Finset.range n).filter (fun j => seq c j ≠ seq x j)).card = (Finset.range n).card := by
      rw [Finset.card_range]; exact_mod_cast hx
    have := Finset.card_filter_eq_iff.1 hx'
    intro j hj
    exact this j (Finset.mem_range.2 hj)
  apply ext_getD 0 (by rw [ha.1, hb.1])
  intro j hj
  rw [ha.1] at hj
  have f1 := full a h1 j hj
  have f2 := full b h2 j hj
  have b1 := binary_getD hc.2 j
  have b2 := binary_getD ha.2 j
  have b3 := binary_getD hb.2 j
  unfold seq at f1 f2
  omega

theorem reached (h : GoodCode nO G fb) (hpos : 0 < nO) (hf : Fits nO G fb) (hm : HasMemory nO G)
    (hid : Identified nO G fb) : Reached nO G (fb.map Prod.fst) (fb.map Prod.snd) := by
  intro e c he hc
  have hG : 0 < G.length := List.length_pos_of_ne_nil h.1.1
  obtain ⟨u, w, hu, hw, hst, hb⟩ := pred_exists h hpos hf hm e he 0 (Or.inl rfl)
  obtain ⟨u', w', hu', hw', hst', hb'⟩ := pred_exists h hpos hf hm e he 1 (Or.inr rfl)
  have s1 := run_step h hpos hf hu.2 hw 0
  have s2 := run_step h hpos hf hu'.2 hw' 0
  rw [rowOf_zero hu] at s1
  rw [rowOf_zero hu'] at s2
  rw [show (((0:ℕ):ℤ) + 1) = 1 by norm_num, hst] at s1
  rw [show (((0:ℕ):ℤ) + 1) = 1 by norm_num, hst'] at s2
  have w1 := run_word hw ((0 : ℕ) : ℤ)
  have w2 := run_word hw' ((0 : ℕ) : ℤ)
  by_cases hd : hammingDist c (outOf nO G fb u w 0) < nO
  · exact ⟨_, u, w1, hu, by rw [s1], by rw [s1]; exact hd⟩
  by_cases hd' : hammingDist c (outOf nO G fb u' w' 0) < nO
  · exact ⟨_, u', w2, hu', by rw [s2], by rw [s2]; exact hd'⟩
  exfalso
  have l1 := hammingDist_le nO c _ hc (outOf_word nO G fb u w 0)
  have l2 := hammingDist_le nO c _ hc (outOf_word nO G fb u' w' 0)
  have ho := hammingDist_all nO c _ _ hc (outOf_word nO G fb u w 0) (outOf_word nO G fb u' w' 0) (by omega) (by omega)
  have hss := distinctIn h hpos hf hid _ _ u u' w1 w2 hu hu' (by rw [s1, s2, ho])
  have hm0 : 0 < memOf G 0 := by
    have h1 := memOf_lt h hpos 0 0 hG hpos
    have h2 := hm 0 0 hG hpos
    omega
  have := stateAt_inj hss 0 hG (memOf G 0 - 1) (by omega)
  rw [show ((0:ℕ):ℤ) - 1 - ((memOf G 0 - 1 : ℕ) : ℤ) = -(memOf G 0 : ℤ) by omega, hb, hb'] at this
  omega

/-- surviving runs are surviving paths -/
theorem survivor_greedy (h : GoodCode nO G fb) (hpos : 0 < nO) (hf : Fits nO G fb) {r : ℕ → Int} {n : ℕ}
    (hr : ∀ i < n * nO, r i = 0 ∨ r i = 1) {v : List Int} (hv : IsBinary v) {w : ℕ → ℤ → Int}
    (hs : IsSurvivor nO n G fb r v w) (k : ℕ) (hk : k ≤ n) :
    Greedy G (fb.map Prod.fst) (fb.map Prod.snd) ((List.range k).map (chunkOf nO r)) (stateAt G w 0)
      ((List.range k).map (rowOf G v)) (∑ t ∈ Finset.range k, stepDist nO G fb v w t r t : ℕ) (stateAt G w k) := by
  induction k with
  | zero =>
    simp only [List.range_zero, List.map_nil, Finset.range_zero, Finset.sum_empty]
    exact Greedy.nil _ (run_word hs.1 0)
  | succ k ih =>
    rw [List.range_succ, List.map_append, List.map_append, Finset.sum_range_succ, List.map_singleton, List.map_singleton]
    have hst := run_step h hpos hf hv hs.1 k
    have hb : BestStep G (fb.map Prod.fst) (fb.map Prod.snd) (chunkOf nO r k) (stateAt G w k) (outOf nO G fb v w k)
        (stateAt G w (k + 1)) := by
      intro m' u' hm' hu' he
      obtain ⟨w', hw', hst', hs'⟩ := step_run h hpos hf m' u' hm' hu'
      rw [hs'] at he ⊢
      have := hs.2 k (by omega) u' w' hu' hw' (by rw [cellsAt_eq, cellsAt_eq]; exact he)
      rw [cellsAt_eq, cellsAt_eq, hst'] at this
      simp only []
      rw [stepDist_eq (n := n) (by omega) hr, stepDist_eq (n := n) (by omega) hr]
      exact_mod_cast this
    have := Greedy.snoc (ih (by omega)) (rowOf_word G v hv k) hst hb
    rw [stepDist_eq (n := n) (by omega) hr] at this
    push_cast at this ⊢
    rw [add_comm]
    exact this

/-- surviving paths are surviving runs -/
theorem greedy_run (h : GoodCode nO G fb) (hpos : 0 < nO) (hf : Fits nO G fb) {v : List Int} (hv : IsBinary v)
    {w : ℕ → ℤ → Int} (hw : IsRun G fb v w) {cs s us d e}
    (hp : Greedy G (fb.map Prod.fst) (fb.map Prod.snd) cs s us d e) (hs : stateAt G w 0 = s)
    (hus : ∀ t < cs.length, rowOf G v t = us.getD t []) (hlen : us.length = cs.length) :
    stateAt G w cs.length = e ∧ d = ∑ t ∈ Finset.range cs.length, hammingDist (cs.getD t []) (outOf nO G fb v w t) ∧
    ∀ t < cs.length, BestStep G (fb.map Prod.fst) (fb.map Prod.snd) (cs.getD t []) (stateAt G w t) (outOf nO G fb v w t)
      (stateAt G w (t + 1)) := by
  induction hp with
  | nil s _ => exact ⟨by simpa using hs, by simp, by simp⟩
  | @snoc cs s us d m c u o e hp hu hst hb ih =>
    have hlen' : us.length = cs.length := by simpa using hlen
    have g1 : ∀ t < cs.length, (cs ++ [c]).getD t [] = cs.getD t [] := by
      intro t ht
      simp [List.getD_eq_getElem?_getD, List.getElem?_append_left ht]
    have g2 : ∀ t < cs.length, (us ++ [u]).getD t [] = us.getD t [] := by
      intro t ht
      simp [List.getD_eq_getElem?_getD, List.getElem?_append_left (show t < us.length by omega)]
    have g3 : (cs ++ [c]).getD cs.length [] = c := by simp
    have g4 : (us ++ [u]).getD cs.length [] = u := by rw [← hlen']; simp
    obtain ⟨i1, i2, i3⟩ := ih hs (fun t ht => by rw [hus t (by simp; omega), g2 t ht]) hlen'
    have hst2 := run_step h hpos hf hv hw cs.length
    rw [hus cs.length (by simp), g4, i1, hst] at hst2
    have ho : o = outOf nO G fb v w cs.length := congrArg Prod.fst hst2
    have hee : e = stateAt G w (cs.length + 1) := congrArg Prod.snd hst2
    rw [List.length_append, List.length_singleton]
    refine ⟨by rw [hee]; push_cast; rfl, ?_, ?_⟩
    · rw [Finset.sum_range_succ, g3, ← ho, i2, add_comm]
      congr 1
      exact Finset.sum_congr rfl (fun t ht => by rw [g1 t (Finset.mem_range.1 ht)])
    · intro t ht
      rcases Nat.lt_or_ge t cs.length with ht' | ht'
      · rw [g1 t ht']
        exact i3 t ht'
      · have : t = cs.length := by omega
        subst this
        rw [g3, i1, ← ho, ← hee]
        exact hb

theorem best_survivor (h : GoodCode nO G fb) (hpos : 0 < nO) (hf : Fits nO G fb) {r : ℕ → Int} {n : ℕ}
    (hr : ∀ i < n * nO, r i = 0 ∨ r i = 1) {v : List Int} {w : ℕ → ℤ → Int} (hw : IsRun G fb v w)
    (hb : ∀ t < n, BestStep G (fb.map Prod.fst) (fb.map Prod.snd) (chunkOf nO r t) (stateAt G w t) (outOf nO G fb v w t)
      (stateAt G w (t + 1))) : IsSurvivor nO n G fb r v w := by
  refine ⟨hw, fun t ht u' w' hu' hw' he => ?_⟩
  have hst := run_step h hpos hf hu'.2 hw' 0
  rw [rowOf_zero hu', show (((0:ℕ):ℤ) + 1) = 1 by norm_num] at hst
  have := hb t ht (stateAt G w' ((0:ℕ):ℤ)) u' (run_word hw' _) hu' (by
    rw [hst]
    rw [cellsAt_eq, cellsAt_eq] at he
    exact he)
  rw [hst] at this
  simp only [] at this
  rw [stepDist_eq (n := n) ht hr, stepDist_eq (n := n) ht hr] at this
  rw [cellsAt_eq, cellsAt_eq]
  exact_mod_cast this

end

end Verif
