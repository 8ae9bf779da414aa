import Mathlib.Data.Set.Card
import Verif.Lemmas.SurvivorRun

/-! Lemmas: what the Viterbi decoder returns for one block. -/

namespace Verif
open Spec

theorem count_getD (l : List Int) (a : Int) : l.count a = ((Finset.range l.length).filter (fun i => l.getD i 0 = a)).card := by
  induction l using List.reverseRecOn with
  | nil => simp
  | append_singleton l x ih =>
    rw [List.count_append, List.length_append, List.length_singleton, Finset.range_add_one, Finset.filter_insert]
    have e1 : (l ++ [x]).getD l.length 0 = x := by simp
    have e2 : (Finset.range l.length).filter (fun i => (l ++ [x]).getD i 0 = a) = (Finset.range l.length).filter (fun i => l.getD i 0 = a) := by
      apply Finset.filter_congr
      intro i hi
      rw [Finset.mem_range] at hi
      simp [List.getD_eq_getElem?_getD, List.getElem?_append_left hi]
    rw [e1, e2, ih]
    by_cases hx : x = a
    · rw [if_pos hx, Finset.card_insert_of_notMem (by simp), hx]
      simp
    · rw [if_neg hx, List.count_singleton, if_neg (by simpa using hx)]
      rfl

section
variable {nO : ℕ} {G : ConvG} {fb : Fb}

theorem rows_chunks (_hpos : 0 < nO) {n : ℕ} {b : List Int} (hbl : b.length / nO = n) {r : ℕ → Int}
    (hrb : ∀ i < n * nO, r i = b.getD i 0) : rows nO b = (List.range n).map (chunkOf nO r) := by
  apply ext_getD [] (by simp [rows_length, hbl])
  intro q hq
  rw [rows_length, hbl] at hq
  rw [map_range_getD _ _ _ _ hq]
  apply ext_getD 0
  · rw [mem_rows_length nO b _ (mem_of_getD [] _ (by rw [rows_length, hbl]; exact hq))]
    simp [chunkOf]
  · intro j hj
    rw [mem_rows_length nO b _ (mem_of_getD [] _ (by rw [rows_length, hbl]; exact hq))] at hj
    rw [rows_getD 0 _ _ q j (by omega) hj]
    unfold chunkOf
    rw [map_range_getD _ _ _ _ hj, hrb]
    calc q * nO + j < q * nO + nO := by omega
      _ = (q + 1) * nO := by ring
      _ ≤ n * nO := Nat.mul_le_mul_right _ hq

/-- the data of a path as a word -/
theorem flatten_word {n : ℕ} {us : List (List Int)} (hl : us.length = n) (hw : ∀ u ∈ us, Word G.length u) :
    Word (G.length * n) us.flatten := by
  refine ⟨by rw [flatten_uniform_length _ _ (fun u hu => (hw u hu).1), hl, Nat.mul_comm], ?_⟩
  intro x hx
  rw [List.mem_flatten] at hx
  obtain ⟨u, hu, hx⟩ := hx
  exact (hw u hu).2 x hx

theorem rowOf_flatten {us : List (List Int)} (hw : ∀ u ∈ us, Word G.length u) (t : ℕ) (ht : t < us.length) :
    rowOf G us.flatten t = us.getD t [] := by
  have hut := hw _ (mem_of_getD [] us ht)
  apply ext_getD 0 (by rw [hut.1]; simp [rowOf])
  intro i hi
  rw [show (rowOf G us.flatten t).length = G.length by simp [rowOf]] at hi
  unfold rowOf
  rw [map_range_getD _ _ _ _ hi, flatten_getD 0 _ _ (fun u hu => (hw u hu).1) _ _ ht hi]

theorem flatten_rowOf {n : ℕ} {v : List Int} (hv : Word (G.length * n) v) (hG : 0 < G.length) :
    ((List.range n).map (rowOf G v)).flatten = v := by
  have hu : ∀ u ∈ (List.range n).map (rowOf G v), u.length = G.length := by
    intro u hu
    rw [List.mem_map] at hu
    obtain ⟨t, _, rfl⟩ := hu
    simp [rowOf]
  have hl : ((List.range n).map (rowOf G v)).flatten.length = n * G.length := by
    rw [flatten_uniform_length _ _ hu]; simp
  apply ext_getD 0 (by rw [hl, hv.1, Nat.mul_comm])
  intro q hq
  rw [hl] at hq
  have hj : q % G.length < G.length := Nat.mod_lt _ hG
  have hij : q / G.length * G.length + q % G.length = q := by rw [Nat.mul_comm]; exact Nat.div_add_mod q _
  have hr : q / G.length < n := Nat.div_lt_of_lt_mul (by rwa [Nat.mul_comm])
  conv_lhs => rw [← hij]
  rw [flatten_getD 0 _ _ hu _ _ (by simpa using hr) hj, map_range_getD _ _ _ _ hr]
  unfold rowOf
  rw [map_range_getD _ _ _ _ hj, hij]

/-- a surviving path gives a surviving run -/
theorem survivor_of_greedy (h : GoodCode nO G fb) (hpos : 0 < nO) (hf : Fits nO G fb) (hm : HasMemory nO G)
    {r : ℕ → Int} {n : ℕ} (hr : ∀ i < n * nO, r i = 0 ∨ r i = 1) {s us d e}
    (hp : Greedy G (fb.map Prod.fst) (fb.map Prod.snd) ((List.range n).map (chunkOf nO r)) s us d e) :
    ∃ w, Word (G.length * n) us.flatten ∧ IsSurvivor nO n G fb r us.flatten w ∧ stateAt G w n = e ∧
      d = runDist nO n G fb us.flatten w r := by
  obtain ⟨h1, h2, h3, h4⟩ := greedy_word (goodTrellis h hpos hf hm) hp
  have h3' : us.length = n := by simpa using h3
  have hw := flatten_word (G := G) h3' h4
  obtain ⟨w, hrun, hst⟩ := state_registers h us.flatten s h1
  obtain ⟨g1, g2, g3⟩ := greedy_run h hpos hf hw.2 hrun hp hst (fun t ht => rowOf_flatten h4 t (by omega)) h3
  have hlen : ((List.range n).map (chunkOf nO r)).length = n := by simp
  rw [hlen] at g1 g2 g3
  refine ⟨w, hw, ?_, g1, ?_⟩
  · refine best_survivor h hpos hf hr hrun (fun t ht => ?_)
    have := g3 t ht
    rwa [map_range_getD _ _ _ _ ht] at this
  · rw [g2]
    unfold runDist
    push_cast
    refine Finset.sum_congr rfl (fun t ht => ?_)
    rw [Finset.mem_range] at ht
    rw [map_range_getD _ _ _ _ ht, stepDist_eq ht hr]

/-- two surviving runs that end in the same cells have the same data and distance -/
theorem survivor_unique (h : GoodCode nO G fb) (hpos : 0 < nO) (hf : Fits nO G fb) (hm : HasMemory nO G)
    {r : ℕ → Int} {n : ℕ} (hr : ∀ i < n * nO, r i = 0 ∨ r i = 1) {v v' : List Int} {w w' : ℕ → ℤ → Int}
    (hv : Word (G.length * n) v) (hv' : Word (G.length * n) v') (hs : IsSurvivor nO n G fb r v w)
    (hs' : IsSurvivor nO n G fb r v' w') (he : cellsAt G w n = cellsAt G w' n) :
    v = v' ∧ runDist nO n G fb v w r = runDist nO n G fb v' w' r := by
  have hG : 0 < G.length := List.length_pos_of_ne_nil h.1.1
  have g := survivor_greedy h hpos hf hr hv.2 hs n le_rfl
  have g' := survivor_greedy h hpos hf hr hv'.2 hs' n le_rfl
  rw [cellsAt_eq, cellsAt_eq] at he
  rw [he] at g
  obtain ⟨_, h2, h3⟩ := greedy_unique (goodTrellis h hpos hf hm) g g'
  refine ⟨?_, by exact_mod_cast h3⟩
  rw [← flatten_rowOf hv hG, h2, flatten_rowOf hv' hG]

theorem cells_num_lt (G : ConvG) {v : List Int} {w : ℕ → ℤ → Int} (hw : IsRun G fb v w) (t : ℤ) :
    ∃ jj < (trellisStates G).length, (trellisStates G).getD jj [] = cellsAt G w t ∧ wordNum (cellsAt G w t) = jj := by
  obtain ⟨jj, hjj, e⟩ := state_exists _ (run_word hw t)
  refine ⟨jj, hjj, by rw [cellsAt_eq]; exact e, ?_⟩
  rw [cellsAt_eq, ← e]
  exact wordNum_state hjj

/-- what is returned for one block -/
theorem block_survivors (h : GoodCode nO G fb) (hpos : 0 < nO) (hf : Fits nO G fb) (hm : HasMemory nO G)
    (hid : Identified nO G fb) {n : ℕ} (hn : 0 < n) (b : List Int) (hb : IsBinary b) (hbl : b.length / nO = n)
    (r : ℕ → Int) (hrb : ∀ i < n * nO, r i = b.getD i 0) :
    ∃ v w last p, viterbiBlockErr G (fb.map Prod.fst) (fb.map Prod.snd) b = .ok (v, last, p) ∧
      viterbiBlock G (fb.map Prod.fst) (fb.map Prod.snd) b = .ok (v, last) ∧
      Word (G.length * n) v ∧ IsSurvivor nO n G fb r v w ∧ wordNum (cellsAt G w n) = last ∧
      (∀ v' w', Word (G.length * n) v' → IsSurvivor nO n G fb r v' w' →
        runDist nO n G fb v w r ≤ runDist nO n G fb v' w' r ∧
        (runDist nO n G fb v' w' r = runDist nO n G fb v w r → (last : ℤ) ≤ wordNum (cellsAt G w' n))) ∧
      p = if 1 < (endsAt nO n G fb r (runDist nO n G fb v w r)).ncard then
        1 / ((endsAt nO n G fb r (runDist nO n G fb v w r)).ncard : ℚ) else 0 := by
  have hr : ∀ i < n * nO, r i = 0 ∨ r i = 1 := fun i hi => by rw [hrb i hi]; exact binary_getD hb i
  have hrows := rows_chunks hpos hbl hrb
  have hne : rows nO b ≠ [] := by
    rw [hrows]
    intro e
    have := congrArg List.length e
    simp at this
    omega
  obtain ⟨L, hL, hlen, hS⟩ := forward_greedy (goodG_nOut h.1) (goodTrellis h hpos hf hm) (reached h hpos hf hm hid)
    (rows nO b) hne (rows_word nO hb)
  have hD : (L.map (·.1)).length = (trellisStates G).length := by simp [hlen]
  have hDne : L.map (·.1) ≠ [] := by
    intro e
    have := congrArg List.length e
    rw [hD] at this
    exact states_ne (G := G) (List.length_eq_zero_iff.1 this)
  obtain ⟨a1, a2, a3⟩ := argmin_getD_spec 0 (L.map (·.1)) hDne
  rw [hD] at a1 a2
  have hg : ∀ i < (trellisStates G).length, (L.map (·.1)).getD i 0 = (L.getD i (0, [])).1 := fun i hi =>
    getD_map_lt _ (0, []) 0 _ (by rw [hlen]; exact hi)
  -- every state has its surviving run
  have hrun : ∀ jj < (trellisStates G).length, ∃ v w, Word (G.length * n) v ∧ IsSurvivor nO n G fb r v w ∧
      cellsAt G w n = (trellisStates G).getD jj [] ∧ (L.map (·.1)).getD jj 0 = runDist nO n G fb v w r ∧ (L.getD jj (0, [])).2 = v := by
    intro jj hjj
    obtain ⟨s, us, hp, hbits⟩ := hS jj hjj
    rw [hrows] at hp
    obtain ⟨w, e1, e2, e3, e4⟩ := survivor_of_greedy h hpos hf hm hr hp
    exact ⟨us.flatten, w, e1, e2, by rw [cellsAt_eq]; exact e3, by rw [hg jj hjj]; exact e4, hbits⟩
  -- and every surviving run ends in a state
  have hend : ∀ v' w', Word (G.length * n) v' → IsSurvivor nO n G fb r v' w' →
      ∃ jj < (trellisStates G).length, wordNum (cellsAt G w' n) = jj ∧ (L.map (·.1)).getD jj 0 = runDist nO n G fb v' w' r := by
    intro v' w' hv' hs'
    obtain ⟨jj, hjj, e1, e2⟩ := cells_num_lt G hs'.1 n
    obtain ⟨v, w, c1, c2, c3, c4, _⟩ := hrun jj hjj
    have := (survivor_unique h hpos hf hm hr c1 hv' c2 hs' (by rw [c3, e1])).2
    exact ⟨jj, hjj, e2, by rw [c4, this]⟩
  obtain ⟨v, w, c1, c2, c3, c4, c5⟩ := hrun _ a1
  have hlast : wordNum (cellsAt G w n) = argmin (L.map (·.1)) := by
    rw [c3]
    exact wordNum_state a1
  have hcount : (L.map (·.1)).count ((L.map (·.1)).getD (argmin (L.map (·.1))) 0)
      = (endsAt nO n G fb r (runDist nO n G fb v w r)).ncard := by
    rw [count_getD, c4, hD]
    have : endsAt nO n G fb r (runDist nO n G fb v w r) = (((Finset.range (trellisStates G).length).filter
        (fun i => (L.map (·.1)).getD i 0 = runDist nO n G fb v w r)).image (fun i : ℕ => (i : ℤ)) : Finset ℤ) := by
      ext e
      simp only [endsAt, Set.mem_ofPred_eq, Finset.coe_image, Finset.coe_filter, Finset.mem_range, Set.mem_image]
      constructor
      · rintro ⟨v', w', hv', hs', hd, rfl⟩
        obtain ⟨jj, hjj, e1, e2⟩ := hend v' w' hv' hs'
        exact ⟨jj, ⟨hjj, by rw [e2, hd]⟩, e1.symm⟩
      · rintro ⟨jj, ⟨hjj, hd⟩, rfl⟩
        obtain ⟨v', w', d1, d2, d3, d4, _⟩ := hrun jj hjj
        refine ⟨v', w', d1, d2, by rw [d4] at hd; exact_mod_cast hd, ?_⟩
        rw [d3]
        exact wordNum_state hjj
    rw [this, Set.ncard_coe_finset, Finset.card_image_of_injective _ Nat.cast_injective]
  refine ⟨v, w, argmin (L.map (·.1)), _, ?_, ?_, c1, c2, hlast, ?_, rfl⟩
  · unfold viterbiBlockErr
    rw [goodG_nOut h.1, hL]
    simp only []
    rw [hcount, c5]
  · unfold viterbiBlock
    rw [goodG_nOut h.1, hL]
    simp only []
    rw [c5]
  · intro v' w' hv' hs'
    obtain ⟨jj, hjj, e1, e2⟩ := hend v' w' hv' hs'
    have := a2 jj hjj
    rw [c4, e2] at this
    refine ⟨by exact_mod_cast this, fun heq => ?_⟩
    rw [e1]
    by_contra hcon
    have := a3 jj (by omega)
    rw [c4, e2, heq] at this
    omega

end

end Verif
