import Verif.Lemmas.SurvivorBlock
import Verif.Lemmas.ConvExample
import Verif.Lemmas.ArgminSet

/-! Lemmas: the exhaustive decoder with error probabilities, and checks of the distances of a concrete code. -/

namespace Verif
open Spec

theorem getBinPerm_nodup (k : ℕ) : (getBinPerm k).Nodup := by
  rw [getBinPerm_eq]
  refine List.Nodup.map_on ?_ List.nodup_range
  intro x hx y hy e
  rw [List.mem_range] at hx hy
  have := congrArg (fun l => leVal l.reverse) e
  simp only [List.reverse_reverse] at this
  rw [leVal_symBits _ _ (by omega) (by exact_mod_cast hx), leVal_symBits _ _ (by omega) (by exact_mod_cast hy)] at this
  exact_mod_cast this

theorem convPairs_nodup (G : ConvG) (n : ℕ) : (convPairs G n).Nodup :=
  List.Nodup.product (getBinPerm_nodup _) (getBinPerm_nodup _)

theorem countP_ncard {α : Type*} (l : List α) (hl : l.Nodup) (p : α → Bool) :
    l.countP p = {x | x ∈ l ∧ p x = true}.ncard := by
  classical
  rw [List.countP_eq_length_filter, ← List.toFinset_card_of_nodup (hl.filter p)]
  rw [← Set.ncard_coe_finset]
  congr 1
  ext x
  simp

section
variable {nO n : ℕ} {G : ConvG} {fb : Fb}

theorem cw_from (h : GoodCode nO G fb) (hpos : 0 < nO) (hf : Fits nO G fb) (rest : ℕ) (s v : List Int)
    (hs : Word (memSizes G).sum s) (hv : Word (G.length * n) v) :
    IsCodeFrom nO n G fb s v (seq (cw G (fb.map Prod.fst) (fb.map Prod.snd) rest s v)) := by
  obtain ⟨w, hw, rfl⟩ := state_registers h v s hs
  obtain ⟨_, h2, h3⟩ := cw_getD h hpos hf rest v hv w (fun i hi => (hw i hi).1)
  exact ⟨w, hw, cellsAt_eq G w 0, h2, h3⟩

theorem from_cw (h : GoodCode nO G fb) (hpos : 0 < nO) (hf : Fits nO G fb) (rest : ℕ) (s v : List Int) (c : ℕ → Int)
    (hv : Word (G.length * n) v) (hc : IsCodeFrom nO n G fb s v c) :
    Word (memSizes G).sum s ∧ ∀ q, seq (cw G (fb.map Prod.fst) (fb.map Prod.snd) rest s v) q = c q := by
  obtain ⟨w, hw, hst, hc1, hc2⟩ := hc
  obtain ⟨_, h2, h3⟩ := cw_getD h hpos hf rest v hv w (fun i hi => (hw i hi).1)
  rw [cellsAt_eq] at hst
  rw [hst] at h2 h3
  refine ⟨by rw [← hst]; exact run_word hw 0, fun q => ?_⟩
  unfold seq
  rcases Nat.lt_or_ge q (n * nO) with hq | hq
  · have hj : q % nO < nO := Nat.mod_lt _ hpos
    have hij : q / nO * nO + q % nO = q := by rw [Nat.mul_comm]; exact Nat.div_add_mod q _
    have ht : q / nO < n := Nat.div_lt_of_lt_mul (by rwa [Nat.mul_comm])
    rw [← hij, h2 _ _ ht hj, hc1 _ _ ht hj]
    rfl
  · rw [h3 q hq, hc2 q hq]

/-- one block of the exhaustive decoder with error probability -/
theorem ml_block (h : GoodCode nO G fb) (hpos : 0 < nO) (hf : Fits nO G fb) (tb : ℕ)
    (b : List Int) (hb : Word tb b) :
    let R := mlBlockErr (tile (getBinPerm (G.length * (tb / nOut G))) (trellisStates G).length)
      (convCodebook G (fb.map Prod.fst) (fb.map Prod.snd) tb) b
    R.1 = (tile (getBinPerm (G.length * (tb / nOut G))) (trellisStates G).length).getD
        (argmin ((convCodebook G (fb.map Prod.fst) (fb.map Prod.snd) tb).map (fun c => hammingDist c b))) [] ∧
    Word tb R.2.2 ∧ Word (G.length * (tb / nO)) R.1 ∧
    (∃ s, IsCodeFrom nO (tb / nO) G fb s R.1 (seq R.2.2)) ∧
    (∀ s v c, Word (G.length * (tb / nO)) v → IsCodeFrom nO (tb / nO) G fb s v c →
      Spec.dist tb (seq R.2.2) (seq b) ≤ Spec.dist tb c (seq b)) ∧
    R.2.1 = if Spec.dist tb (seq R.2.2) (seq b) = 0 then 0 else
      1 / ((pairsAt nO (tb / nO) tb G fb (seq b) (Spec.dist tb (seq R.2.2) (seq b))).ncard : ℚ) := by
  intro R
  have hno := goodG_nOut h.1
  set n := tb / nO with hn
  set rest := tb - nO * n with hrest
  have htb : n * nO + rest = tb := by
    have := Nat.div_mul_le_self tb nO
    rw [← hn] at this
    rw [hrest, Nat.mul_comm nO n]
    omega
  set P := convPairs G n with hP
  set C := fun x : List Int × List Int => cw G (fb.map Prod.fst) (fb.map Prod.snd) rest x.1 x.2 with hC
  have hcb : convCodebook G (fb.map Prod.fst) (fb.map Prod.snd) tb = P.map C := by
    rw [codebook_eq, hno]
  have hti : tile (getBinPerm (G.length * (tb / nOut G))) (trellisStates G).length = P.map Prod.snd := by
    rw [hno, tile_eq]
  set H := (P.map C).map (fun c => hammingDist c b) with hH
  have hPne : P ≠ [] := by
    intro e
    have : (List.replicate (memSizes G).sum 0, List.replicate (G.length * n) 0) ∈ P :=
      (mem_convPairs G n _ _).2 ⟨⟨by simp, fun x hx => Or.inl (List.eq_of_mem_replicate hx)⟩,
        ⟨by simp, fun x hx => Or.inl (List.eq_of_mem_replicate hx)⟩⟩
    rw [e] at this
    simp at this
  have hHne : H ≠ [] := by rw [hH]; simpa using hPne
  have hHl : H.length = P.length := by simp [hH]
  obtain ⟨a1, a2, _⟩ := argmin_getD_spec 0 H hHne
  rw [hHl] at a1 a2
  have hword : ∀ x ∈ P, Word (memSizes G).sum x.1 ∧ Word (G.length * n) x.2 := fun x hx => (mem_convPairs G n x.1 x.2).1 hx
  have hCw : ∀ x ∈ P, Word tb (C x) := fun x hx => by
    have := (cw_isCode h hpos hf rest x.1 x.2 (hword x hx).1 (hword x hx).2).2
    rwa [htb] at this
  have hdist : ∀ x ∈ P, hammingDist (C x) b = Spec.dist tb (seq (C x)) (seq b) := fun x hx =>
    hammingDist_eq tb _ _ (hCw x hx) hb
  have hval : ∀ i < P.length, H.getD i 0 = Spec.dist tb (seq (C (P.getD i ([], [])))) (seq b) := by
    intro i hi
    rw [hH, List.map_map, getD_map_lt _ ([], []) 0 _ hi]
    exact hdist _ (mem_of_getD _ _ hi)
  obtain ⟨i, hi⟩ : ∃ i, i = argmin H := ⟨_, rfl⟩
  rw [← hi] at a1 a2
  set x := P.getD i ([], []) with hx
  have hxP : x ∈ P := mem_of_getD _ _ a1
  have hmin : ∀ y ∈ P, Spec.dist tb (seq (C x)) (seq b) ≤ Spec.dist tb (seq (C y)) (seq b) := by
    intro y hy
    obtain ⟨j, hj, e⟩ := List.getElem_of_mem hy
    have := a2 j hj
    rw [hval i a1, hval j hj, getD_of_lt _ _ hj, e] at this
    exact_mod_cast this
  have hmin' : ∀ s v c, Word (G.length * n) v → IsCodeFrom nO n G fb s v c →
      Spec.dist tb (seq (C x)) (seq b) ≤ Spec.dist tb c (seq b) := by
    intro s v c hv hc
    obtain ⟨hs, hq⟩ := from_cw h hpos hf rest s v c hv hc
    have := hmin (s, v) ((mem_convPairs G n s v).2 ⟨hs, hv⟩)
    rwa [dist_congr tb (fun q _ => hq q) (fun _ _ => rfl)] at this
  have hcount : H.count (H.getD i 0) = (pairsAt nO n tb G fb (seq b) (Spec.dist tb (seq (C x)) (seq b))).ncard := by
    rw [hval i a1, hH, List.map_map, List.count, List.countP_map, countP_ncard P (convPairs_nodup G n)]
    congr 1
    ext y
    simp only [Set.mem_ofPred_eq, pairsAt, Function.comp, beq_iff_eq]
    constructor
    · rintro ⟨hy, e⟩
      refine ⟨(hword y hy).2, _, cw_from h hpos hf rest y.1 y.2 (hword y hy).1 (hword y hy).2, ?_⟩
      rw [hdist y hy] at e
      exact_mod_cast e
    · rintro ⟨hv, c, hc, e⟩
      obtain ⟨hs, hq⟩ := from_cw h hpos hf rest y.1 y.2 c hv hc
      have hy : y ∈ P := (mem_convPairs G n y.1 y.2).2 ⟨hs, hv⟩
      refine ⟨hy, ?_⟩
      rw [hdist y hy, dist_congr tb (fun q _ => hq q) (fun _ _ => rfl), e]
  have hR : R = if H.getD i 0 > 0 then (x.2, 1 / ((H.count (H.getD i 0) : ℕ) : ℚ), C x) else (x.2, 0, b) := by
    show mlBlockErr _ _ b = _
    unfold mlBlockErr
    rw [hcb, hti]
    simp only []
    rw [← hH, ← hi]
    have hsnd : (P.map Prod.snd).getD i [] = x.2 := getD_map_lt _ ([], []) [] _ a1
    split
    · rename_i hp
      have := argmin_set_zero H hHne (by rw [← hi]; exact hp)
      rw [← hi] at this
      rw [this, hsnd, getD_map_lt _ ([], []) [] _ a1]
    · rw [hsnd]
  have hdata : R.1 = x.2 := by rw [hR]; split <;> rfl
  have hfrom := cw_from h hpos hf rest x.1 x.2 (hword x hxP).1 (hword x hxP).2
  have hpick : (P.map Prod.snd).getD (argmin H) [] = x.2 := by
    rw [← hi]
    exact getD_map_lt _ ([], []) [] _ a1
  refine ⟨by rw [hdata, hti, hcb]; exact hpick.symm, ?_⟩
  rw [hval i a1] at hR
  by_cases h0 : Spec.dist tb (seq (C x)) (seq b) = 0
  · have hR' : R = (x.2, 0, b) := by rw [hR, h0]; simp
    have hCb : C x = b := hammingDist_eq_zero _ _ (by rw [(hCw x hxP).1, hb.1]) (by rw [hdist x hxP, h0]; rfl)
    have hself : Spec.dist tb (seq b) (seq b) = 0 := by simp [Spec.dist]
    rw [hR']
    refine ⟨hb, (hword x hxP).2, ⟨x.1, ?_⟩, fun s v c hv hc => by rw [hself]; omega, by rw [if_pos hself]⟩
    rw [← hCb]
    exact hfrom
  · have hR' : R = (x.2, 1 / ((H.count (H.getD i 0) : ℕ) : ℚ), C x) := by
      rw [hR, if_pos (by exact_mod_cast Nat.pos_of_ne_zero h0), hval i a1]
    rw [hR']
    refine ⟨hCw x hxP, (hword x hxP).2, ⟨x.1, hfrom⟩, hmin', ?_⟩
    rw [if_neg h0, hcount]

end

/-! ### checking distances of a concrete code -/

/-- `m` steps with different states after every step differ in at least `D` output bits -/
def apartB (G : ConvG) (fb : ConvFb) (uf : ConvUf) : ℕ → Int → List Int → List Int → Bool
  | 0, D, _, _ => decide (D ≤ 0)
  | m + 1, D, s, s' => (getBinPerm G.length).all fun u => (getBinPerm G.length).all fun u' =>
    (trellisStep G fb uf s u).2 == (trellisStep G fb uf s' u').2 ||
      apartB G fb uf m (D - hammingDist (trellisStep G fb uf s u).1 (trellisStep G fb uf s' u').1)
        (trellisStep G fb uf s u).2 (trellisStep G fb uf s' u').2

section
variable {nO : ℕ} {G : ConvG} {fb : Fb}

theorem outOf_dist (v v' : List Int) (w w' : ℕ → ℤ → Int) (t t' : ℕ) :
    hammingDist (outOf nO G fb v w t) (outOf nO G fb v' w' t') = Spec.dist nO (runBit G fb v w t) (runBit G fb v' w' t') := by
  rw [hammingDist_eq nO _ _ (outOf_word ..) (outOf_word ..)]
  congr 1
  apply dist_congr <;> intro j hj <;> unfold seq outOf <;> rw [map_range_getD _ _ _ _ hj]

theorem apartB_sound (h : GoodCode nO G fb) (hpos : 0 < nO) (hf : Fits nO G fb) {v v' : List Int} {w w' : ℕ → ℤ → Int}
    (hv : IsBinary v) (hv' : IsBinary v') (hw : IsRun G fb v w) (hw' : IsRun G fb v' w') (m : ℕ) (D : Int) (k : ℕ)
    (hB : apartB G (fb.map Prod.fst) (fb.map Prod.snd) m D (stateAt G w k) (stateAt G w' k) = true)
    (hne : ∀ t < m, cellsAt G w ((k + t : ℕ) + 1) ≠ cellsAt G w' ((k + t : ℕ) + 1)) :
    D ≤ ∑ t ∈ Finset.range m, (Spec.dist nO (runBit G fb v w (k + t)) (runBit G fb v' w' (k + t)) : ℤ) := by
  induction m generalizing D k with
  | zero => simpa [apartB] using hB
  | succ m ih =>
    unfold apartB at hB
    rw [List.all_eq_true] at hB
    have h1 := hB _ ((mem_getBinPerm _ _).2 (rowOf_word G v hv k))
    rw [List.all_eq_true] at h1
    have h2 := h1 _ ((mem_getBinPerm _ _).2 (rowOf_word G v' hv' k))
    rw [run_step h hpos hf hv hw k, run_step h hpos hf hv' hw' k] at h2
    simp only [Bool.or_eq_true, beq_iff_eq] at h2
    rcases h2 with h2 | h2
    · exact absurd h2 (by
        have := hne 0 (by omega)
        rw [cellsAt_eq, cellsAt_eq, Nat.add_zero] at this
        exact this)
    · have := ih _ (k + 1) (by exact_mod_cast h2) (fun t ht => by
        have := hne (t + 1) (by omega)
        rwa [show k + (t + 1) = k + 1 + t by ring] at this)
      rw [outOf_dist] at this
      rw [Finset.sum_range_succ', Nat.add_zero]
      have e : ∑ t ∈ Finset.range m, (Spec.dist nO (runBit G fb v w (k + (t + 1))) (runBit G fb v' w' (k + (t + 1))) : ℤ)
          = ∑ t ∈ Finset.range m, (Spec.dist nO (runBit G fb v w (k + 1 + t)) (runBit G fb v' w' (k + 1 + t)) : ℤ) :=
        Finset.sum_congr rfl (fun t _ => by rw [show k + (t + 1) = k + 1 + t by ring])
      rw [e]
      omega

theorem apart_of (h : GoodCode nO G fb) (hpos : 0 < nO) (hf : Fits nO G fb) (m D : ℕ)
    (hB : ∀ s ∈ trellisStates G, ∀ s' ∈ trellisStates G, apartB G (fb.map Prod.fst) (fb.map Prod.snd) m D s s' = true) :
    ApartDist nO G fb m D := by
  intro v v' w w' hv hv' hw hw' hne
  have := apartB_sound h hpos hf hv.2 hv'.2 hw hw' m D 0
    (hB _ ((mem_getBinPerm _ _).2 (run_word hw _)) _ ((mem_getBinPerm _ _).2 (run_word hw' _)))
    (fun t ht => by rw [Nat.zero_add]; exact hne t ht)
  simp only [Nat.zero_add] at this
  exact_mod_cast this

theorem diverge_of (h : GoodCode nO G fb) (hpos : 0 < nO) (hf : Fits nO G fb) (m D : ℕ)
    (hB : ∀ s ∈ trellisStates G, apartB G (fb.map Prod.fst) (fb.map Prod.snd) m D s s = true) :
    DivergeDist nO G fb m D := by
  intro v v' w w' hv hv' hw hw' he hne
  have := apartB_sound h hpos hf hv.2 hv'.2 hw hw' m D 0 (by
    rw [cellsAt_eq, cellsAt_eq] at he
    rw [show ((0:ℕ):ℤ) = 0 by rfl, ← he]
    exact hB _ ((mem_getBinPerm _ _).2 (run_word hw _)))
    (fun t ht => by rw [Nat.zero_add]; exact hne t ht)
  simp only [Nat.zero_add] at this
  exact_mod_cast this

theorem merge_of (h : GoodCode nO G fb) (hpos : 0 < nO) (hf : Fits nO G fb) (D : ℕ)
    (hB : ∀ s ∈ trellisStates G, ∀ s' ∈ trellisStates G, ∀ u ∈ getBinPerm G.length, ∀ u' ∈ getBinPerm G.length,
      (trellisStep G (fb.map Prod.fst) (fb.map Prod.snd) s u).2 = (trellisStep G (fb.map Prod.fst) (fb.map Prod.snd) s' u').2 →
      s ≠ s' → (D : ℤ) ≤ hammingDist (trellisStep G (fb.map Prod.fst) (fb.map Prod.snd) s u).1
        (trellisStep G (fb.map Prod.fst) (fb.map Prod.snd) s' u').1) : MergeDist nO G fb D := by
  intro u u' w w' hu hu' hw hw' he hne
  rw [cellsAt_eq, cellsAt_eq] at he hne
  have s1 := run_step h hpos hf hu.2 hw 0
  have s2 := run_step h hpos hf hu'.2 hw' 0
  rw [rowOf_zero hu] at s1
  rw [rowOf_zero hu'] at s2
  have := hB _ ((mem_getBinPerm _ _).2 (run_word hw ((0:ℕ):ℤ))) _ ((mem_getBinPerm _ _).2 (run_word hw' ((0:ℕ):ℤ)))
    u ((mem_getBinPerm _ _).2 hu) u' ((mem_getBinPerm _ _).2 hu')
  rw [s1, s2] at this
  have := this (by simpa using he) (by simpa using hne)
  simp only [] at this
  rw [outOf_dist] at this
  exact_mod_cast this

end

end Verif
