import Verif.Lemmas.Trellis
import Verif.Lemmas.ConvFloat

/-! Lemmas: bridge between the specification of codes and the model arguments. -/

namespace Verif
open Spec

theorem encBit_congr (nIn : ℕ) (g : ℕ → ℕ → List Int) (d1 d2 : ℕ → ℕ → Prop) [∀ i j, Decidable (d1 i j)]
    [∀ i j, Decidable (d2 i j)] (x w : ℕ → ℤ → Int) (j : ℕ) (t : ℤ) (h : ∀ i < nIn, (d1 i j ↔ d2 i j)) :
    encBit nIn g d1 x w j t = encBit nIn g d2 x w j t := by
  unfold encBit
  congr 1
  refine Finset.sum_congr rfl (fun i hi => ?_)
  rw [Finset.mem_range] at hi
  by_cases hd : d1 i j
  · rw [if_pos hd, if_pos ((h i hi).1 hd)]
  · rw [if_neg hd, if_neg (fun h' => hd ((h i hi).2 h'))]

theorem fbAt_spec (fb : Fb) (i : ℕ) : (fbAt (fb.map Prod.fst) i).getD [1] = poly fb i := by
  match fb with
  | none => rfl
  | some (l, u) => rfl

theorem direct_spec (fb : Fb) (i j : ℕ) :
    (fbAt (fb.map Prod.fst) i ≠ none ∧ ufAt (fb.map Prod.snd) i j = 0) ↔ isDirect fb i j = true := by
  match fb with
  | none => simp [fbAt, isDirect]
  | some (l, u) =>
    show (l.getD i none ≠ none ∧ flag u i j = 0) ↔ (l.getD i none).isSome && decide (flag u i j = 0)
    cases l.getD i none <;> simp

theorem goodCode_check {nO : ℕ} {G : ConvG} {fb : Fb} (h : GoodCode nO G fb) {p : List Int} (hp : IsBinary p) :
    checkValidConv p G (fb.map Prod.fst) (fb.map Prod.snd) = .ok () := by
  match fb, h with
  | none, h => exact checkValidConv_none h.1 hp _
  | some (l, u), h => exact checkValidConv_some h.1 hp (h.2 l u rfl)

theorem goodCode_poly {nO : ℕ} {G : ConvG} {fb : Fb} (h : GoodCode nO G fb) (i : ℕ) (f : List Int)
    (hf : fbAt (fb.map Prod.fst) i = some f) : f.getD 0 0 = 1 ∧ IsBinary f := by
  match fb, h with
  | none, h => simp [fbAt] at hf
  | some (l, u), h =>
    have hf' : l.getD i none = some f := hf
    have hi : i < l.length := by
      by_contra hi
      rw [getD_of_le none l (by omega)] at hf'
      cases hf'
    have := (h.2 l u rfl).poly f (hf' ▸ mem_of_getD none l hi)
    exact ⟨this.2, this.1⟩

theorem goodCode_dir {nO : ℕ} {G : ConvG} {fb : Fb} (h : GoodCode nO G fb) (hd : DirectLong nO G fb) (i j : ℕ)
    (hi : i < G.length) (hj : j < nO) (h1 : ufAt (fb.map Prod.snd) i j = 0) (h2 : fbAt (fb.map Prod.fst) i ≠ none) :
    (∀ d, 1 ≤ d → (gAt G i j).getD d 0 = 0) ∧ 1 < (gAt G i j).length := by
  have hdir := (direct_spec fb i j).1 ⟨h2, h1⟩
  refine ⟨?_, hd i j hi hj hdir⟩
  match fb, h with
  | none, h => simp [fbAt] at h2
  | some (l, u), h => exact (h.2 l u rfl).unused i j hi hj h1 h2

theorem goodCode_fits {nO : ℕ} {G : ConvG} {fb : Fb} (h : GoodCode nO G fb) (hpos : 0 < nO) (hf : Fits nO G fb) :
    TrellisFits nO G (fb.map Prod.fst) where
  good := h.1
  pos := hpos
  len := by
    intro i f hi hfb
    match fb, hf with
    | none, _ => simp [fbAt] at hfb
    | some (l, u), hf =>
      have := (hf l u rfl i 0 hi hpos).1 f hfb
      rw [this]
      have := (goodG_len h.1 hi hpos).1
      unfold memOf
      rw [← this]
      rfl
  rest := by
    intro _ i j hi hj hn
    match fb, hf with
    | none, _ => simp at *
    | some (l, u), hf => exact (hf l u rfl i j hi hj).2 hn

theorem trellisCheck_ok {nO : ℕ} {G : ConvG} {fb : ConvFb} (h : TrellisFits nO G fb) : trellisCheck G fb = .ok () := by
  have hpos : 0 < G.length := List.length_pos_of_ne_nil h.good.1
  unfold trellisCheck
  rw [if_neg (by omega), if_pos]
  rw [List.all_eq_true]
  intro i hi
  rw [List.mem_range] at hi
  cases hf : fbAt fb i with
  | none => rfl
  | some f =>
    simp only []
    rw [h.len i f hi hf, memSizes_eq, getD_map_lt _ 0 0 _ (by simpa using hi), getD_of_lt 0 (List.range _) (by simpa using hi)]
    simp

/-- registers for a pattern with zero initial contents -/
theorem exists_registers_zero (fb : Fb) (p : List Int) (nIn : ℕ) :
    ∃ w : ℕ → ℤ → Int, ∀ i, IsRegister (poly fb i) (inBit p nIn i) (w i) ∧ ∀ t < 0, w i t = 0 := by
  have : ∀ i, ∃ w : ℤ → Int, IsRegister (poly fb i) (inBit p nIn i) w ∧ ∀ t < 0, w t = 0 := by
    intro i
    obtain ⟨w, h1, h2⟩ := exists_register (poly fb i) (inBit p nIn i) []
    refine ⟨w, h1, fun t ht => ?_⟩
    have := h2 (-1 - t).toNat
    rw [show (-1 : ℤ) - ((-1 - t).toNat : ℤ) = t by omega] at this
    rw [this]
    rfl
  choose w hw using this
  exact ⟨w, hw⟩

theorem inBit_binary {p : List Int} (hp : IsBinary p) (nIn i : ℕ) (t : ℤ) : inBit p nIn i t = 0 ∨ inBit p nIn i t = 1 := by
  unfold inBit
  split
  · exact binary_getD hp _
  · exact Or.inl rfl

/-- exact encoder for a described code -/
theorem coding_code {nO : ℕ} {G : ConvG} {fb : Fb} (h : GoodCode nO G fb) (hd : DirectLong nO G fb) (p : List Int)
    (hp : IsBinary p) (w : ℕ → ℤ → Int)
    (hw : ∀ i < G.length, IsRegister (poly fb i) (inBit p G.length i) (w i) ∧ ∀ t < 0, w i t = 0) :
    ∃ c, codingConv id p G (fb.map Prod.fst) (fb.map Prod.snd) = .ok c ∧
      c.length = nBlocks p.length G.length * nO ∧ IsBinary c ∧
      ∀ t j, t < nBlocks p.length G.length → j < nO → c.getD (t * nO + j) 0
        = encBit G.length (tf G) (fun i j => isDirect fb i j = true) (inBit p G.length) w j t := by
  obtain ⟨c, h1, h2, h3, h4⟩ := codingConv_eq h.1 (fb.map Prod.fst) (fb.map Prod.snd) p (goodCode_check h hp) w
    (fun i hi => (hw i hi).2) (fun i hi => by rw [fbAt_spec]; exact (hw i hi).1)
    (fun i f hf => (goodCode_poly h i f hf).1) (fun i j hi hj => goodCode_dir h hd i j hi hj)
  refine ⟨c, h1, h2, h3, fun t j ht hj => ?_⟩
  rw [h4 t j ht hj]
  exact encBit_congr _ _ _ _ _ _ _ _ (fun i _ => direct_spec fb i j)

theorem contribution_ok {nO : ℕ} {G : ConvG} {fb : Fb} (h : GoodCode nO G fb) (hd : DirectLong nO G fb) (p : List Int)
    (i j : ℕ) (hi : i < G.length) (hj : j < nO) :
    ∃ c, convContribution id G (fb.map Prod.fst) (fb.map Prod.snd) (inSeq p G.length i) i j = .ok c := by
  obtain ⟨w, hw⟩ := exists_registers_zero fb p G.length
  obtain ⟨c, hc, _⟩ := contribution_spec G (fb.map Prod.fst) (fb.map Prod.snd) (inSeq p G.length i) i j
    (goodG_binary h.1 hi hj) (inBit p G.length i) (w i) (inBit_nat p _ _ hi) (inBit_neg p _ _) (hw i).2
    (by rw [fbAt_spec]; exact (hw i).1) (fun f hf => (goodCode_poly h i f hf).1) (goodCode_dir h hd i j hi hj)
  exact ⟨c, hc⟩

/-- walking the trellis from the state given by past register contents -/
theorem walk_code {nO : ℕ} {G : ConvG} {fb : Fb} (h : GoodCode nO G fb) (hpos : 0 < nO) (hf : Fits nO G fb)
    (p : List Int) (hp : IsBinary p) (w : ℕ → ℤ → Int)
    (hw : ∀ i < G.length, IsRegister (poly fb i) (inBit p G.length i) (w i)) :
    trellisWalk G (fb.map Prod.fst) (fb.map Prod.snd) (stateAt G w 0) (rows G.length (padTo G.length p))
      = (((List.range (nBlocks p.length G.length)).map (fun (k : ℕ) => (List.range nO).map (fun j =>
          encBit G.length (tf G) (fun i j => isDirect fb i j = true) (inBit p G.length) w j k))).flatten,
        stateAt G w (nBlocks p.length G.length)) := by
  have hG : 0 < G.length := List.length_pos_of_ne_nil h.1.1
  have hl := rows_padTo_length G.length hG p
  rw [trellisWalk_eq (goodCode_fits h hpos hf) (fb.map Prod.snd) (inBit p G.length) w _ 0 le_rfl]
  · rw [hl]
    refine Prod.ext ?_ ?_
    · simp only [zero_add]
      congr 1
      apply List.map_congr_left
      intro k _
      apply List.map_congr_left
      intro j _
      exact encBit_congr _ _ _ _ _ _ _ _ (fun i _ => direct_spec fb i j)
    · simp
  · intro k hk i hi
    rw [zero_add, inBit_nat p _ _ hi, inSeq_getD p _ _ hi, rows_getD 0 _ _ k i (by rw [← rows_length]; exact hk) hi, padTo_getD]
  · intro k _ i _
    exact inBit_binary hp _ _ _
  · intro i hi
    rw [fbAt_spec]
    exact hw i hi

end Verif
