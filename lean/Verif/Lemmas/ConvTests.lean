import Verif.Model.ConvTests
import Verif.Spec.ConvTests
import Verif.Lemmas.ViterbiCode
import Verif.Props.Framing

/-! Lemmas for the tests of the convolutional code. -/

namespace Verif
open Spec

/-! ### Linearity of the encoder -/

theorem isRegister_add {f : List Int} {x x' w w' : ℤ → Int} (h : IsRegister f x w) (h' : IsRegister f x' w') :
    IsRegister f (fun t => (x t + x' t) % 2) (fun t => (w t + w' t) % 2) := by
  intro t ht
  show (w t + w' t) % 2 = _
  rw [h t ht, h' t ht, ← Int.add_emod]
  have hs : (∑ d ∈ Finset.range (f.length - 1), f.getD (d + 1) 0 * ((w (t - (d + 1)) + w' (t - (d + 1))) % 2)) % 2
      = (∑ d ∈ Finset.range (f.length - 1), f.getD (d + 1) 0 * (w (t - (d + 1)) + w' (t - (d + 1)))) % 2 := by
    apply sum_emod_congr
    intro d _
    rw [Int.mul_emod, Int.emod_emod_of_dvd _ (dvd_refl 2), ← Int.mul_emod]
  rw [Int.add_emod ((x t + x' t) % 2), hs, Int.emod_emod_of_dvd _ (dvd_refl 2), ← Int.add_emod]
  congr 1
  simp only [mul_add, Finset.sum_add_distrib]
  ring

theorem encBit_add (nIn : ℕ) (g : ℕ → ℕ → List Int) (d : ℕ → ℕ → Prop) [∀ i j, Decidable (d i j)]
    (x x' w w' : ℕ → ℤ → Int) (j : ℕ) (t : ℤ) :
    encBit nIn g d (fun i t => (x i t + x' i t) % 2) (fun i t => (w i t + w' i t) % 2) j t
      = (encBit nIn g d x w j t + encBit nIn g d x' w' j t) % 2 := by
  unfold encBit
  rw [← Int.add_emod, ← Finset.sum_add_distrib]
  apply sum_emod_congr
  intro i _
  split
  · rw [← mul_add, Int.mul_emod, Int.emod_emod_of_dvd _ (dvd_refl 2), ← Int.mul_emod]
  · unfold tapSum
    rw [← Finset.sum_add_distrib]
    apply sum_emod_congr
    intro k _
    rw [← mul_add, Int.mul_emod, Int.emod_emod_of_dvd _ (dvd_refl 2), ← Int.mul_emod]

theorem binary_eq_of_add {a b : Int} (ha : a = 0 ∨ a = 1) (hb : b = 0 ∨ b = 1) (h : (a + b) % 2 = 0) : a = b := by
  omega

section
variable {nO n : ℕ} {G : ConvG} {fb : Fb}

/-- two runs with the same output bits at time `t` have the same inputs and register contents there -/
theorem zeroStep_eq (hz : ZeroStep nO G fb) {x x' w w' : ℕ → ℤ → Int} {t : ℤ} (ht : 0 ≤ t)
    (h : ∀ i < G.length, IsRegister (poly fb i) (x i) (w i) ∧ (∀ t < 0, w i t = 0 ∨ w i t = 1) ∧ ∀ t, x i t = 0 ∨ x i t = 1)
    (h' : ∀ i < G.length, IsRegister (poly fb i) (x' i) (w' i) ∧ (∀ t < 0, w' i t = 0 ∨ w' i t = 1) ∧
      ∀ t, x' i t = 0 ∨ x' i t = 1)
    (ho : ∀ j < nO, encBit G.length (tf G) (fun i j => isDirect fb i j = true) x w j t
      = encBit G.length (tf G) (fun i j => isDirect fb i j = true) x' w' j t) :
    ∀ i < G.length, x i t = x' i t ∧ ∀ k : ℕ, k + 1 < (tf G i 0).length → w i (t - 1 - k) = w' i (t - 1 - k) := by
  intro i hi
  have := hz (fun i t => (x i t + x' i t) % 2) (fun i t => (w i t + w' i t) % 2) t ht
    (fun i hi => ⟨isRegister_add (h i hi).1 (h' i hi).1, fun t _ => Int.emod_two_eq_zero_or_one _,
      fun t => Int.emod_two_eq_zero_or_one _⟩)
    (fun j hj => by rw [encBit_add, ho j hj]; omega) i hi
  refine ⟨binary_eq_of_add ((h i hi).2.2 t) ((h' i hi).2.2 t) this.1, fun k hk => ?_⟩
  exact binary_eq_of_add (register_binary (h i hi).1 (h i hi).2.1 _) (register_binary (h' i hi).1 (h' i hi).2.1 _)
    (this.2 k hk)

/-- codes with `ZeroStep` are determined by their outputs -/
theorem zeroStep_determined (hz : ZeroStep nO G fb) (hG : 0 < G.length) :
    ∀ v v' c, Word (G.length * n) v → Word (G.length * n) v' → IsCode nO n G fb v c →
      IsCode nO n G fb v' c → v = v' := by
  intro v v' c hv hv' hc hc'
  obtain ⟨w, hw, hc1, -⟩ := hc
  obtain ⟨w', hw', hc1', -⟩ := hc'
  apply ext_getD 0 (by rw [hv.1, hv'.1])
  intro q hq
  rw [hv.1] at hq
  have hj : q % G.length < G.length := Nat.mod_lt _ hG
  have ht : q / G.length < n := Nat.div_lt_of_lt_mul hq
  have hij : q / G.length * G.length + q % G.length = q := by rw [Nat.mul_comm]; exact Nat.div_add_mod q _
  have := (zeroStep_eq hz (t := ((q / G.length : ℕ) : ℤ)) (by positivity)
    (fun i hi => ⟨(hw i hi).1, (hw i hi).2, fun t => inBit_binary hv.2 _ _ t⟩)
    (fun i hi => ⟨(hw' i hi).1, (hw' i hi).2, fun t => inBit_binary hv'.2 _ _ t⟩)
    (fun j hj => by rw [← hc1 _ j ht hj, ← hc1' _ j ht hj]) _ hj).1
  unfold inBit at this
  rw [if_pos (by positivity), if_pos (by positivity), Int.toNat_natCast, hij] at this
  exact this

theorem zeroStep_identified (hz : ZeroStep nO G fb) : Identified nO G fb := by
  intro u u' w w' hu hu' hw hw' ho _
  have h := zeroStep_eq hz (t := 0) le_rfl
    (fun i hi => ⟨(hw i hi).1, (hw i hi).2, fun t => inBit_binary hu.2 G.length i t⟩)
    (fun i hi => ⟨(hw' i hi).1, (hw' i hi).2, fun t => inBit_binary hu'.2 G.length i t⟩) ho
  refine ⟨fun i hi k hk => by simpa using (h i hi).2 k hk, ?_⟩
  apply ext_getD 0 (by rw [hu.1, hu'.1])
  intro i hi
  rw [hu.1] at hi
  simpa [inBit] using (h i hi).1

/-! ### The filter of the tests -/

theorem accepts_zero {G : ConvG} {fb : ConvFb} {uf : ConvUf} (ha : convTestAccepts G fb uf = true) (s u : List Int)
    (hs : Word (memSizes G).sum s) (hu : Word G.length u) (h0 : (trellisStep G fb uf s u).1.sum = 0) :
    s.sum ≤ 0 ∧ (trellisStep G fb uf s u).2.sum ≤ 0 := by
  unfold convTestAccepts at ha
  simp only [Bool.and_eq_true] at ha
  have h4 := List.all_eq_true.1 ha.2 (s, trellisStep G fb uf s u) (by
    unfold trellisItems trellisStates
    rw [List.mem_flatMap]
    exact ⟨s, (mem_getBinPerm _ _).2 hs, List.mem_map.2 ⟨u, (mem_getBinPerm _ _).2 hu, rfl⟩⟩)
  simp only [h0, beq_self_eq_true, Bool.true_and, Bool.not_eq_true', Bool.or_eq_false_iff, decide_eq_false_iff_not,
    not_lt] at h4
  exact h4

theorem binary_sum_nonpos {l : List Int} (hl : IsBinary l) (h : l.sum ≤ 0) : ∀ x ∈ l, x = 0 := by
  induction l with
  | nil => simp
  | cons a l ih =>
    have hl' : IsBinary l := fun x hx => hl x (by simp [hx])
    have h0 : 0 ≤ l.sum := List.sum_nonneg (fun x hx => by have := hl' x hx; omega)
    have ha := hl a (by simp)
    rw [List.sum_cons] at h
    intro x hx
    rw [List.mem_cons] at hx
    rcases hx with rfl | hx
    · omega
    · exact ih hl' (by omega) x hx

theorem getD_zero_of_mem {l : List Int} (h : ∀ x ∈ l, x = 0) (k : ℕ) : l.getD k 0 = 0 := by
  rcases Nat.lt_or_ge k l.length with hk | hk
  · exact h _ (mem_of_getD 0 l hk)
  · exact getD_of_le 0 l hk

/-- the cells of a state -/
theorem stateAt_zero_cells {G : ConvG} {w : ℕ → ℤ → Int} {t : ℤ} (h : ∀ x ∈ stateAt G w t, x = 0) (i : ℕ)
    (hi : i < G.length) (k : ℕ) (hk : k < memOf G i) : w i (t - 1 - k) = 0 := by
  apply h
  unfold stateAt cells
  rw [List.mem_flatten]
  refine ⟨_, List.mem_map.2 ⟨i, by simpa using hi, rfl⟩, ?_⟩
  exact List.mem_map.2 ⟨k, by simpa using hk, rfl⟩

theorem accepts_zeroStep (h : GoodCode nO G fb) (hpos : 0 < nO) (hf : Fits nO G fb) (hm : HasMemory nO G)
    (ha : convTestAccepts G (fb.map Prod.fst) (fb.map Prod.snd) = true) : ZeroStep nO G fb := by
  intro x w t ht hw ho i hi
  have hTF := goodCode_fits h hpos hf
  have hx : ∀ i < G.length, x i t = ((List.range G.length).map (fun i => x i t)).getD i 0 := by
    intro i hi
    rw [getD_map_lt _ 0 0 _ (by simpa using hi), getD_of_lt 0 (List.range _) (by simpa using hi), List.getElem_range]
  have hb : ∀ i < G.length, ∀ s, w i s = 0 ∨ w i s = 1 := fun i hi => register_binary (hw i hi).1 (hw i hi).2.1
  have hstep := trellisStep_eq hTF (fb.map Prod.snd) x w t ht _ hx (fun i hi => (hw i hi).2.2 t)
    (fun i hi => by rw [fbAt_spec]; exact (hw i hi).1)
  have hW : Word (memSizes G).sum (stateAt G w t) := stateAt_word G w t (fun i hi s _ => hb i hi s)
  have hW' : Word (memSizes G).sum (stateAt G w (t + 1)) := stateAt_word G w (t + 1) (fun i hi s _ => hb i hi s)
  obtain ⟨a1, a2⟩ := accepts_zero ha (stateAt G w t) ((List.range G.length).map (fun i => x i t)) hW
    ⟨by simp, by
      intro y hy
      rw [List.mem_map] at hy
      obtain ⟨i, hi, rfl⟩ := hy
      exact (hw i (by simpa using hi)).2.2 t⟩ (by
    rw [hstep]
    simp only []
    rw [List.sum_eq_zero]
    intro y hy
    rw [List.mem_map] at hy
    obtain ⟨j, hj, rfl⟩ := hy
    exact (encBit_congr _ _ _ _ _ _ _ _ (fun i _ => direct_spec fb i j)).trans (ho j (by simpa using hj)))
  rw [hstep] at a2
  have c1 := stateAt_zero_cells (binary_sum_nonpos hW.2 a1)
  have c2 := stateAt_zero_cells (binary_sum_nonpos hW'.2 a2)
  have hmem : memOf G i + 1 = (tf G i 0).length := memOf_lt h hpos i 0 hi hpos
  have hm' := hm i 0 hi hpos
  refine ⟨?_, fun k hk => c1 i hi k (by omega)⟩
  have hw0 : w i t = 0 := by
    have := c2 i hi 0 (by omega)
    simpa using this
  have hr := (hw i hi).1 t ht
  rw [hw0, Finset.sum_eq_zero, add_zero] at hr
  · have := (hw i hi).2.2 t
    omega
  · intro d hd
    rw [Finset.mem_range, ← fbAt_spec] at hd
    have : d < memOf G i := by
      cases hq : fbAt (fb.map Prod.fst) i with
      | none => rw [hq] at hd; simp at hd
      | some f =>
        rw [hq] at hd
        have := hTF.len i f hi hq
        simp only [Option.getD_some] at hd
        omega
    have := c1 i hi d this
    rw [show t - ((d : ℤ) + 1) = t - 1 - d by ring, this, mul_zero]

end

/-! ### The reference encoders -/

theorem refMem_getD {G : ConvG} (f : ℕ → List Int) (i : ℕ) (hi : i < G.length) :
    ((List.range G.length).map f).getD i [] = f i := by
  rw [getD_map_lt _ 0 [] _ (by simpa using hi), getD_of_lt 0 (List.range _) (by simpa using hi), List.getElem_range]

theorem splitMem_map (f : ℕ → List Int) (G : ConvG) (hf : ∀ i < G.length, (f i).length = memOf G i) (i : ℕ) (hi : i < G.length) :
    (splitMem (memSizes G) ((List.range G.length).map f).flatten).getD i [] = f i := by
  have : memSizes G = ((List.range G.length).map f).map List.length := by
    rw [memSizes_eq, List.map_map]
    apply List.map_congr_left
    intro k hk
    exact (hf k (by simpa using hk)).symm
  rw [this, splitMem_flatten, getD_map_lt _ 0 [] _ (by simpa using hi), getD_of_lt 0 (List.range _) (by simpa using hi),
    List.getElem_range]

theorem refRegister_eq (fb : ConvFb) (i : ℕ) (u : Int) (m : List Int) :
    refRegister (fbAt fb i) u m = memoryK fb i u m.dropLast := rfl

/-- the reference encoder follows the trellis -/
theorem refLoop_walk (G : ConvG) (fb : ConvFb) (uf : ConvUf) (term : Nat → Nat → Int → List Int → Int)
    (hterm : ∀ i j u m, term i j u (memoryK fb i u m) = trellisTerm G fb uf i j u m)
    (us : List (List Int)) (mem : ℕ → List Int) (hmem : ∀ i < G.length, (mem i).length = memOf G i + 1) :
    refLoop G fb term ((List.range G.length).map mem) us
      = (trellisWalk G fb uf ((List.range G.length).map (fun i => (mem i).dropLast)).flatten us).1 := by
  induction us generalizing mem with
  | nil => rfl
  | cons u us ih =>
    have hsm : ∀ i < G.length, (splitMem (memSizes G) ((List.range G.length).map (fun i => (mem i).dropLast)).flatten).getD i []
        = (mem i).dropLast :=
      fun i hi => splitMem_map _ G (fun i hi => by rw [List.length_dropLast, hmem i hi]; rfl) i hi
    have hstep2 : (refStep G fb term ((List.range G.length).map mem) u).2
        = (List.range G.length).map (fun i => memoryK fb i (u.getD i 0) (mem i).dropLast) := by
      unfold refStep
      simp only []
      apply List.map_congr_left
      intro i hi
      rw [List.mem_range] at hi
      rw [refMem_getD _ i hi, refRegister_eq]
    have hstep1 : (refStep G fb term ((List.range G.length).map mem) u).1
        = (trellisStep G fb uf ((List.range G.length).map (fun i => (mem i).dropLast)).flatten u).1 := by
      have e : (refStep G fb term ((List.range G.length).map mem) u).1
          = (List.range (nOut G)).map (fun jj => (List.range G.length).foldl (fun c ii =>
            (c + term ii jj (u.getD ii 0) ((refStep G fb term ((List.range G.length).map mem) u).2.getD ii [])) % 2) 0) := rfl
      rw [e, hstep2]
      unfold trellisStep
      simp only []
      apply List.map_congr_left
      intro j _
      rw [foldl_mod2, foldl_mod2]
      congr 1
      refine Finset.sum_congr rfl fun i hi => ?_
      rw [Finset.mem_range] at hi
      rw [refMem_getD _ i hi, hterm, hsm i hi]
    have hnext : (trellisStep G fb uf ((List.range G.length).map (fun i => (mem i).dropLast)).flatten u).2
        = ((List.range G.length).map (fun i => (memoryK fb i (u.getD i 0) (mem i).dropLast).dropLast)).flatten := by
      unfold trellisStep
      simp only []
      congr 1
      apply List.map_congr_left
      intro i hi
      rw [List.mem_range] at hi
      rw [hsm i hi]
    rw [refLoop, trellisWalk]
    simp only []
    rw [hstep1, hstep2, hnext, ih]
    intro i hi
    simp [memoryK, hmem i hi]

theorem refMemory_eq (G : ConvG) : refMemory G = (List.range G.length).map (fun i => List.replicate (cols (G.getD i [])) 0) := by
  apply ext_getD [] (by simp [refMemory])
  intro i hi
  have hi' : i < G.length := by simpa [refMemory] using hi
  unfold refMemory
  rw [getD_map_lt _ [] [] _ hi', refMem_getD _ i hi']

theorem refLoop_start {nO : ℕ} {G : ConvG} (hG : GoodG nO G) (hpos : 0 < nO) (fb : ConvFb) (uf : ConvUf)
    (term : Nat → Nat → Int → List Int → Int)
    (hterm : ∀ i j u m, term i j u (memoryK fb i u m) = trellisTerm G fb uf i j u m) (us : List (List Int)) :
    refLoop G fb term (refMemory G) us
      = (trellisWalk G fb uf (List.replicate (memSizes G).sum 0) us).1 := by
  rw [refMemory_eq, refLoop_walk G fb uf term hterm us _ (by
    intro i hi
    have := (goodG_len hG hi hpos).2
    simp only [List.length_replicate, memOf]
    omega)]
  congr 2
  have := stateAt_zero G (fun _ _ => 0) (fun _ _ _ _ => rfl)
  rw [← this]
  unfold stateAt
  congr 1
  apply List.map_congr_left
  intro i _
  unfold cells memOf
  simp

theorem buffer_rows (p : List Int) (hp : p ≠ []) (n : ℕ) (hn : 0 < n) : buffer p n 0 0 = .ok (rows n (padTo n p)) := by
  obtain ⟨M, h1, h2, h3⟩ := C42_frames p hp n 0 0 (by exact_mod_cast hn)
  rw [h1]
  congr 1
  have hl : M.length = nBlocks p.length n := by
    have hb := nBlocks_mul_ge p.length n hn
    have hnl : ∀ r : ℕ, r < M.length ↔ r * n < p.length := by
      intro r
      rw [h2 r]
      simp only [sub_zero, Nat.cast_zero, zero_add, max_self]
      exact_mod_cast Iff.rfl
    apply le_antisymm
    · by_contra hcon
      push Not at hcon
      have := (hnl (nBlocks p.length n)).1 hcon
      omega
    · rcases Nat.eq_zero_or_pos (nBlocks p.length n) with h0 | h0
      · omega
      · have := (hnl (nBlocks p.length n - 1)).2 (by
          rw [Nat.sub_mul, one_mul]
          have : n ≤ nBlocks p.length n * n := Nat.le_mul_of_pos_left n h0
          omega)
        omega
  apply ext_getD [] (by rw [hl, rows_padTo_length n hn])
  intro r hr
  have hr' : r < (padTo n p).length / n := by rw [padTo_length n hn, Nat.mul_div_cancel _ hn, ← hl]; exact hr
  obtain ⟨e1, e2⟩ := h3 r hr
  have hrl : ((rows n (padTo n p)).getD r []).length = n :=
    mem_rows_length n _ _ (mem_of_getD [] _ (by rw [rows_length]; exact hr'))
  apply ext_getD 0 (by rw [e1, hrl])
  intro c hc
  rw [e1] at hc
  rw [e2 c hc, rows_getD 0 _ _ r c hr' hc, padTo_getD]
  unfold sample
  simp only [sub_zero, Nat.cast_zero]
  norm_cast

/-! ### Draws -/

theorem zip_zero_sum (l : List Int) (n : ℕ) : (List.zipWith (· * ·) (List.replicate n 0) l).sum = 0 := by
  induction n generalizing l with
  | zero => rfl
  | succ n ih =>
    cases l with
    | nil => rfl
    | cons a l => rw [List.replicate_succ, List.zipWith_cons_cons, List.sum_cons, ih, zero_mul, add_zero]

theorem zip_zero_sum' (l : List Int) (n : ℕ) : (List.zipWith (· * ·) l (List.replicate n 0)).sum = 0 := by
  induction n generalizing l with
  | zero => simp
  | succ n ih =>
    cases l with
    | nil => rfl
    | cons a l => rw [List.replicate_succ, List.zipWith_cons_cons, List.sum_cons, ih, mul_zero, add_zero]

theorem memoryK_zero (fb : ConvFb) (i n : ℕ) : memoryK fb i 0 (List.replicate n 0) = List.replicate (n + 1) 0 := by
  unfold memoryK
  cases fbAt fb i with
  | none => rfl
  | some f =>
    simp only [zip_zero_sum]
    rfl

theorem trellisTerm_zero (G : ConvG) (fb : ConvFb) (uf : ConvUf) (i j n : ℕ) :
    trellisTerm G fb uf i j 0 (List.replicate n 0) = 0 := by
  unfold trellisTerm
  simp only [memoryK_zero, zip_zero_sum', zero_mul]
  split
  · rfl
  · split <;> rfl

/-- the filter of the tests rejects codes that have an input with memory but without polynomial -/
theorem accepts_all_feedback {nO : ℕ} {G : ConvG} (hG : GoodG nO G) (hpos : 0 < nO) (hm : HasMemory nO G)
    {l : List (Option (List Int))} {u : List (List Int)}
    (habs : ∀ i j, i < G.length → j < nO → l.getD i none = none → flag u i j = 0)
    (ha : convTestAccepts G (some l) (some u) = true) (i : ℕ) (hi : i < G.length) : l.getD i none ≠ none := by
  intro hn
  have hmem : ∀ k < G.length, 0 < memOf G k := by
    intro k hk
    have h1 : 2 ≤ (gAt G k 0).length := hm k 0 hk hpos
    have h2 := (goodG_len hG hk hpos).1
    unfold memOf
    omega
  obtain ⟨f, hf⟩ : ∃ f : ℕ → List Int, f = fun k => if k = i then 1 :: List.replicate (memOf G k - 1) 0 else List.replicate (memOf G k) 0 :=
    ⟨_, rfl⟩
  have hlen : ∀ k < G.length, (f k).length = memOf G k := by
    intro k hk
    rw [hf]
    have := hmem k hk
    simp only []
    split
    · simp; omega
    · simp
  have hbin : ∀ k, IsBinary (f k) := by
    intro k x hx
    rw [hf] at hx
    simp only [] at hx
    split at hx
    · rw [List.mem_cons] at hx
      rcases hx with rfl | hx
      · exact Or.inr rfl
      · exact Or.inl (List.eq_of_mem_replicate hx)
    · exact Or.inl (List.eq_of_mem_replicate hx)
  have hW : Word (memSizes G).sum ((List.range G.length).map f).flatten := by
    constructor
    · rw [List.length_flatten, List.map_map, memSizes_eq]
      congr 1
      apply List.map_congr_left
      intro k hk
      exact hlen k (by simpa using hk)
    · intro x hx
      rw [List.mem_flatten] at hx
      obtain ⟨r, hr, hx⟩ := hx
      rw [List.mem_map] at hr
      obtain ⟨k, _, rfl⟩ := hr
      exact hbin k x hx
  have h0 := (accepts_zero ha _ (List.replicate G.length 0) hW ⟨by simp, fun x hx => Or.inl (List.eq_of_mem_replicate hx)⟩ (by
    unfold trellisStep
    simp only []
    apply List.sum_eq_zero
    intro y hy
    rw [List.mem_map] at hy
    obtain ⟨j, hj, rfl⟩ := hy
    rw [List.mem_range, goodG_nOut hG] at hj
    rw [foldl_mod2, Finset.sum_eq_zero]
    · rfl
    · intro k hk
      rw [Finset.mem_range] at hk
      rw [splitMem_map f G hlen k hk]
      have hz : (List.replicate G.length (0 : Int)).getD k 0 = 0 := getD_zero_of_mem (fun x hx => List.eq_of_mem_replicate hx) k
      rw [hz]
      by_cases hki : k = i
      · subst hki
        unfold trellisTerm
        simp only [zero_mul]
        have hu : ufAt (some u) k j = 0 := habs k j hk hj hn
        rw [if_neg (by simp), if_pos (Or.inr hu)]
      · rw [hf]
        simp only [if_neg hki]
        exact trellisTerm_zero G _ _ k j _)).1
  have := binary_sum_nonpos hW.2 h0 1 (by
    rw [List.mem_flatten]
    exact ⟨f i, List.mem_map.2 ⟨i, by simpa using hi, rfl⟩, by rw [hf]; simp⟩)
  omega

theorem binary_sum_le_one {l : List Int} (hb : IsBinary l) (h0 : l.getD 0 0 ≠ 0) (hs : ¬ 1 < l.sum) :
    ∀ d, 1 ≤ d → l.getD d 0 = 0 := by
  cases l with
  | nil => simp at h0
  | cons a l =>
    have ha := hb a (by simp)
    have hl : IsBinary l := fun x hx => hb x (by simp [hx])
    simp only [List.getD_cons_zero] at h0
    rw [List.sum_cons] at hs
    intro d hd
    obtain ⟨d, rfl⟩ : ∃ e, d = e + 1 := ⟨d - 1, by omega⟩
    rw [List.getD_cons_succ]
    exact getD_zero_of_mem (binary_sum_nonpos hl (by omega)) d

theorem feedbackDraw_good {nO : ℕ} {G : ConvG} (hG : GoodG nO G) {l : List (Option (List Int))} {u : List (List Int)}
    (h : FeedbackDraw nO G l u) : GoodCode nO G (some (l, u)) := by
  refine ⟨hG, fun l' u' he => ?_⟩
  cases he
  exact
    { shape := h.shape
      flags := by
        intro i j hi hj
        by_cases hn : l.getD i none = none
        · exact Or.inl (h.absent i j hi hj hn)
        · exact (h.flags i j hi hj hn).1
      poly := h.poly
      used := by
        intro i j hi hj h1 hn
        have := h.absent i j hi hj hn
        omega
      unused := by
        intro i j hi hj h0 hn
        have h1 := (h.flags i j hi hj hn).2
        refine binary_sum_le_one (goodG_binary hG hi hj) ?_ ?_
        · intro hz
          have := h1 (Or.inr hz)
          omega
        · intro hz
          have := h1 (Or.inl hz)
          omega }

theorem feedbackDraw_direct {nO : ℕ} {G : ConvG} {l : List (Option (List Int))} {u : List (List Int)}
    (h : FeedbackDraw nO G l u) : DirectLong nO G (some (l, u)) := by
  intro i j hi hj hd
  simp only [isDirect, Bool.and_eq_true] at hd
  obtain ⟨f, hf⟩ := Option.isSome_iff_exists.1 hd.1
  obtain ⟨h1, h2⟩ := h.size i j f hi hj hf
  omega

end Verif
