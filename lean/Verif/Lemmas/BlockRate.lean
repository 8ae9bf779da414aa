import Verif.Spec.BlockRate
import Verif.Lemmas.Linear
import Verif.Props.Linear
import Mathlib.Data.Nat.Choose.Sum
import Verif.Lemmas.GaussTail
import Mathlib.Data.Finset.Powerset
import Mathlib.Tactic.Linarith

/-! Sums over error patterns and decisions for C103. -/

open Finset MeasureTheory ProbabilityTheory

namespace Verif
open Spec

theorem flipProb_nonneg (n : ℕ) (p : ℝ) (h0 : 0 ≤ p) (h1 : p ≤ 1) (S : Finset (Fin n)) : 0 ≤ flipProb n p S :=
  mul_nonneg (pow_nonneg h0 _) (pow_nonneg (by linarith) _)

/-- sums over sets of a function of the size -/
theorem sum_card (n : ℕ) (F : ℕ → ℝ) : ∑ S : Finset (Fin n), F S.card = ∑ w ∈ range (n + 1), (n.choose w : ℝ) * F w := by
  have := Finset.sum_powerset_apply_card F (x := (univ : Finset (Fin n)))
  rw [card_univ, Fintype.card_fin, powerset_univ] at this
  simp only [nsmul_eq_mul] at this
  exact this

theorem flipProb_total (n : ℕ) (p : ℝ) : ∑ S : Finset (Fin n), flipProb n p S = 1 := by
  have h1 := sum_card n (fun w => p ^ w * (1 - p) ^ (n - w))
  have h2 := add_pow p (1 - p) n
  rw [add_sub_cancel, one_pow] at h2
  unfold flipProb
  rw [h1]
  refine Eq.trans (sum_congr rfl fun w _ => ?_) h2.symm
  ring

theorem wordOf_word (n : ℕ) (S : Finset (Fin n)) : Word n (wordOf n S) := by
  refine ⟨by simp [wordOf], fun x hx => ?_⟩
  unfold wordOf at hx
  rw [List.mem_ofFn] at hx
  obtain ⟨j, rfl⟩ := hx
  split_ifs <;> simp

theorem wordOf_getD (n : ℕ) (S : Finset (Fin n)) (j : Fin n) : (wordOf n S).getD j 0 = if j ∈ S then 1 else 0 := by
  unfold wordOf
  rw [List.getD_eq_getElem _ 0 (by simp), List.getElem_ofFn]

theorem flipped_length (n : ℕ) (c : ℕ → Int) (S : Finset (Fin n)) : (flipped n c S).length = n := by simp [flipped]

theorem flipped_getD (n : ℕ) (c : ℕ → Int) (S : Finset (Fin n)) (j : Fin n) :
    (flipped n c S).getD j 0 = if j ∈ S then 1 - c j else c j := by
  unfold flipped
  rw [List.getD_eq_getElem _ 0 (by simp), List.getElem_ofFn]

/-- every word is the word of a set -/
theorem wordOf_surj (n : ℕ) (b : List Int) (hb : Word n b) : ∃ S, wordOf n S = b := by
  refine ⟨univ.filter fun j : Fin n => b.getD j 0 = 1, ?_⟩
  refine ext_getD 0 (by rw [(wordOf_word n _).1, hb.1]) fun i hi => ?_
  rw [(wordOf_word n _).1] at hi
  have := wordOf_getD n (univ.filter fun j : Fin n => b.getD j 0 = 1) ⟨i, hi⟩
  simp only [mem_filter, mem_univ, true_and] at this
  rw [this]
  have h01 := hb.2 _ (mem_of_getD 0 b (by rw [hb.1]; exact hi))
  split_ifs <;> omega

theorem wordOf_inj (n : ℕ) (S T : Finset (Fin n)) (h : wordOf n S = wordOf n T) : S = T := by
  ext j
  have e := congrArg (fun l : List Int => l.getD j 0) h
  simp only [wordOf_getD] at e
  by_cases h1 : j ∈ S <;> by_cases h2 : j ∈ T <;> simp [h1, h2] at e ⊢

/-- a word with inverted positions is a word -/
theorem flipped_word (n : ℕ) (c : ℕ → Int) (hc : ∀ j < n, c j = 0 ∨ c j = 1) (S : Finset (Fin n)) : Word n (flipped n c S) := by
  refine ⟨flipped_length n c S, fun x hx => ?_⟩
  unfold flipped at hx
  rw [List.mem_ofFn] at hx
  obtain ⟨j, rfl⟩ := hx
  have := hc j j.2
  split_ifs <;> omega

theorem codeBit_bit (G : List (List Int)) (u : ℕ → Int) (j : ℕ) : codeBit G u j = 0 ∨ codeBit G u j = 1 :=
  Int.emod_two_eq_zero_or_one _

/-- distance of a word from itself with inverted positions -/
theorem dist_flipped (n : ℕ) (c : ℕ → Int) (hc : ∀ j < n, c j = 0 ∨ c j = 1) (S : Finset (Fin n)) :
    Spec.dist n c (seq (flipped n c S)) = S.card := by
  unfold Spec.dist
  rw [← card_map Fin.valEmbedding (s := S)]
  congr 1
  ext j
  rw [mem_filter, mem_range, mem_map]
  constructor
  · rintro ⟨hj, hne⟩
    refine ⟨⟨j, hj⟩, ?_, rfl⟩
    by_contra hS
    refine hne ?_
    have := flipped_getD n c S ⟨j, hj⟩
    rw [if_neg hS] at this
    exact this.symm
  · rintro ⟨⟨i, hi⟩, hS, rfl⟩
    refine ⟨hi, ?_⟩
    have := flipped_getD n c S ⟨i, hi⟩
    rw [if_pos hS] at this
    show c i ≠ (flipped n c S).getD i 0
    rw [this]
    have := hc i hi
    show c i ≠ 1 - c i
    omega

/-- the inverted positions can be chosen to get any word -/
theorem sum_flipped (n : ℕ) (c : ℕ → Int) (hc : ∀ j < n, c j = 0 ∨ c j = 1) (F : List Int → ℕ → ℝ) :
    ∑ S : Finset (Fin n), F (flipped n c S) S.card = ∑ B : Finset (Fin n), F (wordOf n B) (Spec.dist n c (seq (wordOf n B))) := by
  have hex : ∀ S : Finset (Fin n), ∃ B, wordOf n B = flipped n c S := fun S => wordOf_surj n _ (flipped_word n c hc S)
  choose φ hφ using hex
  have hinj : Function.Injective φ := by
    intro S T h
    have e : flipped n c S = flipped n c T := by rw [← hφ S, ← hφ T, h]
    ext j
    have e' := congrArg (fun l : List Int => l.getD j 0) e
    simp only [flipped_getD] at e'
    have := hc j j.2
    by_cases h1 : j ∈ S <;> by_cases h2 : j ∈ T <;> simp [h1, h2] at e' ⊢ <;> omega
  refine Fintype.sum_bijective φ (Finite.injective_iff_bijective.1 hinj) _ _ fun S => ?_
  rw [hφ S, dist_flipped n c hc S]

/-- the decoder of a single block -/
noncomputable def linDec (G : List (List Int)) (b : List Int) : List Int :=
  (getBinPerm G.length).getD (argmin (((getBinPerm G.length).map (vecMat G)).map (fun c => hammingDist c b))) []

theorem decoding_linDec {n : ℕ} {G : List (List Int)} (hG : BinaryMatrix n G) (hk : 0 < G.length) (hn : 0 < n) (rcv : List Int)
    (hr : IsBinary rcv) : decodingLinear rcv G = .ok ((rows n rcv).map (linDec G)).flatten :=
  decodingLinear_eq hG hk hn hr

theorem rows_one (n : ℕ) (hn : 0 < n) (b : List Int) (hb : b.length = n) : rows n b = [b] := by
  have h := rows_flatten n hn [b] (by intro r hr; rw [List.mem_singleton] at hr; rw [hr, hb])
  rwa [List.flatten_singleton] at h

theorem decoding_one {n : ℕ} {G : List (List Int)} (hG : BinaryMatrix n G) (hk : 0 < G.length) (hn : 0 < n) (b : List Int)
    (hb : Word n b) : decodingLinear b G = .ok (linDec G b) := by
  rw [decoding_linDec hG hk hn b hb.2, rows_one n hn b hb.1]
  simp

/-- the decision is a data word of a nearest codeword -/
theorem linDec_min {n : ℕ} {G : List (List Int)} (hG : BinaryMatrix n G) (hk : 0 < G.length) (hn : 0 < n) (b : List Int)
    (hb : Word n b) : Word G.length (linDec G b) ∧ ∀ v, Word G.length v →
      Spec.dist n (codeBit G (seq (linDec G b))) (seq b) ≤ Spec.dist n (codeBit G (seq v)) (seq b) := by
  obtain ⟨out, h1, h2, h3⟩ := linear_blocks hG hk hn b hb.2
  rw [decoding_one hG hk hn b hb] at h1
  obtain rfl := Except.ok.inj h1
  rw [hb.1, Nat.div_self hn, one_mul] at h2
  obtain ⟨h4, h5⟩ := h3 0 (by rw [hb.1, Nat.div_self hn]; exact one_pos)
  rw [rows_one _ hk _ h2] at h4
  refine ⟨h4, fun v hv => ?_⟩
  have e : ∀ (l : List Int) (w : ℕ), block l w 0 = seq l := fun l w => by
    funext i
    show l.getD (0 * w + i) 0 = l.getD i 0
    rw [zero_mul, zero_add]
  have := h5 v hv
  rwa [e, e] at this

theorem codeDist_eq {n : ℕ} {G : List (List Int)} (hG : BinaryMatrix n G) (hk : 0 < G.length) (hn : 0 < n) (b : List Int)
    (hb : Word n b) : codeDist n G b = Spec.dist n (codeBit G (seq (linDec G b))) (seq b) := by
  obtain ⟨h1, h2⟩ := linDec_min hG hk hn b hb
  refine le_antisymm ?_ ?_
  · obtain ⟨U, hU⟩ := wordOf_surj _ _ h1
    rw [← hU]
    exact Finset.inf'_le _ (mem_univ U)
  · exact Finset.le_inf' _ _ fun U _ => h2 _ (wordOf_word _ U)

/-- the wrong positions of independent decisions -/
theorem box_law {N : ℕ} (W : Fin N → Set ℝ) (hW : ∀ i, MeasurableSet (W i)) (q : ℝ) (hq : ∀ i, (gaussianReal 0 1).real (W i) = q)
    (A S : Finset (Fin N)) (hS : S ⊆ A) :
    (normalDraws N).real {x | ∀ i ∈ A, (x i ∈ W i ↔ i ∈ S)} = q ^ S.card * (1 - q) ^ (A.card - S.card) := by
  have h := draws_box (n := N) (fun i => if i ∈ S then W i else if i ∈ A then (W i)ᶜ else Set.univ)
  have e : {x : Fin N → ℝ | ∀ i, x i ∈ (if i ∈ S then W i else if i ∈ A then (W i)ᶜ else Set.univ)}
      = {x | ∀ i ∈ A, (x i ∈ W i ↔ i ∈ S)} := by
    ext x
    simp only [Set.mem_setOf_eq]
    refine forall_congr' fun i => ?_
    by_cases h1 : i ∈ S
    · simp [h1, hS h1]
    · by_cases h2 : i ∈ A <;> simp [h1, h2]
  rw [e] at h
  rw [h]
  have hv : ∀ i, (gaussianReal 0 1).real (if i ∈ S then W i else if i ∈ A then (W i)ᶜ else Set.univ)
      = (if i ∈ S then q else 1) * (if i ∈ A \ S then 1 - q else 1) := by
    intro i
    by_cases h1 : i ∈ S
    · simp [h1, hq]
    · by_cases h2 : i ∈ A
      · simp only [h1, h2, if_true, if_false, one_mul, mem_sdiff, not_false_eq_true, and_self]
        rw [probReal_compl_eq_one_sub (hW i), hq]
      · simp [h1, h2]
  rw [prod_congr rfl fun i _ => hv i, prod_mul_distrib, Finset.prod_ite_mem, Finset.prod_ite_mem, prod_const, prod_const,
    univ_inter, univ_inter, card_sdiff_of_subset hS]

open Classical in
/-- events that depend on the wrong positions of a part of the decisions -/
theorem part_law {N n : ℕ} (W : Fin N → Set ℝ) (hW : ∀ i, MeasurableSet (W i)) (q : ℝ)
    (hq : ∀ i, (gaussianReal 0 1).real (W i) = q) (ι : Fin n ↪ Fin N) (P : Finset (Fin n) → Prop) :
    (normalDraws N).real {x | P (univ.filter fun j => x (ι j) ∈ W (ι j))} = ∑ S : Finset (Fin n), if P S then flipProb n q S else 0 := by
  have hone : ∀ S : Finset (Fin n), {x : Fin N → ℝ | (univ.filter fun j => x (ι j) ∈ W (ι j)) = S}
      = {x | ∀ i ∈ univ.map ι, (x i ∈ W i ↔ i ∈ S.map ι)} := by
    intro S
    ext x
    simp only [Set.mem_setOf_eq, mem_map, mem_univ, true_and, forall_exists_index, forall_apply_eq_imp_iff]
    rw [Finset.ext_iff]
    refine forall_congr' fun j => ?_
    simp
  have hset : {x : Fin N → ℝ | P (univ.filter fun j => x (ι j) ∈ W (ι j))}
      = ⋃ S ∈ (univ : Finset (Finset (Fin n))).filter P, {x | (univ.filter fun j => x (ι j) ∈ W (ι j)) = S} := by
    ext x
    simp
  rw [hset, measureReal_biUnion_finset, Finset.sum_filter]
  · refine sum_congr rfl fun S _ => ?_
    split_ifs with h
    · rw [hone, box_law W hW q hq _ _ (by intro i hi; rw [mem_map] at hi ⊢; obtain ⟨a, -, rfl⟩ := hi; exact ⟨a, mem_univ _, rfl⟩),
        card_map, card_map, card_univ, Fintype.card_fin]
      rfl
    · rfl
  · intro S _ T _ hST
    rw [Function.onFun, Set.disjoint_left]
    intro x h1 h2
    exact hST (h1.symm.trans h2)
  · intro S _
    rw [hone]
    have : {x : Fin N → ℝ | ∀ i ∈ univ.map ι, (x i ∈ W i ↔ i ∈ S.map ι)}
        = ⋂ i ∈ univ.map ι, {x | x i ∈ W i ↔ i ∈ S.map ι} := by
      ext x; simp
    rw [this]
    refine Finset.measurableSet_biInter _ fun i _ => ?_
    by_cases h : i ∈ S.map ι
    · simp only [h, iff_true]
      exact measurable_pi_apply i (hW i)
    · simp only [h, iff_false]
      exact (measurable_pi_apply i (hW i)).compl

end Verif
