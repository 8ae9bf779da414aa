import Verif.Spec.CodedRate
import Verif.Lemmas.BlockRate
import Mathlib.Algebra.BigOperators.Ring.Finset
import Mathlib.Analysis.Real.Sqrt

/-! The union bound for decoders that choose a nearest word, for C112. -/

open Finset

namespace Verif
open Spec

/-- the positions of `D` where a word with inverted positions `S` differs from the rival -/
theorem half_wrong (N : ℕ) (c d : ℕ → Int) (hc : ∀ j < N, c j = 0 ∨ c j = 1) (hd : ∀ j < N, d j = 0 ∨ d j = 1) (S : Finset (Fin N))
    (h : Spec.dist N d (seq (flipped N c S)) ≤ Spec.dist N c (seq (flipped N c S))) :
    ((univ.filter fun j : Fin N => c j ≠ d j) \ S).card ≤ ((univ.filter fun j : Fin N => c j ≠ d j) ∩ S).card := by
  have hfin : ∀ a b : ℕ → Int, Spec.dist N a b = (univ.filter fun j : Fin N => a j ≠ b j).card := by
    intro a b
    unfold Spec.dist
    rw [← card_map Fin.valEmbedding (s := univ.filter fun j : Fin N => a j ≠ b j)]
    congr 1
    ext j
    rw [mem_filter, mem_range, mem_map]
    constructor
    · rintro ⟨hj, hne⟩
      exact ⟨⟨j, hj⟩, by simpa using hne, rfl⟩
    · rintro ⟨⟨i, hi⟩, hS, rfl⟩
      exact ⟨hi, by simpa using hS⟩
  rw [dist_flipped N c hc S, hfin] at h
  have e : (univ.filter fun j : Fin N => d j ≠ seq (flipped N c S) j)
      = ((univ.filter fun j : Fin N => c j ≠ d j) \ S) ∪ (S \ (univ.filter fun j : Fin N => c j ≠ d j)) := by
    ext j
    have h1 := hc j j.2
    have h2 := hd j j.2
    simp only [mem_filter, mem_univ, true_and, mem_union, mem_sdiff]
    show d j ≠ (flipped N c S).getD j 0 ↔ _
    rw [flipped_getD]
    by_cases hS : j ∈ S
    · simp only [hS, if_true, not_true, and_false, true_and, false_or]
      omega
    · simp only [hS, if_false, not_false_eq_true, and_true, false_and, or_false]
      exact ne_comm
  rw [e, card_union_of_disjoint] at h
  · have h3 := card_inter_add_card_sdiff S (univ.filter fun j : Fin N => c j ≠ d j)
    rw [inter_comm] at h3
    omega
  · rw [disjoint_left]
    intro j h1 h2
    rw [mem_sdiff] at h1 h2
    exact h2.2 h1.1

/-- a pattern that inverts at least half of the positions of `D` is at most as probable as under the channel with the root -/
theorem flip_le_root (N : ℕ) (p : ℝ) (h0 : 0 ≤ p) (h1 : p ≤ 1 / 2) (D S : Finset (Fin N)) (h : (D \ S).card ≤ (D ∩ S).card) :
    flipProb N p S ≤ (∏ i ∈ S, if i ∈ D then √(p * (1 - p)) else p) * ∏ i ∈ univ \ S, if i ∈ D then √(p * (1 - p)) else 1 - p := by
  have hq : 0 ≤ 1 - p := by linarith
  have hpq := mul_nonneg h0 hq
  have e1 : ∀ (T : Finset (Fin N)) (x y : ℝ), (∏ i ∈ T, if i ∈ D then x else y) = x ^ (D ∩ T).card * y ^ (T \ D).card := by
    intro T x y
    rw [prod_ite, prod_const, prod_const, inter_comm]
    congr 2
    rw [← filter_notMem_eq_sdiff]
  rw [e1, e1]
  have e2 : (univ \ S) \ D = univ \ (S ∪ D) := by ext; simp
  have e3 : D ∩ (univ \ S) = D \ S := by ext; simp
  rw [e3]
  set a := (D ∩ S).card with ha
  set b := (D \ S).card with hb
  have hS : S.card = a + (S \ D).card := by
    have := card_inter_add_card_sdiff S D
    rw [inter_comm] at this
    exact this.symm
  have hN : N - S.card = b + ((univ \ S) \ D).card := by
    have h2 := card_inter_add_card_sdiff (univ \ S) D
    have h3 : (univ \ S).card = N - S.card := by rw [card_sdiff_of_subset (subset_univ S)]; simp
    rw [inter_comm, e3] at h2
    omega
  unfold flipProb
  rw [hS] at hN ⊢
  rw [hN, pow_add, pow_add]
  have hkey : p ^ a * (1 - p) ^ b ≤ √(p * (1 - p)) ^ a * √(p * (1 - p)) ^ b := by
    rw [← pow_add]
    refine le_of_sq_le_sq ?_ (pow_nonneg (Real.sqrt_nonneg _) _)
    obtain ⟨d, hd⟩ : ∃ d, a = b + d := ⟨a - b, by omega⟩
    rw [hd]
    rw [← pow_mul, mul_comm (b + d + b) 2, pow_mul, Real.sq_sqrt hpq]
    have h4 : p ^ d ≤ (1 - p) ^ d := pow_le_pow_left₀ h0 (by linarith) d
    have h5 : (p ^ (b + d) * (1 - p) ^ b) ^ 2 = (p ^ (2 * b + d) * (1 - p) ^ (2 * b)) * p ^ d := by ring
    have h6 : (p * (1 - p)) ^ (b + d + b) = (p ^ (2 * b + d) * (1 - p) ^ (2 * b)) * (1 - p) ^ d := by rw [mul_pow]; ring
    rw [h5, h6]
    exact mul_le_mul_of_nonneg_left h4 (mul_nonneg (pow_nonneg h0 _) (pow_nonneg hq _))
  calc p ^ a * p ^ (S \ D).card * ((1 - p) ^ b * (1 - p) ^ ((univ \ S) \ D).card)
      = (p ^ a * (1 - p) ^ b) * (p ^ (S \ D).card * (1 - p) ^ ((univ \ S) \ D).card) := by ring
    _ ≤ (√(p * (1 - p)) ^ a * √(p * (1 - p)) ^ b) * (p ^ (S \ D).card * (1 - p) ^ ((univ \ S) \ D).card) :=
        mul_le_mul_of_nonneg_right hkey (mul_nonneg (pow_nonneg h0 _) (pow_nonneg hq _))
    _ = _ := by ring

open Classical in
/-- probability that a given rival is at least as near as the word that was sent -/
theorem pair_bound (N : ℕ) (p : ℝ) (h0 : 0 ≤ p) (h1 : p ≤ 1 / 2) (c d : ℕ → Int) (hc : ∀ j < N, c j = 0 ∨ c j = 1)
    (hd : ∀ j < N, d j = 0 ∨ d j = 1) :
    ∑ S : Finset (Fin N), (if Spec.dist N d (seq (flipped N c S)) ≤ Spec.dist N c (seq (flipped N c S)) then flipProb N p S else 0)
      ≤ (2 * √(p * (1 - p))) ^ Spec.dist N c d := by
  set D := univ.filter fun j : Fin N => c j ≠ d j with hD
  have hcard : Spec.dist N c d = D.card := by
    unfold Spec.dist
    rw [← card_map Fin.valEmbedding (s := D)]
    congr 1
    ext j
    rw [mem_filter, mem_range, mem_map]
    constructor
    · rintro ⟨hj, hne⟩
      exact ⟨⟨j, hj⟩, by simpa [hD] using hne, rfl⟩
    · rintro ⟨⟨i, hi⟩, hS, rfl⟩
      exact ⟨hi, by simpa [hD] using hS⟩
  have hprod := prod_add (fun i : Fin N => if i ∈ D then √(p * (1 - p)) else p) (fun i => if i ∈ D then √(p * (1 - p)) else 1 - p)
    (univ : Finset (Fin N))
  have hleft : (∏ i : Fin N, ((if i ∈ D then √(p * (1 - p)) else p) + if i ∈ D then √(p * (1 - p)) else 1 - p))
      = (2 * √(p * (1 - p))) ^ D.card := by
    rw [← prod_const, ← prod_subset (subset_univ D)]
    · refine prod_congr rfl fun i hi => ?_
      rw [if_pos hi, if_pos hi]; ring
    · intro i _ hi
      rw [if_neg hi, if_neg hi]; ring
  rw [hcard, ← hleft, hprod, powerset_univ]
  refine sum_le_sum fun S _ => ?_
  split_ifs with h
  · exact flip_le_root N p h0 h1 D S (half_wrong N c d hc hd S h)
  · refine mul_nonneg (prod_nonneg fun i _ => ?_) (prod_nonneg fun i _ => ?_) <;> split_ifs <;>
      first | exact Real.sqrt_nonneg _ | linarith

/-- union bound over the rivals -/
theorem union_bound (N : ℕ) (p : ℝ) (h0 : 0 ≤ p) (h1 : p ≤ 1 / 2) (c : ℕ → Int) (hc : ∀ j < N, c j = 0 ∨ c j = 1)
    (dec : List Int → List Int) (u : List Int) {ι : Type*} (R : Finset ι) (d : ι → ℕ → Int) (hd : ∀ i ∈ R, ∀ j < N, d i j = 0 ∨ d i j = 1)
    (h : ∀ S : Finset (Fin N), dec (flipped N c S) ≠ u →
      ∃ i ∈ R, Spec.dist N (d i) (seq (flipped N c S)) ≤ Spec.dist N c (seq (flipped N c S))) :
    1 - ∑ i ∈ R, (2 * √(p * (1 - p))) ^ Spec.dist N c (d i) ≤ returnedProb N dec p c u := by
  classical
  have h2 : ∑ S : Finset (Fin N), (if dec (flipped N c S) = u then 0 else flipProb N p S)
      ≤ ∑ i ∈ R, (2 * √(p * (1 - p))) ^ Spec.dist N c (d i) := by
    refine le_trans ?_ (sum_le_sum fun i hi => pair_bound N p h0 h1 c (d i) hc (hd i hi))
    rw [sum_comm]
    refine sum_le_sum fun S _ => ?_
    have hnn := flipProb_nonneg N p h0 (by linarith) S
    have hterm : ∀ i ∈ R, 0 ≤ (if Spec.dist N (d i) (seq (flipped N c S)) ≤ Spec.dist N c (seq (flipped N c S)) then flipProb N p S else 0) := by
      intro i _
      split_ifs <;> [exact hnn; exact le_rfl]
    split_ifs with hS
    · exact sum_nonneg hterm
    · obtain ⟨i, hi, hle⟩ := h S hS
      refine le_trans (le_of_eq ?_) (single_le_sum hterm hi)
      rw [if_pos hle]
  have h3 : returnedProb N dec p c u + ∑ S : Finset (Fin N), (if dec (flipped N c S) = u then 0 else flipProb N p S) = 1 := by
    unfold returnedProb
    rw [← sum_add_distrib, ← flipProb_total N p]
    refine sum_congr rfl fun S _ => ?_
    split_ifs <;> simp
  linarith

/-- a decoder that corrects `t` errors -/
theorem ball_bound (N t : ℕ) (p : ℝ) (h0 : 0 ≤ p) (h1 : p ≤ 1) (c : ℕ → Int) (dec : List Int → List Int) (u : List Int)
    (h : ∀ S : Finset (Fin N), S.card ≤ t → dec (flipped N c S) = u) :
    ∑ S : Finset (Fin N), (if S.card ≤ t then p ^ S.card * (1 - p) ^ (N - S.card) else 0) ≤ returnedProb N dec p c u := by
  unfold returnedProb
  refine sum_le_sum fun S _ => ?_
  split_ifs with h2 h3 h3
  · exact le_rfl
  · exact absurd (h S h2) h3
  · exact flipProb_nonneg N p h0 h1 S
  · exact le_rfl

end Verif
