import Verif.Spec.FalseAlarm
import Verif.Lemmas.BlockRate
import Mathlib.Data.Nat.Choose.Bounds
import Mathlib.Algebra.BigOperators.Ring.Finset

/-! Tails of the number of drawn errors. -/

open Finset

namespace Verif
open Spec

theorem maskOf_length (n : ℕ) (S : Finset (Fin n)) : (maskOf n S).length = n := by simp [maskOf]

/-- the probability that all positions of `T` are drawn -/
theorem prob_superset (n : ℕ) (p : ℝ) (T : Finset (Fin n)) :
    ∑ S : Finset (Fin n), (if T ⊆ S then flipProb n p S else 0) = p ^ T.card := by
  have h := Finset.prod_add (fun _ : Fin n => p) (fun j => if j ∈ T then 0 else 1 - p) univ
  rw [powerset_univ] at h
  have h1 : ∏ i : Fin n, (p + if i ∈ T then 0 else 1 - p) = p ^ T.card := by
    rw [← Finset.prod_subset (subset_univ T) (fun i _ hi => by rw [if_neg hi]; ring)]
    rw [← prod_const]
    exact prod_congr rfl fun i hi => by rw [if_pos hi, add_zero]
  rw [← h1, h]
  refine sum_congr rfl fun S _ => ?_
  split_ifs with hs
  · rw [prod_const, prod_congr rfl (fun i hi => if_neg (fun hT => (mem_sdiff.1 hi).2 (hs hT))), prod_const, flipProb,
      card_sdiff_of_subset (subset_univ _), card_univ, Fintype.card_fin]
  · obtain ⟨i, hi, hi'⟩ := not_subset.1 hs
    have hz : ∏ j ∈ univ \ S, (if j ∈ T then (0 : ℝ) else 1 - p) = 0 := prod_eq_zero (mem_sdiff.2 ⟨mem_univ _, hi'⟩) (if_pos hi)
    rw [hz, mul_zero]

/-- the probability of at least `k` errors among the positions of `A` -/
theorem prob_many (n k : ℕ) (p : ℝ) (h0 : 0 ≤ p) (h1 : p ≤ 1) (A : Finset (Fin n)) :
    ∑ S : Finset (Fin n), (if k ≤ (S ∩ A).card then flipProb n p S else 0) ≤ (A.card.choose k : ℝ) * p ^ k := by
  calc ∑ S : Finset (Fin n), (if k ≤ (S ∩ A).card then flipProb n p S else 0)
      ≤ ∑ S : Finset (Fin n), ∑ T ∈ powersetCard k A, (if T ⊆ S then flipProb n p S else 0) := by
        refine sum_le_sum fun S _ => ?_
        split_ifs with h
        · obtain ⟨T, hT, hc⟩ := exists_subset_card_eq h
          have hm : T ∈ powersetCard k A := mem_powersetCard.2 ⟨hT.trans inter_subset_right, hc⟩
          refine le_trans ?_ (single_le_sum (f := fun T => if T ⊆ S then flipProb n p S else 0) (fun U _ => ?_) hm)
          · simp only [if_pos (hT.trans inter_subset_left), le_refl]
          · split_ifs
            · exact flipProb_nonneg n p h0 h1 S
            · exact le_rfl
        · exact sum_nonneg fun U _ => by
            split_ifs
            · exact flipProb_nonneg n p h0 h1 S
            · exact le_rfl
    _ = ∑ T ∈ powersetCard k A, p ^ k := by
        rw [sum_comm]
        refine sum_congr rfl fun T hT => ?_
        rw [prob_superset, (mem_powersetCard.1 hT).2]
    _ = _ := by rw [sum_const, card_powersetCard, nsmul_eq_mul]

/-- counting the errors of a mask among the first `m` positions -/
theorem maskOf_count (n m : ℕ) (S : Finset (Fin n)) :
    ((maskOf n S).take m).count true = (S ∩ univ.filter fun j : Fin n => (j : ℕ) < m).card := by
  have e : ∀ l : List Bool, ∀ m, (l.take m).count true = ((univ : Finset (Fin l.length)).filter fun j : Fin l.length => l[j] = true ∧ (j : ℕ) < m).card := by
    intro l
    induction l with
    | nil => intro m; simp
    | cons a l ih =>
      intro m
      cases m with
      | zero => simp
      | succ m =>
        rw [List.take_succ_cons, List.count_cons, ih m]
        have := Fin.card_filter_univ_succ (n := l.length) (fun j : Fin (l.length + 1) => (a :: l)[j] = true ∧ (j : ℕ) < m + 1)
        have h2 : (univ.filter fun j : Fin (a :: l).length => (a :: l)[j] = true ∧ (j : ℕ) < m + 1).card
            = (univ.filter fun j : Fin (l.length + 1) => (a :: l)[j] = true ∧ (j : ℕ) < m + 1).card := rfl
        rw [h2, this]
        cases a <;> simp
  rw [e]
  refine card_bij' (fun j _ => Fin.cast (maskOf_length n S) j) (fun j _ => Fin.cast (maskOf_length n S).symm j) ?_ ?_ ?_ ?_
  · intro j hj
    obtain ⟨ha, hb⟩ := (mem_filter.1 hj).2
    have ha' : decide (Fin.cast (maskOf_length n S) j ∈ S) = true :=
      (List.getElem_ofFn (f := fun j : Fin n => decide (j ∈ S)) (i := (j : ℕ)) j.2).symm.trans ha
    simp only [mem_inter, mem_filter, mem_univ, true_and]
    exact ⟨decide_eq_true_iff.1 ha', hb⟩
  · intro j hj
    simp only [mem_inter, mem_filter, mem_univ, true_and] at hj
    simp only [mem_filter, mem_univ, true_and]
    refine ⟨?_, hj.2⟩
    simp only [maskOf, Fin.getElem_fin, List.getElem_ofFn, decide_eq_true_eq]
    exact hj.1
  · intro j _; rfl
  · intro j _; rfl

theorem drawProb_nonneg (n M : ℕ) (p : ℝ) (h0 : 0 ≤ p) (h1 : p ≤ 1) (A : List Bool → ℕ → Prop) : 0 ≤ drawProb n M p A := by
  unfold drawProb
  refine div_nonneg (sum_nonneg fun s _ => sum_nonneg fun S _ => ?_) (Nat.cast_nonneg _)
  split_ifs
  · exact flipProb_nonneg n p h0 h1 S
  · exact le_rfl

/-- acceptance for all numbers but the excluded ones, and all masks with fewer than `k` errors among the first `m` positions -/
theorem drawProb_ge (n M m k : ℕ) (p : ℝ) (h0 : 0 ≤ p) (h1 : p ≤ 1) (hm : m ≤ n) (A : List Bool → ℕ → Prop) (e : Finset ℕ)
    (he : e ⊆ range M) (hM : 0 < M)
    (h : ∀ mask : List Bool, mask.length = n → (mask.take m).count true < k → ∀ s < M, s ∉ e → A mask s) :
    (1 - e.card / M) * (1 - (m.choose k : ℝ) * p ^ k) ≤ drawProb n M p A := by
  classical
  have hA : (univ.filter fun j : Fin n => (j : ℕ) < m).card = m := by
    have : (univ.filter fun j : Fin n => (j : ℕ) < m).card = ((range n).filter fun j => j < m).card := by
      rw [card_filter, card_filter, Finset.sum_range]
    rw [this]
    have : (range n).filter (fun j => j < m) = range m := by ext j; simp; omega
    rw [this, card_range]
  have hin : ∀ s < M, s ∉ e → 1 - (m.choose k : ℝ) * p ^ k ≤ ∑ S : Finset (Fin n), if A (maskOf n S) s then flipProb n p S else 0 := by
    intro s hs hse
    have ht := prob_many n k p h0 h1 (univ.filter fun j : Fin n => (j : ℕ) < m)
    rw [hA] at ht
    have hsum : (1 : ℝ) ≤ (∑ S : Finset (Fin n), if A (maskOf n S) s then flipProb n p S else 0)
        + ∑ S : Finset (Fin n), (if k ≤ (S ∩ univ.filter fun j : Fin n => (j : ℕ) < m).card then flipProb n p S else 0) := by
      rw [← sum_add_distrib, ← flipProb_total n p]
      refine sum_le_sum fun S _ => ?_
      have hnn := flipProb_nonneg n p h0 h1 S
      by_cases hk : k ≤ (S ∩ univ.filter fun j : Fin n => (j : ℕ) < m).card
      · rw [if_pos hk]
        split_ifs <;> linarith
      · rw [if_pos (h _ (maskOf_length n S) (by rw [maskOf_count]; omega) s hs hse)]
        split_ifs; linarith
    linarith
  have hM' : (0 : ℝ) < M := by exact_mod_cast hM
  unfold drawProb
  rw [le_div_iff₀ hM']
  have hs1 : ∑ s ∈ range M \ e, (1 - (m.choose k : ℝ) * p ^ k)
      ≤ ∑ s ∈ range M, ∑ S : Finset (Fin n), if A (maskOf n S) s then flipProb n p S else 0 := by
    refine le_trans (sum_le_sum fun s hs => ?_) (sum_le_sum_of_subset_of_nonneg sdiff_subset fun s _ _ => sum_nonneg fun S _ => ?_)
    · rw [mem_sdiff, mem_range] at hs
      exact hin s hs.1 hs.2
    · split_ifs
      · exact flipProb_nonneg n p h0 h1 S
      · exact le_rfl
  rw [sum_const, card_sdiff_of_subset he, card_range, nsmul_eq_mul, Nat.cast_sub (by simpa using card_le_card he)] at hs1
  refine le_trans (le_of_eq ?_) hs1
  field_simp

/-- rejection for one number -/
theorem drawProb_le (n M : ℕ) (p : ℝ) (h0 : 0 ≤ p) (h1 : p ≤ 1) (A : List Bool → ℕ → Prop) (hM : 0 < M)
    (h : ∀ mask : List Bool, mask.length = n → ¬ A mask 0) : drawProb n M p A ≤ 1 - 1 / M := by
  classical
  have hM' : (0 : ℝ) < M := by exact_mod_cast hM
  unfold drawProb
  rw [div_le_iff₀ hM', sub_mul, one_mul, div_mul_cancel₀ _ hM'.ne']
  obtain ⟨N, rfl⟩ : ∃ N, M = N + 1 := ⟨M - 1, by omega⟩
  rw [sum_range_succ']
  have hz : ∑ S : Finset (Fin n), (if A (maskOf n S) 0 then flipProb n p S else 0) = 0 :=
    sum_eq_zero fun S _ => if_neg (h _ (maskOf_length n S))
  rw [hz, add_zero]
  push_cast
  rw [add_sub_cancel_right]
  calc _ ≤ ∑ s ∈ range N, (1 : ℝ) := by
        refine sum_le_sum fun s _ => ?_
        rw [← flipProb_total n p]
        refine sum_le_sum fun S _ => ?_
        split_ifs
        · exact le_rfl
        · exact flipProb_nonneg n p h0 h1 S
    _ = N := by simp

/-- the tail for `k` out of less than `2^c k` positions -/
theorem choose_tail (m k c : ℕ) (p : ℝ) (h0 : 0 ≤ p) (h : m ≤ c * k) : (m.choose k : ℝ) * p ^ k ≤ (2 ^ c * p) ^ k := by
  rw [mul_pow]
  refine mul_le_mul_of_nonneg_right ?_ (pow_nonneg h0 _)
  rw [← pow_mul]
  have : m.choose k ≤ 2 ^ m := Nat.choose_le_two_pow m k
  calc (m.choose k : ℝ) ≤ (2 : ℝ) ^ m := by exact_mod_cast this
    _ ≤ 2 ^ (c * k) := pow_le_pow_right₀ (by norm_num) h

end Verif
