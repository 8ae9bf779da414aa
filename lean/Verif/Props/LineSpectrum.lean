import Verif.Lemmas.LineSpectrum
import Verif.Props.Coding
import Mathlib.Data.Complex.Basic
import Mathlib.Data.Fintype.EquivFin
import Mathlib.Data.List.GetD
import Mathlib.Tactic.IntervalCases
import Mathlib.Analysis.Complex.Trigonometric

/-!
# C124: the line codes on random data

Independent, equally likely bits; all means are over all bit vectors of the length. The elements are taken relative to the middle level.
-/

namespace Verif
open Spec Finset

theorem bitsOf_length {N : ℕ} (f : Fin N → Bool) : (bitsOf f).length = N := by simp [bitsOf]

theorem bitsOf_binary {N : ℕ} (f : Fin N → Bool) : IsBinary (bitsOf f) := by
  intro x hx
  simp only [bitsOf, List.mem_ofFn] at hx
  obtain ⟨i, rfl⟩ := hx
  split_ifs <;> simp

theorem bitsOf_getD {N : ℕ} (f : Fin N → Bool) (i : ℕ) (hi : i < N) : (bitsOf f).getD i 0 = if f ⟨i, hi⟩ then 1 else 0 := by
  rw [List.getD_eq_getElem _ _ (by rw [bitsOf_length]; exact hi)]
  simp [bitsOf]

/-- a product over the bits in front of position `t` -/
theorem prod_front {K : Type*} [CommMonoid K] {N : ℕ} (f : Fin N → Bool) (h : Bool → K) (t : ℕ) (ht : t < N) :
    ∏ i : Fin N, (if (i : ℕ) < t + 1 then h (f i) else 1) = (∏ i : Fin N, if (i : ℕ) < t then h (f i) else 1) * h (f ⟨t, ht⟩) := by
  have : ∀ i : Fin N, (if (i : ℕ) < t + 1 then h (f i) else 1)
      = (if (i : ℕ) < t then h (f i) else 1) * (if i = ⟨t, ht⟩ then h (f i) else 1) := by
    intro i
    rcases lt_trichotomy (i : ℕ) t with h1 | h1 | h1
    · rw [if_pos (by omega), if_pos h1, if_neg (by rw [Fin.ext_iff]; simp only []; omega), mul_one]
    · rw [if_pos (by omega), if_neg (by omega), if_pos (by rw [Fin.ext_iff]; exact h1), one_mul]
    · rw [if_neg (by omega), if_neg (by omega), if_neg (by rw [Fin.ext_iff]; simp only []; omega), mul_one]
  rw [prod_congr rfl fun i _ => this i, prod_mul_distrib, prod_ite_eq' univ]
  simp

/-- the number of ones in front of position `t`, as a power -/
theorem pow_pre {K : Type*} [Field K] {N : ℕ} (f : Fin N → Bool) (z : K) (t : ℕ) (ht : t ≤ N) :
    z ^ (((bitsOf f).take t).count 1) = ∏ i : Fin N, if (i : ℕ) < t then (if f i then z else 1) else 1 := by
  induction t with
  | zero => simp
  | succ t ih =>
    rw [prod_front f (fun b => if b then z else 1) t ht, ← ih (by omega), List.take_add_one,
      List.getElem?_eq_getElem (by rw [bitsOf_length]; omega), List.count_append, pow_add]
    congr 1
    have e := bitsOf_getD f t ht
    rw [List.getD_eq_getElem _ _ (by rw [bitsOf_length]; exact ht)] at e
    rw [e]
    split_ifs <;> simp

/-! ### Manchester -/

/-- **C124**, Manchester: the mean is zero, the two halves of a cell are opposite, everything else is uncorrelated, and the expected
periodogram of `N` cells is exactly `N sin²(ω/2)`: no power at frequency zero, most at half the chip rate. -/
theorem C124_manchester (N : ℕ) : ∃ code : (Fin N → Bool) → List Int, (∀ f, codingManchester (bitsOf f) = .ok (code f)) ∧
    (∀ j < 2 * N, coinMean N (fun f => fromMid (1 / 2) (code f) j) = 0) ∧
    (∀ j < 2 * N, ∀ k < 2 * N, coinMean N (fun f => fromMid (1 / 2) (code f) j * fromMid (1 / 2) (code f) k)
      = if j = k then 1 / 4 else if j / 2 = k / 2 then -1 / 4 else 0) ∧
    ∀ ω, coinMean N (fun f => periodogram (fromMid (1 / 2) (code f)) (2 * N) ω) = N * Real.sin (ω / 2) ^ 2 := by
  choose code hcode hcell using fun f : Fin N → Bool => C24_cells (bitsOf f) (bitsOf_binary f)
  have hx : ∀ j < 2 * N, ∀ f : Fin N → Bool, fromMid (1 / 2) (code f) j
      = (if j % 2 = 0 then 1 else -1) * ∏ i : Fin N, (if (i : ℕ) = j / 2 then (if f i then 1 / 2 else -1 / 2) else 1) := by
    intro j hj f
    have hj2 : j / 2 < N := by omega
    have hp : ∏ i : Fin N, (if (i : ℕ) = j / 2 then (if f i then (1 : ℝ) / 2 else -1 / 2) else 1) = if f ⟨j / 2, hj2⟩ then 1 / 2 else -1 / 2 := by
      rw [prod_eq_single (⟨j / 2, hj2⟩ : Fin N)]
      · simp
      · intro i _ hne
        rw [if_neg (fun h => hne (Fin.ext h))]
      · simp
    obtain ⟨h1, h2⟩ := hcell f (j / 2) (by rw [bitsOf_length]; exact hj2)
    rw [bitsOf_getD f _ hj2] at h1
    rw [hp]
    unfold fromMid
    rcases Nat.mod_two_eq_zero_or_one j with h0 | h0
    · have h3 : (code f).getD j 0 = (code f).getD (2 * (j / 2)) 0 := congrArg (fun t => (code f).getD t 0) (by omega)
      rw [if_pos h0, h3, h1]
      split_ifs <;> norm_num
    · rw [if_neg (by omega)]
      have h3 : (code f).getD j 0 = 1 - (code f).getD (2 * (j / 2)) 0 := by
        have : (code f).getD j 0 = (code f).getD (2 * (j / 2) + 1) 0 := congrArg (fun t => (code f).getD t 0) (by omega)
        omega
      rw [h3, h1]
      split_ifs <;> norm_num
  have hcor : ∀ j < 2 * N, ∀ k < 2 * N, coinMean N (fun f => fromMid (1 / 2) (code f) j * fromMid (1 / 2) (code f) k)
      = if j = k then 1 / 4 else if j / 2 = k / 2 then -1 / 4 else 0 := by
    intro j hj k hk
    rw [coinMean_prod N _ ((if j % 2 = 0 then 1 else -1) * (if k % 2 = 0 then 1 else -1))
      (fun l b => (if l = j / 2 then (if b then 1 / 2 else -1 / 2) else 1) * (if l = k / 2 then (if b then 1 / 2 else -1 / 2) else 1))
      (fun f => by rw [hx j hj, hx k hk, prod_mul_distrib]; ring)]
    by_cases h : j / 2 = k / 2
    · rw [if_pos h, ← h]
      have : ∀ l ∈ range N, ((if l = j / 2 then (if false = true then (1 : ℝ) / 2 else -1 / 2) else 1) * (if l = j / 2 then (if false = true then 1 / 2 else -1 / 2) else 1)
          + (if l = j / 2 then (if true = true then (1 : ℝ) / 2 else -1 / 2) else 1) * (if l = j / 2 then (if true = true then 1 / 2 else -1 / 2) else 1)) / 2
          = if l = j / 2 then 1 / 4 else 1 := by
        intro l _
        split_ifs <;> norm_num at *
      rw [prod_congr rfl this, prod_ite_eq', if_pos (mem_range.2 (by omega))]
      by_cases hjk : j = k
      · rw [if_pos hjk, hjk]; split_ifs <;> norm_num
      · rw [if_neg hjk]
        rcases Nat.mod_two_eq_zero_or_one j with h0 | h0
        · rw [if_pos h0, if_neg (by omega)]; norm_num
        · rw [if_neg (by omega), if_pos (by omega)]; norm_num
    · rw [if_neg (c := j = k) (fun h' => h (by rw [h'])), if_neg h, prod_eq_zero (mem_range.2 (show j / 2 < N by omega)), mul_zero]
      simp only [if_true, if_neg h]
      norm_num
  refine ⟨code, hcode, fun j hj => ?_, hcor, fun ω => ?_⟩
  · rw [coinMean_prod N _ _ (fun l b => if l = j / 2 then (if b then 1 / 2 else -1 / 2) else 1) (hx j hj),
      prod_eq_zero (mem_range.2 (show j / 2 < N by omega)), mul_zero]
    rw [if_pos rfl, if_pos rfl]; norm_num
  · rw [mean_periodogram]
    rcases Nat.eq_zero_or_pos N with rfl | hN
    · simp
    have h := chain_sum (1 / 4) (-1 / 4) ω (fun j => j % 2 = 0) (2 * N - 1)
      (fun j k => coinMean N (fun f => fromMid (1 / 2) (code f) j * fromMid (1 / 2) (code f) k))
      (fun j hj => by rw [hcor j (by omega) j (by omega), if_pos rfl])
      (fun j k h1 h2 => by
        rw [hcor j (by omega) k (by omega), if_neg (by omega)]
        by_cases h : j / 2 = k / 2
        · rw [if_pos h, if_pos (by omega)]
        · rw [if_neg h, if_neg (by omega)])
      (fun j k _ _ => by simp only [mul_comm])
    rw [show 2 * N - 1 + 1 = 2 * N by omega] at h
    rw [h]
    have hc : ((range (2 * N - 1)).filter fun j => j % 2 = 0).card = N := by
      have : (range (2 * N - 1)).filter (fun j => j % 2 = 0) = (range N).image (fun i => 2 * i) := by
        ext j
        simp only [mem_filter, mem_range, mem_image]
        constructor
        · rintro ⟨h1, h2⟩; exact ⟨j / 2, by omega, by omega⟩
        · rintro ⟨i, h1, rfl⟩; omega
      rw [this, card_image_of_injective _ (fun a b h => by simpa using h), card_range]
    have hs : Real.sin (ω / 2) ^ 2 = (1 - Real.cos ω) / 2 := by
      have h1 := Real.cos_two_mul (ω / 2)
      have h2 := Real.sin_sq_add_cos_sq (ω / 2)
      rw [show 2 * (ω / 2) = ω by ring] at h1
      linarith
    rw [hc, hs, Nat.cast_sub (by omega)]
    push_cast
    ring

/-! ### Bipolar -/

/-- **C124**, bipolar: power 1/2, neighbours have correlation -1/4, everything else is uncorrelated (the first element, which is always the low
mark or the space, has mean -1/2, all others mean zero); the expected periodogram of `N` elements is `N/2 - (N-1)/2 cos ω`, that is 1/2
at frequency zero for every length. -/
theorem C124_bipolar (N : ℕ) (hN : 0 < N) : ∃ code : (Fin N → Bool) → List Int, (∀ f, codingBipolar (bitsOf f) = .ok (code f)) ∧
    (∀ j < N, coinMean N (fun f => fromMid 1 (code f) j) = if j = 0 then -1 / 2 else 0) ∧
    (∀ j < N, coinMean N (fun f => fromMid 1 (code f) j * fromMid 1 (code f) j) = 1 / 2) ∧
    (∀ j k, j < k → k < N → coinMean N (fun f => fromMid 1 (code f) j * fromMid 1 (code f) k) = if k = j + 1 then -1 / 4 else 0) ∧
    ∀ ω, coinMean N (fun f => periodogram (fromMid 1 (code f)) N ω) = N / 2 - (N - 1) / 2 * Real.cos ω := by
  choose code hcode hlen hval using fun f : Fin N → Bool => codingBipolar_eq (bitsOf_binary f)
  have hx : ∀ j < N, ∀ f : Fin N → Bool, fromMid 1 (code f) j
      = 1 * ∏ i : Fin N, ((if (i : ℕ) < j then (if f i then -1 else 1) else 1) * (if (i : ℕ) = j then (if f i then -1 else 0) else 1)) := by
    intro j hj f
    have hp : ∏ i : Fin N, (if (i : ℕ) = j then (if f i then (-1 : ℝ) else 0) else 1) = if f ⟨j, hj⟩ then -1 else 0 := by
      rw [prod_eq_single (⟨j, hj⟩ : Fin N)]
      · simp
      · intro i _ hne
        rw [if_neg (fun h => hne (Fin.ext h))]
      · simp
    rw [prod_mul_distrib, hp, ← pow_pre f (-1 : ℝ) j (by omega), one_mul]
    unfold fromMid
    rw [hval f j (by rw [bitsOf_length]; exact hj), pre_succ, pre_count (bitsOf_binary f), bitsOf_getD f j hj]
    by_cases hf : f ⟨j, hj⟩ = true
    · rw [if_pos hf, if_pos hf]
      rcases Nat.even_or_odd (((bitsOf f).take j).count 1) with he | ho
      · rw [he.neg_one_pow, if_neg (by obtain ⟨r, hr⟩ := he; rw [hr]; omega)]; norm_num
      · rw [ho.neg_one_pow, if_pos (by obtain ⟨r, hr⟩ := ho; rw [hr]; omega)]; norm_num
    · rw [if_neg hf, if_neg hf]; norm_num
  have hsq : ∀ j < N, coinMean N (fun f => fromMid 1 (code f) j * fromMid 1 (code f) j) = 1 / 2 := by
    intro j hj
    rw [coinMean_prod N _ 1 (fun l b => ((if l < j then (if b then -1 else 1) else 1) * (if l = j then (if b then -1 else 0) else 1))
      * ((if l < j then (if b then -1 else 1) else 1) * (if l = j then (if b then -1 else 0) else 1)))
      (fun f => by rw [hx j hj, prod_mul_distrib (f := fun i : Fin N => (if (i : ℕ) < j then (if f i then (-1 : ℝ) else 1) else 1) *
        (if (i : ℕ) = j then (if f i then -1 else 0) else 1))]; ring)]
    rw [prod_eq_single j]
    · simp
    · intro l _ hne
      rw [if_neg hne, if_neg hne]
      split_ifs <;> norm_num at *
    · intro h; exact absurd (mem_range.2 hj) h
  have hcor : ∀ j k, j < k → k < N → coinMean N (fun f => fromMid 1 (code f) j * fromMid 1 (code f) k) = if k = j + 1 then -1 / 4 else 0 := by
    intro j k hjk hk
    rw [coinMean_prod N _ 1 (fun l b => ((if l < j then (if b then -1 else 1) else 1) * (if l = j then (if b then -1 else 0) else 1))
      * ((if l < k then (if b then -1 else 1) else 1) * (if l = k then (if b then -1 else 0) else 1)))
      (fun f => by rw [hx j (by omega), hx k hk, prod_mul_distrib (f := fun i : Fin N => (if (i : ℕ) < j then (if f i then (-1 : ℝ) else 1) else 1) *
        (if (i : ℕ) = j then (if f i then -1 else 0) else 1))]; ring)]
    have key : ∀ l, (((if l < j then (if false = true then (-1 : ℝ) else 1) else 1) * (if l = j then (if false = true then -1 else 0) else 1))
        * ((if l < k then (if false = true then -1 else 1) else 1) * (if l = k then (if false = true then -1 else 0) else 1))
        + ((if l < j then (if true = true then (-1 : ℝ) else 1) else 1) * (if l = j then (if true = true then -1 else 0) else 1))
        * ((if l < k then (if true = true then -1 else 1) else 1) * (if l = k then (if true = true then -1 else 0) else 1))) / 2
        = (if l = j then 1 / 2 else 1) * (if l = k then -1 / 2 else 1) * (if j < l ∧ l < k then 0 else 1) := by
      intro l
      rcases lt_trichotomy l j with h | h | h
      · simp only [if_pos h, if_neg (show ¬ l = j by omega), if_pos (show l < k by omega), if_neg (show ¬ l = k by omega),
          if_neg (show ¬ (j < l ∧ l < k) by omega)]
        norm_num
      · subst h
        simp only [lt_irrefl, if_false, if_true, hjk, if_neg (show ¬ l = k by omega), false_and]
        norm_num
      · rcases lt_trichotomy l k with h' | h' | h'
        · simp only [if_neg (show ¬ l < j by omega), if_neg (show ¬ l = j by omega), if_pos h', if_neg (show ¬ l = k by omega),
            if_pos (show j < l ∧ l < k from ⟨h, h'⟩)]
          norm_num
        · subst h'
          simp only [if_neg (show ¬ l < j by omega), if_neg (show ¬ l = j by omega), lt_irrefl, if_false, if_true, and_false]
          norm_num
        · simp only [if_neg (show ¬ l < j by omega), if_neg (show ¬ l = j by omega), if_neg (show ¬ l < k by omega),
            if_neg (show ¬ l = k by omega), if_neg (show ¬ (j < l ∧ l < k) by omega)]
          norm_num
    rw [prod_congr rfl fun l _ => key l, prod_mul_distrib, prod_mul_distrib, prod_ite_eq', prod_ite_eq', if_pos (mem_range.2 (by omega)),
      if_pos (mem_range.2 hk)]
    by_cases h : k = j + 1
    · rw [if_pos h, prod_eq_one (fun l _ => if_neg (by omega))]; norm_num
    · rw [if_neg h]
      have hz : ∏ l ∈ range N, (if j < l ∧ l < k then (0 : ℝ) else 1) = 0 :=
        prod_eq_zero (mem_range.2 (show j + 1 < N by omega)) (if_pos (by omega))
      rw [hz]; ring
  refine ⟨code, hcode, fun j hj => ?_, hsq, hcor, fun ω => ?_⟩
  · rw [coinMean_prod N _ 1 (fun l b => (if l < j then (if b then -1 else 1) else 1) * (if l = j then (if b then -1 else 0) else 1)) (hx j hj)]
    by_cases h : j = 0
    · subst h
      rw [if_pos rfl, prod_eq_single 0]
      · norm_num
      · intro l _ hne
        rw [if_neg (by omega), if_neg hne, if_neg (by omega), if_neg hne]; norm_num
      · intro h; exact absurd (mem_range.2 hj) h
    · have hz : ∏ l ∈ range N, ((if l < j then (if false = true then (-1 : ℝ) else 1) else 1) * (if l = j then (if false = true then -1 else 0) else 1)
          + (if l < j then (if true = true then (-1 : ℝ) else 1) else 1) * (if l = j then (if true = true then -1 else 0) else 1)) / 2 = 0 := by
        refine prod_eq_zero (mem_range.2 (show 0 < N by omega)) ?_
        simp only [if_pos (show 0 < j by omega), if_neg (show ¬ 0 = j by omega)]
        norm_num
      rw [if_neg h, hz, mul_zero]
  · rw [mean_periodogram]
    have h := chain_sum (1 / 2) (-1 / 4) ω (fun _ => True) (N - 1)
      (fun j k => coinMean N (fun f => fromMid 1 (code f) j * fromMid 1 (code f) k))
      (fun j hj => hsq j (by omega)) (fun j k h1 h2 => by simp only [and_true]; exact hcor j k h1 (by omega))
      (fun j k _ _ => by simp only [mul_comm])
    rw [show N - 1 + 1 = N by omega] at h
    rw [h, filter_true, card_range, Nat.cast_sub (by omega)]
    push_cast
    ring

/-! ### Differential Manchester -/

/-- **C124**, differential Manchester: a chip and the next one across the cell boundary are opposite, all other pairs of chips are uncorrelated, and so are
the means apart from the first chip; expected periodogram of `N` cells `N/2 - (N-1)/2 cos ω`. -/
theorem C124_diff_manchester (N : ℕ) (hN : 0 < N) : ∃ code : (Fin N → Bool) → List Int, (∀ f, codingDiffManchester (bitsOf f) = .ok (code f)) ∧
    (∀ j < 2 * N, coinMean N (fun f => fromMid (1 / 2) (code f) j) = if j = 0 then -1 / 2 else 0) ∧
    (∀ j < 2 * N, coinMean N (fun f => fromMid (1 / 2) (code f) j * fromMid (1 / 2) (code f) j) = 1 / 4) ∧
    (∀ j k, j < k → k < 2 * N → coinMean N (fun f => fromMid (1 / 2) (code f) j * fromMid (1 / 2) (code f) k)
      = if k = j + 1 ∧ j % 2 = 1 then -1 / 4 else 0) ∧
    ∀ ω, coinMean N (fun f => periodogram (fromMid (1 / 2) (code f)) (2 * N) ω) = N / 2 - (N - 1) / 2 * Real.cos ω := by
  have hex : ∀ f : Fin N → Bool, ∃ c, codingDiffManchester (bitsOf f) = .ok c ∧ IsBinary c ∧ c.length = 2 * N ∧ c.getD 0 0 = 0 ∧
      (∀ i, ∀ hi : i < N, (c.getD (2 * i) 0 ≠ c.getD (2 * i + 1) 0 ↔ f ⟨i, hi⟩ = false)) ∧
      (∀ i, i + 1 < N → c.getD (2 * i + 1) 0 ≠ c.getD (2 * i + 2) 0) := by
    intro f
    obtain ⟨h1, h2, h3, h4, h5⟩ := dmCells_spec (bitsOf f) (bitsOf_binary f) 0 (Or.inl rfl)
    rw [bitsOf_length] at h2 h4 h5
    refine ⟨_, codingDiffManchester_eq (bitsOf_binary f), h1, h2, ?_, fun i hi => ?_, h5⟩
    · exact h3 (by intro h; have := bitsOf_length f; rw [h] at this; simp at this; omega)
    · rw [h4 i hi, bitsOf_getD f i hi]
      cases f ⟨i, hi⟩ <;> simp
  choose code hcode hbin hlen h0 hmid hbnd using hex
  have hx : ∀ j < 2 * N, ∀ f : Fin N → Bool, fromMid (1 / 2) (code f) j
      = (if (j / 2) % 2 = 0 then -1 / 2 else 1 / 2) * ∏ i : Fin N, (if (i : ℕ) < (j + 1) / 2 then (if f i then 1 else -1) else 1) := by
    intro j
    induction j with
    | zero =>
      intro _ f
      unfold fromMid
      rw [h0 f]
      simp
      norm_num
    | succ j ih =>
      intro hj f
      have hprev := ih (by omega) f
      have hb1 := binary_getD (hbin f) j
      have hb2 := binary_getD (hbin f) (j + 1)
      rcases Nat.even_or_odd' j with ⟨i, hi | hi⟩
      · have hiN : i < N := by omega
        have hm := hmid f i hiN
        rw [← hi] at hm
        rw [show (j + 1) / 2 = i by omega] at hprev ⊢
        rw [show j / 2 = i by omega] at hprev
        rw [show (j + 1 + 1) / 2 = i + 1 by omega, prod_front f (fun b => if b then (1 : ℝ) else -1) i hiN, ← mul_assoc, ← hprev]
        unfold fromMid
        by_cases hf : f ⟨i, hiN⟩ = true
        · have he : (code f).getD j 0 = (code f).getD (j + 1) 0 := by
            by_contra hne; rw [hm.1 hne] at hf; cases hf
          rw [if_pos hf, he, mul_one]
        · have hne := hm.2 (by simpa using hf)
          rw [if_neg hf]
          rcases hb1 with e1 | e1 <;> rcases hb2 with e2 | e2 <;> rw [e1, e2] at hne ⊢ <;> first | exact absurd rfl hne | norm_num
      · have hne := hbnd f i (by omega)
        rw [show 2 * i + 2 = j + 1 by omega, ← hi] at hne
        rw [show (j + 1) / 2 = i + 1 by omega] at hprev ⊢
        rw [show j / 2 = i by omega] at hprev
        rw [show (j + 1 + 1) / 2 = i + 1 by omega]
        have hflip : fromMid (1 / 2) (code f) (j + 1) = - fromMid (1 / 2) (code f) j := by
          unfold fromMid
          rcases hb1 with e1 | e1 <;> rcases hb2 with e2 | e2 <;> rw [e1, e2] at hne ⊢ <;> first | exact absurd rfl hne | norm_num
        rw [hflip, hprev]
        rcases Nat.mod_two_eq_zero_or_one i with h | h
        · rw [if_pos h, if_neg (by omega)]; ring
        · rw [if_neg (by omega), if_pos (by omega)]; ring
  have hcor : ∀ j k, j ≤ k → k < 2 * N → coinMean N (fun f => fromMid (1 / 2) (code f) j * fromMid (1 / 2) (code f) k)
      = if (j + 1) / 2 = (k + 1) / 2 then (if (j / 2) % 2 = 0 then -1 / 2 else 1 / 2) * (if (k / 2) % 2 = 0 then -1 / 2 else 1 / 2) else 0 := by
    intro j k hjk hk
    rw [coinMean_prod N _ ((if (j / 2) % 2 = 0 then -1 / 2 else 1 / 2) * (if (k / 2) % 2 = 0 then -1 / 2 else 1 / 2))
      (fun l b => (if l < (j + 1) / 2 then (if b then 1 else -1) else 1) * (if l < (k + 1) / 2 then (if b then 1 else -1) else 1))
      (fun f => by rw [hx j (by omega), hx k hk, prod_mul_distrib]; ring)]
    by_cases h : (j + 1) / 2 = (k + 1) / 2
    · rw [if_pos h, h, prod_eq_one, mul_one]
      intro l _
      by_cases hl : l < (k + 1) / 2
      · simp only [if_pos hl]; norm_num
      · simp only [if_neg hl]; norm_num
    · rw [if_neg h]
      have hz : ∏ l ∈ range N, ((if l < (j + 1) / 2 then (if false = true then (1 : ℝ) else -1) else 1) * (if l < (k + 1) / 2 then (if false = true then 1 else -1) else 1)
          + (if l < (j + 1) / 2 then (if true = true then (1 : ℝ) else -1) else 1) * (if l < (k + 1) / 2 then (if true = true then 1 else -1) else 1)) / 2 = 0 := by
        refine prod_eq_zero (mem_range.2 (show (j + 1) / 2 < N by omega)) ?_
        simp only [lt_irrefl, if_false, if_pos (show (j + 1) / 2 < (k + 1) / 2 by omega)]
        norm_num
      rw [hz, mul_zero]
  have hsq : ∀ j < 2 * N, coinMean N (fun f => fromMid (1 / 2) (code f) j * fromMid (1 / 2) (code f) j) = 1 / 4 := by
    intro j hj
    rw [hcor j j le_rfl hj, if_pos rfl]
    split_ifs <;> norm_num
  have hne : ∀ j k, j < k → k < 2 * N → coinMean N (fun f => fromMid (1 / 2) (code f) j * fromMid (1 / 2) (code f) k)
      = if k = j + 1 ∧ j % 2 = 1 then -1 / 4 else 0 := by
    intro j k hjk hk
    rw [hcor j k (by omega) hk]
    by_cases h : k = j + 1 ∧ j % 2 = 1
    · rw [if_pos h, if_pos (by omega)]
      rcases Nat.mod_two_eq_zero_or_one (j / 2) with h' | h'
      · rw [if_pos h', if_neg (by omega)]; norm_num
      · rw [if_neg (by omega), if_pos (by omega)]; norm_num
    · rw [if_neg h, if_neg (by omega)]
  refine ⟨code, hcode, fun j hj => ?_, hsq, hne, fun ω => ?_⟩
  · rw [coinMean_prod N _ _ (fun l b => if l < (j + 1) / 2 then (if b then 1 else -1) else 1) (hx j hj)]
    by_cases h : j = 0
    · subst h
      simp
    · have hz : ∏ l ∈ range N, ((if l < (j + 1) / 2 then (if false = true then (1 : ℝ) else -1) else 1)
          + (if l < (j + 1) / 2 then (if true = true then (1 : ℝ) else -1) else 1)) / 2 = 0 := by
        refine prod_eq_zero (mem_range.2 hN) ?_
        simp only [if_pos (show 0 < (j + 1) / 2 by omega)]
        norm_num
      rw [if_neg h, hz, mul_zero]
  · rw [mean_periodogram]
    have h := chain_sum (1 / 4) (-1 / 4) ω (fun j => j % 2 = 1) (2 * N - 1)
      (fun j k => coinMean N (fun f => fromMid (1 / 2) (code f) j * fromMid (1 / 2) (code f) k))
      (fun j hj => hsq j (by omega)) (fun j k h1 h2 => hne j k h1 (by omega)) (fun j k _ _ => by simp only [mul_comm])
    rw [show 2 * N - 1 + 1 = 2 * N by omega] at h
    rw [h]
    have hc : ((range (2 * N - 1)).filter fun j => j % 2 = 1).card = N - 1 := by
      have : (range (2 * N - 1)).filter (fun j => j % 2 = 1) = (range (N - 1)).image (fun i => 2 * i + 1) := by
        ext j
        simp only [mem_filter, mem_range, mem_image]
        constructor
        · rintro ⟨h1, h2⟩; exact ⟨j / 2, by omega, by omega⟩
        · rintro ⟨i, h1, rfl⟩; omega
      rw [this, card_image_of_injective _ (fun a b h => by simpa using h), card_range]
    rw [hc, Nat.cast_sub (by omega), Nat.cast_sub (by omega)]
    push_cast
    ring

/-! ### MLT-3 -/

/-- the middle of the MLT-3 cycle as a rotation -/
theorem mlt3_rotation (n : ℕ) : ((mlt3Cycle n : ℤ) : ℝ) - 1 = -(Complex.I ^ n).re := by
  rw [Complex.I_pow_eq_pow_mod]
  unfold mlt3Cycle
  have h := Nat.mod_lt n (show 0 < 4 by norm_num)
  interval_cases n % 4
  · simp
  · simp
  · rw [Complex.I_sq]; simp; norm_num
  · rw [Complex.I_pow_three]; simp

theorem half_turn (n : ℕ) : ((((1 : ℂ) + Complex.I) / 2) ^ n).re = (√2 / 2) ^ n * Real.cos (n * (Real.pi / 4)) := by
  have h : ((1 : ℂ) + Complex.I) / 2 = ((√2 / 2 : ℝ) : ℂ) * (Complex.cos ((Real.pi / 4 : ℝ) : ℂ) + Complex.sin ((Real.pi / 4 : ℝ) : ℂ) * Complex.I) := by
    rw [← Complex.ofReal_cos, ← Complex.ofReal_sin, Real.cos_pi_div_four, Real.sin_pi_div_four]
    have h2 : ((√2 / 2 : ℝ) : ℂ) * ((√2 / 2 : ℝ) : ℂ) = 1 / 2 := by
      rw [← Complex.ofReal_mul]
      have : √2 / 2 * (√2 / 2) = 1 / 2 := by
        have := Real.mul_self_sqrt (show (0 : ℝ) ≤ 2 by norm_num)
        linarith
      rw [this]; norm_num
    rw [mul_add, ← mul_assoc, h2]
    ring
  rw [h, mul_pow, Complex.cos_add_sin_mul_I_pow, ← Complex.ofReal_pow]
  rw [show ((n : ℂ) * ((Real.pi / 4 : ℝ) : ℂ)) = ((n * (Real.pi / 4) : ℝ) : ℂ) by push_cast; ring, ← Complex.ofReal_cos, ← Complex.ofReal_sin,
    Complex.re_ofReal_mul]
  congr 1
  simp only [Complex.add_re, Complex.ofReal_re, Complex.mul_re, Complex.I_re, Complex.I_im, Complex.ofReal_im, mul_zero, mul_one, sub_self,
    add_zero]

theorem coinMean_re (N : ℕ) (F : (Fin N → Bool) → ℂ) : coinMean N (fun f => (F f).re) = ((∑ f, F f) / 2 ^ N).re := by
  unfold coinMean
  rw [← Complex.re_sum]
  have : ((2 : ℂ) ^ N) = (((2 : ℝ) ^ N : ℝ) : ℂ) := by push_cast; rfl
  rw [this, Complex.div_ofReal_re]

/-- **C124**, MLT-3: the correlation at lag `k` is `1/2 (√2/2)^k cos(k π/4)`, at every position: the spectrum has its weight below a quarter of the
symbol rate. The mean of element `j` is `-(√2/2)^(j+1) cos((j+1) π/4)`, which dies out. -/
theorem C124_mlt3 (N : ℕ) : ∃ code : (Fin N → Bool) → List Int, (∀ f, codingMlt3 (bitsOf f) = .ok (code f)) ∧
    (∀ j < N, coinMean N (fun f => fromMid 1 (code f) j) = -((√2 / 2) ^ (j + 1) * Real.cos ((j + 1 : ℕ) * (Real.pi / 4)))) ∧
    (∀ j k, j + k < N → coinMean N (fun f => fromMid 1 (code f) j * fromMid 1 (code f) (j + k))
      = 1 / 2 * ((√2 / 2) ^ k * Real.cos (k * (Real.pi / 4)))) := by
  choose code hcode hlen hval using fun f : Fin N → Bool => C27_cycle (bitsOf f) (bitsOf_binary f)
  have hx : ∀ j < N, ∀ f : Fin N → Bool, fromMid 1 (code f) j
      = -(∏ i : Fin N, (if (i : ℕ) < j + 1 then (if f i then Complex.I else 1) else 1)).re := by
    intro j hj f
    unfold fromMid
    rw [hval f j (by rw [bitsOf_length]; exact hj), mlt3_rotation, pow_pre f Complex.I (j + 1) (by omega)]
  have hpow : ∀ a b, a ≤ b → b ≤ N → ∏ l ∈ range N, (if a ≤ l ∧ l < b then ((1 : ℂ) + Complex.I) / 2 else 1) = (((1 : ℂ) + Complex.I) / 2) ^ (b - a) := by
    intro a b hab hb
    rw [prod_ite, prod_const, prod_const_one, mul_one]
    congr 1
    have : (range N).filter (fun l => a ≤ l ∧ l < b) = Ico a b := by
      ext l; simp only [mem_filter, mem_range, mem_Ico]; omega
    rw [this, Nat.card_Ico]
  refine ⟨code, hcode, fun j hj => ?_, fun j k hk => ?_⟩
  · have e : coinMean N (fun f => fromMid 1 (code f) j)
        = -coinMean N (fun f => (∏ i : Fin N, (if (i : ℕ) < j + 1 then (if f i then Complex.I else 1) else 1)).re) := by
      unfold coinMean
      rw [← neg_div, ← sum_neg_distrib, sum_congr rfl fun f _ => hx j hj f]
    rw [e, coinMean_re, coin_prod N (fun l b => if l < j + 1 then (if b then Complex.I else 1) else 1), ← half_turn]
    congr 2
    rw [← Nat.sub_zero (j + 1), ← hpow 0 (j + 1) (by omega) (by omega), Nat.sub_zero]
    refine prod_congr rfl fun l _ => ?_
    by_cases h : l < j + 1
    · simp only [if_pos h, if_pos (show 0 ≤ l ∧ l < j + 1 from ⟨by omega, h⟩)]; simp
    · simp only [if_neg h, if_neg (show ¬ (0 ≤ l ∧ l < j + 1) by omega)]; norm_num
  · have hprod : ∀ f : Fin N → Bool, fromMid 1 (code f) j * fromMid 1 (code f) (j + k)
        = (1 / 2 : ℝ) * (∏ i : Fin N, ((if (i : ℕ) < j + 1 then (if f i then Complex.I else 1) else 1)
            * (if (i : ℕ) < j + k + 1 then (if f i then Complex.I else 1) else 1))).re
          + (1 / 2 : ℝ) * (∏ i : Fin N, ((if (i : ℕ) < j + 1 then (if f i then -Complex.I else 1) else 1)
            * (if (i : ℕ) < j + k + 1 then (if f i then Complex.I else 1) else 1))).re := by
      intro f
      rw [hx j (by omega) f, hx (j + k) hk f, prod_mul_distrib, prod_mul_distrib]
      have hc : ∏ i : Fin N, (if (i : ℕ) < j + 1 then (if f i then -Complex.I else 1) else 1)
          = (starRingEnd ℂ) (∏ i : Fin N, (if (i : ℕ) < j + 1 then (if f i then Complex.I else 1) else 1)) := by
        rw [map_prod]
        refine prod_congr rfl fun i _ => ?_
        split_ifs <;> simp
      rw [hc]
      simp only [Complex.mul_re, Complex.conj_re, Complex.conj_im]
      ring
    have e : coinMean N (fun f => fromMid 1 (code f) j * fromMid 1 (code f) (j + k))
        = (1 / 2 : ℝ) * ((∑ f : Fin N → Bool, ∏ i : Fin N, ((if (i : ℕ) < j + 1 then (if f i then Complex.I else 1) else 1)
            * (if (i : ℕ) < j + k + 1 then (if f i then Complex.I else 1) else 1))) / 2 ^ N).re
          + (1 / 2 : ℝ) * ((∑ f : Fin N → Bool, ∏ i : Fin N, ((if (i : ℕ) < j + 1 then (if f i then -Complex.I else 1) else 1)
            * (if (i : ℕ) < j + k + 1 then (if f i then Complex.I else 1) else 1))) / 2 ^ N).re := by
      rw [← coinMean_re, ← coinMean_re]
      unfold coinMean
      rw [sum_congr rfl fun f _ => hprod f, sum_add_distrib, ← mul_sum, ← mul_sum]
      ring
    rw [e, coin_prod N (fun l b => (if l < j + 1 then (if b then Complex.I else 1) else 1) * (if l < j + k + 1 then (if b then Complex.I else 1) else 1)),
      coin_prod N (fun l b => (if l < j + 1 then (if b then -Complex.I else 1) else 1) * (if l < j + k + 1 then (if b then Complex.I else 1) else 1)),
      ← half_turn]
    have hz : ∏ l ∈ range N, ((if l < j + 1 then (if false = true then Complex.I else 1) else 1) * (if l < j + k + 1 then (if false = true then Complex.I else 1) else 1)
        + (if l < j + 1 then (if true = true then Complex.I else 1) else 1) * (if l < j + k + 1 then (if true = true then Complex.I else 1) else 1)) / 2 = 0 := by
      refine prod_eq_zero (mem_range.2 (show 0 < N by omega)) ?_
      simp only [if_pos (show 0 < j + 1 by omega), if_pos (show 0 < j + k + 1 by omega)]
      simp [Complex.I_mul_I]
    have hw : ∏ l ∈ range N, ((if l < j + 1 then (if false = true then -Complex.I else 1) else 1) * (if l < j + k + 1 then (if false = true then Complex.I else 1) else 1)
        + (if l < j + 1 then (if true = true then -Complex.I else 1) else 1) * (if l < j + k + 1 then (if true = true then Complex.I else 1) else 1)) / 2
        = (((1 : ℂ) + Complex.I) / 2) ^ k := by
      have h2 := hpow (j + 1) (j + k + 1) (by omega) (by omega)
      rw [show j + k + 1 - (j + 1) = k by omega] at h2
      rw [← h2]
      refine prod_congr rfl fun l _ => ?_
      by_cases h : l < j + 1
      · simp only [if_pos h, if_pos (show l < j + k + 1 by omega), if_neg (show ¬ (j + 1 ≤ l ∧ l < j + k + 1) by omega)]
        simp [Complex.I_mul_I]
      · by_cases h' : l < j + k + 1
        · simp only [if_neg h, if_pos h', if_pos (show j + 1 ≤ l ∧ l < j + k + 1 from ⟨by omega, h'⟩)]
          simp
        · simp only [if_neg h, if_neg h', if_neg (show ¬ (j + 1 ≤ l ∧ l < j + k + 1) by omega)]
          norm_num
    rw [hz, hw]
    simp

/-! ### Differential coding -/

theorem symbolsOf_inj {N m : ℕ} {v w : Fin N → Fin m} (h : symbolsOf v = symbolsOf w) : v = w := by
  funext i
  have := congrFun (List.ofFn_injective h) i
  exact Fin.ext (by exact_mod_cast this)

/-- **C124**, differential coding of independent, equally likely symbols gives independent, equally likely symbols: the total of any function over
all symbol vectors is unchanged. -/
theorem C124_differential (c : Constellation) (N : ℕ) (F : List Int → ℝ) :
    ∑ v : Fin N → Fin (intLevels c).length, F (codingDifferential (symbolsOf v) c) = ∑ v : Fin N → Fin (intLevels c).length, F (symbolsOf v) := by
  classical
  have hm : (0 : Int) < ((intLevels c).length : Int) := by cases c <;> decide
  have hvalid : ∀ v : Fin N → Fin (intLevels c).length, ∀ x ∈ symbolsOf v, 0 ≤ x ∧ x < ((intLevels c).length : Int) := by
    intro v x hx
    simp only [symbolsOf, List.mem_ofFn] at hx
    obtain ⟨i, rfl⟩ := hx
    exact ⟨by omega, by exact_mod_cast (v i).2⟩
  have hex : ∀ v : Fin N → Fin (intLevels c).length, ∃ w : Fin N → Fin (intLevels c).length, symbolsOf w = codingDifferential (symbolsOf v) c := by
    intro v
    have hlen : (codingDifferential (symbolsOf v) c).length = N := by rw [codingDifferential_length]; simp [symbolsOf]
    have hb := (C22_code_valid c (symbolsOf v)).1
    refine ⟨fun i => ⟨((codingDifferential (symbolsOf v) c)[(i : ℕ)]'(by rw [hlen]; exact i.2)).toNat, ?_⟩, ?_⟩
    · have := hb _ (List.getElem_mem (by rw [hlen]; exact i.2 : (i : ℕ) < (codingDifferential (symbolsOf v) c).length))
      omega
    · refine List.ext_getElem (Eq.trans (List.length_ofFn (n := N)) hlen.symm) fun i h1 h2 => ?_
      have := hb _ (List.getElem_mem h2)
      simp only [symbolsOf, List.getElem_ofFn]
      exact Int.toNat_of_nonneg this.1
  choose e he using hex
  have hinj : Function.Injective e := by
    intro v w h
    rcases Nat.eq_zero_or_pos N with rfl | hN
    · funext i; exact i.elim0
    have h1 : codingDifferential (symbolsOf v) c = codingDifferential (symbolsOf w) c := by rw [← he v, ← he w, h]
    have hne : ∀ u : Fin N → Fin (intLevels c).length, symbolsOf u ≠ [] := by
      intro u hu
      have : (symbolsOf u).length = N := by simp [symbolsOf]
      rw [hu] at this; simp at this; omega
    have h2 := C22_decode_code_partial c (symbolsOf v) (hne v) (hvalid v)
    rw [h1, C22_decode_code_partial c (symbolsOf w) (hne w) (hvalid w)] at h2
    exact (symbolsOf_inj (Except.ok.inj h2)).symm
  have hbij : Function.Bijective e := Finite.injective_iff_bijective.1 hinj
  rw [← hbij.sum_comp (fun v => F (symbolsOf v))]
  exact sum_congr rfl fun v _ => by rw [he v]

example : codingBipolar (bitsOf ![true, false, true, true]) = .ok [0, 1, 2, 0] ∧ codingMlt3 (bitsOf ![true, false, true, true]) = .ok [1, 1, 2, 1] ∧
    codingManchester (bitsOf ![true, false]) = .ok [1, 0, 0, 1] ∧ codingDiffManchester (bitsOf ![true, false]) = .ok [0, 0, 1, 0] := by decide
/-- the four vectors of two bits: the product of the two bipolar elements is -1 for one of them and 0 for the others -/
example : (codingBipolar (bitsOf ![true, true])).map (fun c => (c.getD 0 0 - 1) * (c.getD 1 0 - 1)) = .ok (-1) ∧
    (codingBipolar (bitsOf ![true, false])).map (fun c => (c.getD 0 0 - 1) * (c.getD 1 0 - 1)) = .ok 0 := by decide

end Verif
