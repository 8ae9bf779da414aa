import Verif.Lemmas.EqTests
import Verif.Props.ChanTestsNeg

/-! Helper lemmas for the test of the equalization estimation: the windows of the reference patterns are independent. -/

open Finset

namespace Verif
open Spec (unitScale flipBit txLevel periodic chanOut IsLs periodAvg BestPhase withPast eqAt poleGain OpenEye firAt)

/-- PRBS7 with four levels -/
def wit7q (t : ℕ) : ℤ := 2 * wit7 (2 * t + 1) + wit7 (2 * t)

theorem wit7_dominant : ∀ i < 10, (((List.range 10).filter fun j => j ≠ i).map fun j =>
      ((List.range 102).map fun n => wit7 (n + 27 - i) * wit7 (n + 27 - j)).sum.natAbs).sum
    < ((List.range 102).map fun n => wit7 (n + 27 - i) * wit7 (n + 27 - i)).sum.natAbs := by
  decide +kernel

theorem wit7q_dominant : ∀ i < 9, (((List.range 9).filter fun j => j ≠ i).map fun j =>
      ((List.range 102).map fun n => wit7q (n + 27 - i) * wit7q (n + 27 - j)).sum.natAbs).sum
    < ((List.range 102).map fun n => wit7q (n + 27 - i) * wit7q (n + 27 - i)).sum.natAbs := by
  decide +kernel

theorem nat_list_sum_filter (J i : ℕ) (f : ℕ → ℕ) :
    (((List.range J).filter fun j => j ≠ i).map f).sum = ∑ j ∈ (range J).erase i, f j := by
  have : ∀ m, (((List.range m).filter fun j => j ≠ i).map f).sum = ∑ j ∈ (range m).filter (fun j => j ≠ i), f j := by
    intro m
    induction m with
    | zero => rfl
    | succ m ih =>
      rw [List.range_succ, List.filter_append, List.map_append, List.sum_append, ih, range_add_one, filter_insert]
      by_cases h : m ≠ i
      · rw [if_pos h, sum_insert (by simp)]; simp [h]; ring
      · rw [if_neg h]; simp [h]
  rw [this, filter_ne']

/-- rank of the windows of an integer sequence from the evaluated Gram matrix -/
theorem int_window_rank (w : ℕ → ℤ) (J m b : ℕ)
    (hd : ∀ i < J, (((List.range J).filter fun j => j ≠ i).map fun j =>
        ((List.range m).map fun n => w (n + b - i) * w (n + b - j)).sum.natAbs).sum
      < ((List.range m).map fun n => w (n + b - i) * w (n + b - i)).sum.natAbs)
    (g : ℕ → ℝ) (h0 : ∀ n < m, ∑ j ∈ range J, g j * (w (n + b - j) : ℝ) = 0) : ∀ j < J, g j = 0 := by
  refine dominant_rank (range m) (fun n j => (w (n + b - j) : ℝ)) J (fun i hi => ?_) g (fun n hn => h0 n (mem_range.1 hn))
  have h := hd i hi
  rw [nat_list_sum_filter] at h
  have e : ∀ j, |∑ n ∈ range m, (w (n + b - i) : ℝ) * (w (n + b - j) : ℝ)|
      = ((((List.range m).map fun n => w (n + b - i) * w (n + b - j)).sum.natAbs : ℕ) : ℝ) := by
    intro j
    rw [int_list_sum, Nat.cast_natAbs, Int.cast_abs]
    push_cast
    rfl
  have e1 := e i
  rw [abs_of_nonneg (sum_nonneg fun n _ => mul_self_nonneg _)] at e1
  simp only [e, e1]
  exact_mod_cast h

theorem prbs7_or (p : PrbsEnum) : p = .prbs7 ∨ 511 ≤ 2 ^ p.value - 1 := by
  cases p <;> first | exact Or.inl rfl | exact Or.inr (by decide)

/-- nearby lags are not zero -/
theorem lag_ne (p : PrbsEnum) (i j : ℕ) (hi : i < 10) (hj : j < 10) (hne : i ≠ j) :
    ((i : ZMod (2 ^ p.value - 1)) - j) ≠ 0 := by
  intro h
  have hN := period_ge p
  have h1 := (ZMod.natCast_eq_natCast_iff' _ _ _).1 (sub_eq_zero.1 h)
  rw [Nat.mod_eq_of_lt (by omega), Nat.mod_eq_of_lt (by omega)] at h1
  exact hne h1

theorem nrz_window_rank (p : PrbsEnum) (g : ℕ → ℝ)
    (h0 : ∀ n : ℕ, n < 2 ^ p.value - 1 - 25 → ∑ j ∈ range 10, g j *
      uSeq p (onesSeed p) ((n : ZMod (2 ^ p.value - 1)) + ((27 : ℤ) : ZMod (2 ^ p.value - 1)) - j) = 0) :
    ∀ j < 10, g j = 0 := by
  rcases prbs7_or p with rfl | hN
  · refine int_window_rank wit7 10 102 27 wit7_dominant g (fun n hn => ?_)
    rw [← h0 n hn]
    refine sum_congr rfl fun j hj => ?_
    rw [mem_range] at hj
    congr 1
    have h1 := wit7_symbol ((n + 27 - j : ℕ) : ℤ) (by positivity)
    rw [Int.toNat_natCast] at h1
    rw [← h1, refZ_int, refZ_nrz, one_mul, add_zero]
    congr 1
    rw [Int.cast_natCast, Nat.cast_sub (by omega)]
    push_cast
    ring
  · refine window_rank_long (by omega) (uSeq p (onesSeed p)) 10 27 1 1 ((2 ^ p.value - 1 : ℕ) : ℝ)
      (fun z => ?_) ?_ (fun i hi j hj hne => ?_) ?_ g h0
    · rcases uSeq_cases p (onesSeed p) z with h | h <;> rw [h] <;> norm_num
    · have := uSeq_corr p (onesSeed p) (by simp) (onesSeed_ne p) 0
      simpa using this
    · rw [uSeq_corr p (onesSeed p) (by simp) (onesSeed_ne p), if_neg (lag_ne p i j hi hj hne)]; norm_num
    · have : (511 : ℝ) ≤ ((2 ^ p.value - 1 : ℕ) : ℝ) := by exact_mod_cast hN
      norm_num
      norm_num at this
      linarith

theorem pam4_window_rank (p : PrbsEnum) (g : ℕ → ℝ)
    (h0 : ∀ n : ℕ, n < 2 ^ p.value - 1 - 25 → ∑ j ∈ range 9, g j *
      refZ p .pam4 false false false false false ((n : ZMod (2 ^ p.value - 1)) + ((27 : ℤ) : ZMod (2 ^ p.value - 1)) - j) = 0) :
    ∀ j < 9, g j = 0 := by
  rcases prbs7_or p with rfl | hN
  · refine int_window_rank wit7q 9 102 27 wit7q_dominant g (fun n hn => ?_)
    rw [← h0 n hn]
    refine sum_congr rfl fun j hj => ?_
    rw [mem_range] at hj
    congr 1
    have e : ∀ t : ℕ, (wit7 t : ℝ) = uSeq .prbs7 (onesSeed .prbs7) (t : ZMod (2 ^ PrbsEnum.prbs7.value - 1)) := by
      intro t
      have h1 := wit7_symbol (t : ℤ) (by positivity)
      rw [Int.toNat_natCast] at h1
      rw [← h1, refZ_int, refZ_nrz, one_mul, add_zero, Int.cast_natCast]
    rw [wit7q, refZ_pam4, twoTap]
    push_cast
    rw [e, e]
    have e2 : ((n + 27 - j : ℕ) : ZMod (2 ^ PrbsEnum.prbs7.value - 1)) = (n : ZMod (2 ^ PrbsEnum.prbs7.value - 1)) + 27 - j := by
      rw [Nat.cast_sub (by omega)]; push_cast; ring
    push_cast
    rw [e2, add_zero]
    ring
  · have hu := uSeq_corr p (onesSeed p) (by simp) (onesSeed_ne p)
    have hcorr := twoTap_corr (uSeq p (onesSeed p)) hu _ (half_mod p) 1 1 (Or.inl rfl) 1 0
    have hR : (511 : ℝ) ≤ ((2 ^ p.value - 1 : ℕ) : ℝ) := by exact_mod_cast hN
    have hhalf : 2 * 2 ^ (p.value - 1) = (2 ^ p.value - 1) + 1 := by
      have h : (2 : ℕ) ^ p.value = 2 * 2 ^ (p.value - 1) := by
        rw [← Nat.pow_succ']; congr 1; have := value_pos p; omega
      have : 1 ≤ 2 ^ p.value := Nat.one_le_two_pow
      omega
    have hfar : ∀ i : ℕ, i < 9 → ∀ j : ℕ, j < 9 → ((i : ZMod (2 ^ p.value - 1)) - j) ≠ ((2 ^ (p.value - 1) : ℕ) : ZMod (2 ^ p.value - 1)) := by
      intro i hi j hj h
      rw [sub_eq_iff_eq_add, ← Nat.cast_add, ZMod.natCast_eq_natCast_iff', Nat.mod_eq_of_lt (by omega), Nat.mod_eq_of_lt (by omega)] at h
      omega
    simp only [refZ_pam4] at h0
    refine window_rank_long (by omega) (twoTap (uSeq p (onesSeed p)) 1 1 1 0) 9 27 3 9
      (5 * ((2 ^ p.value - 1 : ℕ) : ℝ) - 4) (fun z => ?_) ?_ (fun i hi j hj hne => ?_) ?_ g h0
    · rw [twoTap]
      rcases uSeq_cases p (onesSeed p) (2 * z + 1) with h | h <;> rcases uSeq_cases p (onesSeed p) (2 * z + 0) with h' | h' <;>
        rw [h, h'] <;> norm_num [abs_le]
    · have h := hcorr 0
      simp only [add_zero, zero_sub, mul_neg, mul_one, neg_neg, zero_eq_neg] at h
      rw [h]
      have hne : (0 : ZMod (2 ^ p.value - 1)) ≠ ((2 ^ (p.value - 1) : ℕ) : ZMod (2 ^ p.value - 1)) := by
        have := hfar 0 (by norm_num) 0 (by norm_num)
        rwa [sub_self] at this
      rw [if_pos trivial, if_neg (Ne.symm hne), if_neg hne]
      ring
    · rw [hcorr]
      simp only [zero_sub, mul_neg, mul_one, neg_neg]
      have h1 := lag_ne p i j (by omega) (by omega) hne
      have h2 := hfar i hi j hj
      have h3 : ((i : ZMod (2 ^ p.value - 1)) - j) ≠ -((2 ^ (p.value - 1) : ℕ) : ZMod (2 ^ p.value - 1)) := by
        intro h
        apply hfar j hj i hi
        rw [← neg_sub, h, neg_neg]
      rw [if_neg h1, if_neg h3, if_neg h2]
      norm_num
    · norm_num
      norm_num at hR
      linarith

/-- the windows of nine symbols of every reference are independent, even if 26 of them are missing -/
theorem ref_window_rank (p : PrbsEnum) (c : Constellation) (hc : c ≠ .pam3) (x : ℤ → ℝ)
    (hx : ∀ t : ℤ, x t = refZ p c false false false false false (t : ZMod (2 ^ p.value - 1))) (g : ℕ → ℝ)
    (h0 : ∀ n : ℤ, 26 ≤ n → n ≤ (2 ^ p.value - 1 : ℕ) + 1 → ∑ j ∈ range 9, g j * x (n - j) = 0) : ∀ j < 9, g j = 0 := by
  have hN := period_ge p
  cases c with
  | pam3 => exact absurd rfl hc
  | pam4 =>
    refine pam4_window_rank p g (fun n hn => ?_)
    rw [← h0 (n + 27) (by omega) (by omega)]
    refine sum_congr rfl fun j _ => ?_
    rw [hx]; push_cast; rfl
  | nrz =>
    have h := nrz_window_rank p (fun j => if j < 9 then g j else 0) (fun n hn => by
      rw [sum_range_succ, if_neg (by norm_num), zero_mul, add_zero, ← h0 (n + 27) (by omega) (by omega)]
      refine sum_congr rfl fun j hj => ?_
      rw [if_pos (mem_range.1 hj), hx, refZ_nrz, one_mul, add_zero]; push_cast; rfl)
    intro j hj
    have := h j (by omega)
    rwa [if_pos hj] at this
  | ook =>
    have h := nrz_window_rank p (fun j => (if j < 9 then g j else 0) - (if j = 0 then 0 else g (j - 1))) (fun n hn => by
      have e1 := h0 (n + 27) (by omega) (by omega)
      have e2 := h0 (n + 26) (by omega) (by omega)
      have hu : ∀ t : ℤ, uSeq p (onesSeed p) (t : ZMod (2 ^ p.value - 1)) = 2 * x t - 1 := by
        intro t; rw [hx, refZ_ook]; ring
      have e3 : ∀ j : ℕ, ((n : ZMod (2 ^ p.value - 1)) + ((27 : ℤ) : ZMod (2 ^ p.value - 1)) - j)
          = (((n : ℤ) + 27 - j : ℤ) : ZMod (2 ^ p.value - 1)) := by intro j; push_cast; ring
      simp only [e3, hu, sub_mul]
      rw [sum_sub_distrib, sum_range_succ, if_neg (by norm_num), zero_mul, add_zero, sum_range_succ' _ 9, if_pos rfl, zero_mul, add_zero]
      have e4 : ∀ j ∈ range 9, (if j < 9 then g j else 0) * (2 * x ((n : ℤ) + 27 - j) - 1) = 2 * (g j * x ((n : ℤ) + 27 - j)) - g j := by
        intro j hj; rw [if_pos (mem_range.1 hj)]; ring
      have e5 : ∀ j ∈ range 9, (if j + 1 = 0 then 0 else g (j + 1 - 1)) * (2 * x ((n : ℤ) + 27 - ((j + 1 : ℕ) : ℤ)) - 1)
          = 2 * (g j * x ((n : ℤ) + 26 - j)) - g j := by
        intro j hj
        rw [if_neg (by omega), Nat.add_sub_cancel, show (n : ℤ) + 27 - ((j + 1 : ℕ) : ℤ) = (n : ℤ) + 26 - j by push_cast; ring]; ring
      rw [sum_congr rfl e4, sum_congr rfl e5, sum_sub_distrib, sum_sub_distrib, ← mul_sum, ← mul_sum, e1, e2]
      ring)
    intro j
    induction j with
    | zero =>
      intro _
      have := h 0 (by norm_num)
      simpa using this
    | succ j ih =>
      intro hj
      have h1 := h (j + 1) (by omega)
      rw [if_pos hj, if_neg (by omega), Nat.add_sub_cancel, ih (by omega), sub_zero] at h1
      exact h1

end Verif
