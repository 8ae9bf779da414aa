import Verif.Model.Rounded
import Verif.Spec.Float
import Verif.Lemmas.Ffe
import Mathlib.Tactic.Linarith
import Mathlib.Tactic.Positivity
import Mathlib.Tactic.FieldSimp
import Mathlib.Tactic.NormNum

/-! Rounding errors of floating-point arithmetic and of the decision feedback equalizer. -/

namespace Verif
open Spec

theorem roundHalfEven_error (x : ℝ) : |(roundHalfEven x : ℝ) - x| ≤ 1 / 2 := by
  have h0 := Int.floor_add_fract x
  have h1 := Int.fract_nonneg x
  have h2 := Int.fract_lt_one x
  unfold roundHalfEven
  rw [abs_le]
  split_ifs <;> push_cast <;> constructor <;> linarith

theorem ulp_pos (p : ℕ) (x : ℝ) : 0 < ulp p x := by unfold ulp; exact zpow_pos (by norm_num) _

theorem fl_zero (p : ℕ) : fl p 0 = 0 := by simp [fl, roundHalfEven]

/-- standard model of floating-point arithmetic -/
theorem fl_error (p : ℕ) (x : ℝ) : |fl p x - x| ≤ 2 ^ (-(p : ℤ)) * |x| := by
  by_cases hx : x = 0
  · rw [hx, fl_zero]; simp
  have hu := ulp_pos p x
  have h1 := roundHalfEven_error (x / ulp p x)
  have h2 : fl p x - x = (roundHalfEven (x / ulp p x) - x / ulp p x) * ulp p x := by
    unfold fl
    field_simp
  rw [h2, abs_mul, abs_of_pos hu]
  have h3 : ulp p x / 2 ≤ 2 ^ (-(p : ℤ)) * |x| := by
    have h4 : (2 : ℝ) ^ (Int.log 2 |x|) ≤ |x| := by
      have := Int.zpow_log_le_self (b := 2) (by norm_num) (abs_pos.2 hx)
      exact_mod_cast this
    have h5 : ulp p x / 2 = 2 ^ (-(p : ℤ)) * 2 ^ (Int.log 2 |x|) := by
      unfold ulp
      rw [show Int.log 2 |x| + 1 - (p : ℤ) = -(p : ℤ) + Int.log 2 |x| + 1 by ring, zpow_add_one₀ (by norm_num),
        zpow_add₀ (by norm_num)]
      ring
    rw [h5]
    exact mul_le_mul_of_nonneg_left h4 (zpow_pos (by norm_num) _).le
  calc |(roundHalfEven (x / ulp p x) : ℝ) - x / ulp p x| * ulp p x ≤ 1 / 2 * ulp p x :=
        mul_le_mul_of_nonneg_right h1 hu.le
    _ ≤ _ := by linarith

/-- sum of the products -/
noncomputable def pairSum (l : List (ℝ × ℝ)) : ℝ := (l.map (fun q => q.1 * q.2)).sum

/-- sum of the magnitudes of the products -/
noncomputable def pairAbs (l : List (ℝ × ℝ)) : ℝ := (l.map (fun q => |q.1| * |q.2|)).sum

theorem pairAbs_nonneg (l : List (ℝ × ℝ)) : 0 ≤ pairAbs l :=
  List.sum_nonneg (by intro x hx; rw [List.mem_map] at hx; obtain ⟨q, -, rfl⟩ := hx; positivity)

theorem pairSum_abs_le (l : List (ℝ × ℝ)) : |pairSum l| ≤ pairAbs l := by
  induction l with
  | nil => simp [pairSum, pairAbs]
  | cons q l ih =>
    simp only [pairSum, pairAbs, List.map_cons, List.sum_cons] at ih ⊢
    refine (abs_add_le _ _).trans ?_
    rw [abs_mul]
    linarith

theorem add_round {r : ℝ → ℝ} {u : ℝ} (hr : ∀ x, |r x - x| ≤ u * |x|) (s t S T e f : ℝ) (hu : 0 ≤ u)
    (hs : |s - S| ≤ e) (ht : |t - T| ≤ f) : |r (s + t) - (S + T)| ≤ u * (|S| + |T|) + (1 + u) * (e + f) := by
  have h1 := hr (s + t)
  have h2 : |s + t| ≤ |S| + e + (|T| + f) := by
    have a1 := abs_add_le (s - S) S
    have a2 := abs_add_le (t - T) T
    rw [sub_add_cancel] at a1 a2
    have := abs_add_le s t
    linarith
  have h3 : |r (s + t) - (S + T)| ≤ |r (s + t) - (s + t)| + |s - S| + |t - T| := by
    have := abs_add_three (r (s + t) - (s + t)) (s - S) (t - T)
    rwa [show r (s + t) - (s + t) + (s - S) + (t - T) = r (s + t) - (S + T) by ring] at this
  have h4 := mul_le_mul_of_nonneg_left h2 hu
  nlinarith

theorem roundedDot_error {r : ℝ → ℝ} {u : ℝ} (hu : 0 ≤ u) (hr : ∀ x, |r x - x| ≤ u * |x|) {l : List (ℝ × ℝ)} {s : ℝ}
    (h : RoundedDot r l s) : |s - pairSum l| ≤ ((1 + u) ^ l.length - 1) * pairAbs l := by
  induction h with
  | nil => simp [pairSum, pairAbs]
  | prod a b =>
    simp only [pairSum, pairAbs, List.map_cons, List.map_nil, List.sum_cons, List.sum_nil, add_zero, List.length_cons,
      List.length_nil, zero_add, pow_one, add_sub_cancel_left, ← abs_mul]
    exact hr _
  | add l m s t hl hm h1 h2 ih1 ih2 =>
    have e1 : pairSum (l ++ m) = pairSum l + pairSum m := by simp [pairSum]
    have e2 : pairAbs (l ++ m) = pairAbs l + pairAbs m := by simp [pairAbs]
    have h3 := add_round hr s t _ _ _ _ hu ih1 ih2
    rw [e1, e2, List.length_append]
    refine h3.trans ?_
    have p1 := pairSum_abs_le l
    have p2 := pairSum_abs_le m
    have q1 := pairAbs_nonneg l
    have q2 := pairAbs_nonneg m
    have w : (1 : ℝ) ≤ 1 + u := by linarith
    have b1 : (1 + u) ^ (l.length + 1) ≤ (1 + u) ^ (l.length + m.length) :=
      pow_le_pow_right₀ w (by have := List.length_pos_iff.2 hm; omega)
    have b2 : (1 + u) ^ (m.length + 1) ≤ (1 + u) ^ (l.length + m.length) :=
      pow_le_pow_right₀ w (by have := List.length_pos_iff.2 hl; omega)
    have c1 := mul_le_mul_of_nonneg_right b1 q1
    have c2 := mul_le_mul_of_nonneg_right b2 q2
    have d1 := mul_le_mul_of_nonneg_left p1 hu
    have d2 := mul_le_mul_of_nonneg_left p2 hu
    rw [pow_succ] at c1 c2
    nlinarith
  | fma a b l s h1 ih =>
    have e1 : pairSum ((a, b) :: l) = a * b + pairSum l := by simp [pairSum]
    have e2 : pairAbs ((a, b) :: l) = |a| * |b| + pairAbs l := by simp [pairAbs]
    have h3 := add_round hr (a * b) s (a * b) (pairSum l) 0 _ hu (by simp) ih
    rw [e1, e2, List.length_cons]
    refine h3.trans ?_
    have p1 := pairSum_abs_le l
    have q1 := pairAbs_nonneg l
    have w : (1 : ℝ) ≤ 1 + u := by linarith
    have b1 : (1 + u) ^ 1 ≤ (1 + u) ^ (l.length + 1) := pow_le_pow_right₀ w (by omega)
    have q0 : 0 ≤ |a| * |b| := by positivity
    have c1 := mul_le_mul_of_nonneg_right b1 q0
    have d1 := mul_le_mul_of_nonneg_left p1 hu
    rw [abs_mul, pow_succ]
    rw [pow_one, pow_succ] at c1
    nlinarith
  | perm l m s hp h1 ih =>
    have e1 : pairSum m = pairSum l := ((hp.map _).sum_eq).symm
    have e2 : pairAbs m = pairAbs l := ((hp.map _).sum_eq).symm
    rw [e1, e2, ← hp.length_eq]
    exact ih

theorem one_add_pow_le (u : ℝ) (hu : 0 ≤ u) (k : ℕ) (h : 2 * (k * u) ≤ 1) : (1 + u) ^ k ≤ 1 + 2 * (k * u) := by
  induction k with
  | zero => simp
  | succ k ih =>
    push_cast at h ⊢
    have h1 := ih (by nlinarith)
    rw [pow_succ]
    have h2 := mul_le_mul_of_nonneg_right h1 (by linarith : 0 ≤ 1 + u)
    have h3 : 2 * (k * u) * u ≤ 1 * u := mul_le_mul_of_nonneg_right (by linarith) hu
    linarith

end Verif
