import Verif.Model.RoundedStats
import Verif.Spec.FloatSum
import Verif.Lemmas.RoundedDelay
import Mathlib.Algebra.Order.BigOperators.Ring.List
import Mathlib.Algebra.Order.BigOperators.Group.List

/-! Rounded sums, means, powers. -/

open Finset

namespace Verif
open Spec

theorem absSum_nonneg (l : List ℝ) : 0 ≤ absSum l :=
  List.sum_nonneg (by intro x hx; rw [List.mem_map] at hx; obtain ⟨q, -, rfl⟩ := hx; positivity)

theorem absSum_append (l m : List ℝ) : absSum (l ++ m) = absSum l + absSum m := by simp [absSum]

theorem absSum_cons (a : ℝ) (l : List ℝ) : absSum (a :: l) = |a| + absSum l := by simp [absSum]

theorem sum_abs_le (l : List ℝ) : |l.sum| ≤ absSum l := by
  induction l with
  | nil => simp [absSum]
  | cons a l ih =>
    rw [List.sum_cons, absSum_cons]
    exact (abs_add_le _ _).trans (add_le_add le_rfl ih)

theorem absSum_of_nonneg (l : List ℝ) (h : ∀ v ∈ l, 0 ≤ v) : absSum l = l.sum := by
  unfold absSum
  congr 1
  conv_rhs => rw [← List.map_id l]
  exact List.map_congr_left fun v hv => abs_of_nonneg (h v hv)

theorem roundedSum_error {r : ℝ → ℝ} {u : ℝ} (hu : 0 ≤ u) (hr : ∀ x, |r x - x| ≤ u * |x|) {l : List ℝ} {s : ℝ}
    (h : RoundedSum r l s) : |s - l.sum| ≤ ((1 + u) ^ (l.length - 1) - 1) * absSum l := by
  induction h with
  | nil => simp [absSum]
  | single a => simp [absSum]
  | add l m s t hl hm _ _ h1 h2 =>
    have a1 := List.length_pos_iff.2 hl
    have a2 := List.length_pos_iff.2 hm
    rw [List.sum_append, absSum_append, List.length_append]
    obtain ⟨N, hN⟩ : ∃ N, l.length + m.length = N + 2 := ⟨l.length + m.length - 2, by omega⟩
    rw [hN, show N + 2 - 1 = N + 1 by omega]
    have hA := absSum_nonneg l
    have hB := absSum_nonneg m
    have up : ∀ k ≤ N, ∀ A : ℝ, 0 ≤ A → ((1 + u) ^ k - 1) * A ≤ ((1 + u) ^ N - 1) * A := fun k hk A hA =>
      mul_le_mul_of_nonneg_right (sub_le_sub_right (pow_le_pow_right₀ (by linarith) hk) 1) hA
    have b1 := h1.trans (up _ (by omega) _ hA)
    have b2 := h2.trans (up _ (by omega) _ hB)
    have := add_round hr s t l.sum m.sum _ _ hu b1 b2
    refine this.trans ?_
    have c1 := mul_le_mul_of_nonneg_left (add_le_add (sum_abs_le l) (sum_abs_le m)) hu
    rw [pow_succ]
    nlinarith
  | perm l m s hp _ h =>
    have e : absSum l = absSum m := (hp.map _).sum_eq
    rw [← hp.sum_eq, ← hp.length_eq, ← e]; exact h

/-- `l'` is `l` up to `k` rounding errors in every entry -/
abbrev NearL (u : ℝ) (k : ℕ) (l' l : List ℝ) : Prop := List.Forall₂ (Near u k) l' l

theorem nearL_sum {u : ℝ} {k : ℕ} {l' l : List ℝ} (h : NearL u k l' l) : |l'.sum - l.sum| ≤ ((1 + u) ^ k - 1) * absSum l := by
  induction h with
  | nil => simp [absSum]
  | cons h _ ih =>
    rw [List.sum_cons, List.sum_cons, absSum_cons, mul_add, add_sub_add_comm]
    exact (abs_add_le _ _).trans (add_le_add h ih)

theorem nearL_abs {u : ℝ} {k : ℕ} {l' l : List ℝ} (h : NearL u k l' l) : absSum l' ≤ (1 + u) ^ k * absSum l := by
  induction h with
  | nil => simp [absSum]
  | cons h _ ih =>
    rw [absSum_cons, absSum_cons, mul_add]
    exact add_le_add (near_abs h) ih

theorem nearL_map {u : ℝ} {k : ℕ} {β : Type*} (f g : β → ℝ) (l : List β) (h : ∀ x ∈ l, Near u k (f x) (g x)) :
    NearL u k (l.map f) (l.map g) := by
  induction l with
  | nil => exact .nil
  | cons a l ih => exact .cons (h a (by simp)) (ih fun x hx => h x (by simp [hx]))

/-- the rounded sum of rounded terms -/
theorem sumR_near {r : ℝ → ℝ} {u : ℝ} (hu : 0 ≤ u) (hr : ∀ x, |r x - x| ≤ u * |x|) {l' l : List ℝ} {k : ℕ} (h : NearL u k l' l) {s : ℝ}
    (hs : RoundedSum r l' s) : |s - l.sum| ≤ ((1 + u) ^ (k + (l.length - 1)) - 1) * absSum l := by
  have h1 := roundedSum_error hu hr hs
  have h2 := nearL_sum h
  have h3 := mul_le_mul_of_nonneg_left (nearL_abs h) (near_pow_nonneg hu (l'.length - 1))
  rw [h.length_eq] at h1 h3
  refine (abs_sub_le _ l'.sum _).trans ((add_le_add (h1.trans h3) h2).trans (le_of_eq ?_))
  rw [pow_add]
  ring

/-- the rounded mean of rounded terms -/
theorem meanR_near {r : ℝ → ℝ} {u : ℝ} (hu : 0 ≤ u) (hr : ∀ x, |r x - x| ≤ u * |x|) (sumR : List ℝ → ℝ)
    (hs : ∀ l, RoundedSum r l (sumR l)) {l' l : List ℝ} {k : ℕ} (h : NearL u k l' l) (hl : l ≠ []) :
    ∃ m, meanR r sumR l' = some m ∧ |m - l.sum / l.length| ≤ ((1 + u) ^ (k + l.length) - 1) * (absSum l / l.length) := by
  have hpos : 0 < l.length := List.length_pos_iff.2 hl
  unfold meanR
  rw [h.length_eq, if_neg (by omega)]
  refine ⟨_, rfl, ?_⟩
  have h1 := sumR_near hu hr h (hs l')
  have hn : (0 : ℝ) < l.length := by exact_mod_cast hpos
  have h2 := hr (sumR l' / l.length)
  obtain ⟨N, hN⟩ : ∃ N, k + l.length = N + 1 := ⟨k + l.length - 1, by omega⟩
  rw [show k + (l.length - 1) = N by omega] at h1
  rw [hN, pow_succ]
  have h3 : |sumR l' / l.length - l.sum / l.length| ≤ ((1 + u) ^ N - 1) * (absSum l / l.length) := by
    rw [← sub_div, abs_div, abs_of_pos hn, ← mul_div_assoc]
    exact div_le_div_of_nonneg_right h1 hn.le
  have h4 : |l.sum / (l.length : ℝ)| ≤ absSum l / l.length := by
    rw [abs_div, abs_of_pos hn]
    exact div_le_div_of_nonneg_right (sum_abs_le l) hn.le
  have h5 := abs_sub_abs_le_abs_sub (sumR l' / l.length) (l.sum / l.length)
  have h6 := abs_sub_le (r (sumR l' / l.length)) (sumR l' / l.length) (l.sum / l.length)
  have h7 := mul_le_mul_of_nonneg_left (show |sumR l' / (l.length : ℝ)| ≤ (1 + u) ^ N * (absSum l / l.length) by linarith) hu
  nlinarith

theorem near_sqrt {u : ℝ} {k : ℕ} {a b : ℝ} (hb : 0 ≤ b) (h : Near u k a b) : Near u k (Real.sqrt a) (Real.sqrt b) := by
  unfold Near at *
  rw [abs_of_nonneg hb] at h
  rw [abs_of_nonneg (Real.sqrt_nonneg b)]
  rcases hb.eq_or_lt with rfl | hb'
  · rw [mul_zero, sub_zero, abs_nonpos_iff] at h
    rw [h]; simp
  · have hs := Real.sqrt_pos.2 hb'
    have hsb := Real.mul_self_sqrt hb
    rcases le_total 0 a with ha | ha
    · have hsa := Real.mul_self_sqrt ha
      have hsa0 := Real.sqrt_nonneg a
      have e : a - b = (Real.sqrt a - Real.sqrt b) * (Real.sqrt a + Real.sqrt b) := by linear_combination hsb - hsa
      rw [e, abs_mul, abs_of_pos (by linarith : 0 < Real.sqrt a + Real.sqrt b)] at h
      have h1 : |Real.sqrt a - Real.sqrt b| * Real.sqrt b ≤ ((1 + u) ^ k - 1) * Real.sqrt b * Real.sqrt b := by
        rw [mul_assoc, hsb]
        refine le_trans (mul_le_mul_of_nonneg_left ?_ (abs_nonneg _)) h
        linarith
      exact le_of_mul_le_mul_right h1 hs
    · rw [Real.sqrt_eq_zero_of_nonpos ha, zero_sub, abs_neg, abs_of_pos hs]
      have h1 : b ≤ ((1 + u) ^ k - 1) * b := by
        have := neg_le_abs (a - b)
        linarith
      have h2 : 1 ≤ (1 + u) ^ k - 1 := by
        by_contra hc
        push Not at hc
        nlinarith
      nlinarith

theorem near_inv' {u : ℝ} {k : ℕ} (hu : 0 ≤ u) (hk : (1 + u) ^ k ≤ 3 / 2) {a b : ℝ} (h : Near u k a b) : Near u (2 * k) a⁻¹ b⁻¹ := by
  have h1 : Near ((1 + u) ^ k - 1) 1 a b := by
    unfold Near at *
    rw [pow_one, add_sub_cancel]
    exact h
  have h2 := near_inv (near_pow_nonneg hu k) (by linarith) h1
  unfold Near at *
  rw [add_sub_cancel, ← pow_mul, mul_comm k 2] at h2
  exact h2

theorem near_add_nonneg {u : ℝ} {k : ℕ} {a b c d : ℝ} (hb : 0 ≤ b) (hd : 0 ≤ d) (h1 : Near u k a b) (h2 : Near u k c d) :
    Near u k (a + c) (b + d) := by
  unfold Near at *
  rw [abs_of_nonneg hb] at h1
  rw [abs_of_nonneg hd] at h2
  rw [abs_of_nonneg (add_nonneg hb hd), mul_add, add_sub_add_comm]
  exact (abs_add_le _ _).trans (add_le_add h1 h2)

/-! ### the estimated signal power -/

theorem sq_dev (l : List ℝ) (c : ℝ) : (l.map (fun v => (v - c) ^ 2)).sum = sqSum l - 2 * c * l.sum + l.length * c ^ 2 := by
  unfold sqSum
  induction l with
  | nil => simp
  | cons a l ih =>
    simp only [List.map_cons, List.sum_cons, List.length_cons, ih]
    push_cast
    ring

theorem sq_dev_nonneg (l : List ℝ) (c : ℝ) : 0 ≤ (l.map (fun v => (v - c) ^ 2)).sum :=
  List.sum_nonneg (by intro x hx; rw [List.mem_map] at hx; obtain ⟨q, -, rfl⟩ := hx; positivity)

theorem absSum_sq_le (l : List ℝ) (hl : l ≠ []) : (absSum l / l.length) ^ 2 ≤ sqSum l / l.length := by
  have hn : (0 : ℝ) < l.length := by exact_mod_cast List.length_pos_iff.2 hl
  have h := sq_dev_nonneg (l.map (fun v => |v|)) (absSum l / l.length)
  rw [sq_dev] at h
  have e1 : sqSum (l.map (fun v => |v|)) = sqSum l := by simp [sqSum, Function.comp_def]
  have e2 : (l.map (fun v => |v|)).sum = absSum l := rfl
  rw [e1, e2, List.length_map] at h
  rw [div_pow, div_le_div_iff₀ (by positivity) hn]
  have e3 : sqSum l - 2 * (absSum l / l.length) * absSum l + l.length * (absSum l / l.length) ^ 2
      = (sqSum l * l.length - absSum l ^ 2) / l.length := by field_simp; ring
  rw [e3, div_nonneg_iff] at h
  rcases h with h | h
  · nlinarith [h.1]
  · linarith [h.2]

theorem sqSum_le_power (l : List ℝ) (hl : 2 ≤ l.length) : sqSum l / l.length ≤ signalPower l := by
  have hn : (2 : ℝ) ≤ l.length := by exact_mod_cast hl
  have hne : l ≠ [] := by rintro rfl; simp at hl
  have h1 : (l.sum / l.length) ^ 2 ≤ sqSum l / l.length := by
    refine le_trans ?_ (absSum_sq_le l hne)
    rw [← sq_abs (l.sum / (l.length : ℝ)), abs_div, abs_of_pos (by linarith : (0 : ℝ) < l.length)]
    have := sum_abs_le l
    gcongr
  have e : signalPower l - sqSum l / l.length = (sqSum l / l.length - (l.sum / l.length) ^ 2) / ((l.length : ℝ) - 1) := by
    unfold signalPower
    rw [sq_dev]
    have h2 : (l.length : ℝ) - 1 ≠ 0 := by linarith
    have h3 : (l.length : ℝ) ≠ 0 := by linarith
    field_simp
    ring
  have := div_nonneg (sub_nonneg.2 h1) (by linarith : (0 : ℝ) ≤ (l.length : ℝ) - 1)
  linarith

theorem signalPower_nonneg (l : List ℝ) (hl : 2 ≤ l.length) : 0 ≤ signalPower l := by
  unfold signalPower
  have hn : (2 : ℝ) ≤ l.length := by exact_mod_cast hl
  exact add_nonneg (div_nonneg (sq_dev_nonneg _ _) (by linarith)) (sq_nonneg _)

/-- the power about a slightly wrong mean -/
theorem power_shift (l : List ℝ) (hl : 2 ≤ l.length) (c t : ℝ) (ht : 0 ≤ t)
    (hc : |c - l.sum / l.length| ≤ t * (absSum l / l.length)) :
    |(l.map (fun v => (v - c) ^ 2)).sum / ((l.length : ℝ) - 1) + c ^ 2 - signalPower l| ≤ ((1 + t) ^ 3 - 1) * signalPower l := by
  have hn : (2 : ℝ) ≤ l.length := by exact_mod_cast hl
  have hne : l ≠ [] := by rintro rfl; simp at hl
  have hA := absSum_sq_le l hne
  have hP := sqSum_le_power l hl
  have hV := signalPower_nonneg l hl
  have hA0 : 0 ≤ absSum l / l.length := div_nonneg (absSum_nonneg l) (by linarith)
  have hm : |l.sum / (l.length : ℝ)| ≤ absSum l / l.length := by
    rw [abs_div, abs_of_pos (by linarith : (0 : ℝ) < l.length)]
    have := sum_abs_le l
    gcongr
  have e : (l.map (fun v => (v - c) ^ 2)).sum / ((l.length : ℝ) - 1) + c ^ 2 - signalPower l
      = (l.length : ℝ) / ((l.length : ℝ) - 1) * (c - l.sum / l.length) ^ 2
        + (c - l.sum / l.length) * (c - l.sum / l.length + 2 * (l.sum / l.length)) := by
    unfold signalPower
    rw [sq_dev, sq_dev]
    have h2 : (l.length : ℝ) - 1 ≠ 0 := by linarith
    have h3 : (l.length : ℝ) ≠ 0 := by linarith
    field_simp
    ring
  rw [e]
  have hq : (l.length : ℝ) / ((l.length : ℝ) - 1) ≤ 2 := by rw [div_le_iff₀ (by linarith)]; linarith
  have hq0 : 0 ≤ (l.length : ℝ) / ((l.length : ℝ) - 1) := div_nonneg (by linarith) (by linarith)
  generalize (l.length : ℝ) / ((l.length : ℝ) - 1) = q at hq hq0
  generalize absSum l / l.length = A at hc hA hA0 hm
  generalize l.sum / (l.length : ℝ) = m at hc hm
  generalize c - m = d at hc
  have hAV : A ^ 2 ≤ signalPower l := hA.trans hP
  generalize signalPower l = V at hAV hV
  have hd2 : d ^ 2 ≤ t ^ 2 * A ^ 2 := by
    rw [← sq_abs d, ← mul_pow]
    gcongr
  have h1 : |q * d ^ 2| ≤ 2 * (t ^ 2 * A ^ 2) := by
    rw [abs_of_nonneg (by positivity)]
    exact mul_le_mul hq hd2 (sq_nonneg _) (by norm_num)
  have h2 : |d * (d + 2 * m)| ≤ (t * A) * (t * A + 2 * A) := by
    rw [abs_mul]
    refine mul_le_mul hc ((abs_add_le _ _).trans (add_le_add hc ?_)) (abs_nonneg _) (by positivity)
    rw [abs_mul, abs_of_pos (by norm_num : (0 : ℝ) < 2)]
    linarith
  refine (abs_add_le _ _).trans ((add_le_add h1 h2).trans ?_)
  have h3 : 2 * (t ^ 2 * A ^ 2) + t * A * (t * A + 2 * A) = (3 * t ^ 2 + 2 * t) * A ^ 2 := by ring
  have h4 : 3 * t ^ 2 + 2 * t ≤ (1 + t) ^ 3 - 1 := by
    have : (1 + t) ^ 3 - 1 - (3 * t ^ 2 + 2 * t) = t + t ^ 3 := by ring
    have : 0 ≤ t + t ^ 3 := by positivity
    linarith
  rw [h3]
  calc (3 * t ^ 2 + 2 * t) * A ^ 2 ≤ (3 * t ^ 2 + 2 * t) * V := mul_le_mul_of_nonneg_left hAV (by positivity)
    _ ≤ _ := mul_le_mul_of_nonneg_right h4 hV

end Verif
