import Verif.Lemmas.PulseFn
import Mathlib.Analysis.SpecialFunctions.Integrals.Basic
import Mathlib.Analysis.SpecialFunctions.Trigonometric.Bounds
import Mathlib.Analysis.Real.Pi.Bounds

/-! The shape of the raised cosine: positivity, monotonicity and the sign of the difference of its two neighbours. -/

namespace Verif

open Real Spec

/-- the factor of the raised cosine besides the sinc, as a function of `x = 2βt` -/
noncomputable def rollFn (x : ℝ) : ℝ := π / 4 * (sinc (π / 2 - π / 2 * x) + sinc (π / 2 + π / 2 * x))

theorem rcosFn_roll (β t : ℝ) : rcosFn β t = sinc (π * t) * rollFn (2 * β * t) := by
  rw [rcosFn, rollFn]
  congr 4 <;> ring

theorem sinc_integral (u : ℝ) : sinc u = ∫ s in (0 : ℝ)..1, cos (u * s) := by
  by_cases h : u = 0
  · simp [h]
  · rw [sinc_of_ne_zero h, intervalIntegral.integral_comp_mul_left (fun x => cos x) h]
    simp [div_eq_inv_mul]

theorem rollFn_integral (x : ℝ) : rollFn x = π / 2 * ∫ s in (0 : ℝ)..1, cos (π / 2 * s) * cos (π / 2 * x * s) := by
  rw [rollFn, sinc_integral, sinc_integral, ← intervalIntegral.integral_add
    ((by fun_prop : Continuous fun s : ℝ => cos ((π / 2 - π / 2 * x) * s)).intervalIntegrable 0 1)
    ((by fun_prop : Continuous fun s : ℝ => cos ((π / 2 + π / 2 * x) * s)).intervalIntegrable 0 1)]
  have : ∀ s : ℝ, cos ((π / 2 - π / 2 * x) * s) + cos ((π / 2 + π / 2 * x) * s)
      = 2 * (cos (π / 2 * s) * cos (π / 2 * x * s)) := by
    intro s
    rw [sub_mul, add_mul, cos_sub, cos_add]; ring
  simp only [this]
  rw [intervalIntegral.integral_const_mul]
  ring

theorem cos_window (s : ℝ) (hs : s ∈ Set.Icc (0 : ℝ) 1) : 0 ≤ cos (π / 2 * s) :=
  cos_nonneg_of_neg_pi_div_two_le_of_le (by nlinarith [pi_pos, hs.1]) (by nlinarith [pi_pos, hs.2])

theorem rollFn_anti (x y : ℝ) (hx : 0 ≤ x) (hxy : x ≤ y) (hy : y ≤ 2) : rollFn y ≤ rollFn x := by
  rw [rollFn_integral, rollFn_integral]
  refine mul_le_mul_of_nonneg_left ?_ (by positivity)
  refine intervalIntegral.integral_mono_on zero_le_one
    ((by fun_prop : Continuous fun s : ℝ => cos (π / 2 * s) * cos (π / 2 * y * s)).intervalIntegrable 0 1)
    ((by fun_prop : Continuous fun s : ℝ => cos (π / 2 * s) * cos (π / 2 * x * s)).intervalIntegrable 0 1) fun s hs => ?_
  refine mul_le_mul_of_nonneg_left ?_ (cos_window s hs)
  have hp := pi_pos
  refine cos_le_cos_of_nonneg_of_le_pi (by have := hs.1; positivity) ?_ ?_
  · have h1 : π / 2 * y ≤ π := by nlinarith
    have h2 : 0 ≤ π / 2 * y := by have := hx.trans hxy; positivity
    nlinarith [hs.1, hs.2]
  · exact mul_le_mul_of_nonneg_right (by nlinarith) hs.1

theorem rollFn_zero : rollFn 0 = 1 := by
  rw [rollFn]
  simp only [mul_zero, sub_zero, add_zero]
  rw [sinc_of_ne_zero (by positivity), sin_pi_div_two]
  field_simp
  norm_num

theorem rollFn_one : rollFn 1 = π / 4 := by
  rw [rollFn]
  have : sinc (π / 2 + π / 2 * 1) = 0 := by
    rw [show π / 2 + π / 2 * 1 = π by ring, sinc_of_ne_zero pi_ne_zero, sin_pi, zero_div]
  rw [this, mul_one, sub_self, sinc_zero]; ring

theorem rollFn_eq (x : ℝ) : (1 - x ^ 2) * rollFn x = cos (π / 2 * x) := by
  have h1 := mul_sinc (π / 2 - π / 2 * x)
  have h2 := mul_sinc (π / 2 + π / 2 * x)
  rw [sin_pi_div_two_sub] at h1
  rw [add_comm, sin_add_pi_div_two, add_comm] at h2
  rw [rollFn]
  linear_combination (1 + x) / 2 * h1 + (1 - x) / 2 * h2

theorem rollFn_two : rollFn 2 = 1 / 3 := by
  have := rollFn_eq 2
  rw [show π / 2 * 2 = π by ring, cos_pi] at this
  linarith

theorem rollFn_abs (x : ℝ) : |rollFn x| ≤ 1 := by
  have key : ∀ e : ℝ, (e = 1 ∨ e = -1) → e * rollFn x ≤ 1 := by
    intro e he
    rw [← rollFn_zero, rollFn_integral, rollFn_integral, mul_left_comm]
    refine mul_le_mul_of_nonneg_left ?_ (by positivity)
    rw [← intervalIntegral.integral_const_mul]
    refine intervalIntegral.integral_mono_on zero_le_one
      ((by fun_prop : Continuous fun s : ℝ => e * (cos (π / 2 * s) * cos (π / 2 * x * s))).intervalIntegrable 0 1)
      ((by fun_prop : Continuous fun s : ℝ => cos (π / 2 * s) * cos (π / 2 * 0 * s)).intervalIntegrable 0 1) fun s hs => ?_
    rw [mul_left_comm]
    refine mul_le_mul_of_nonneg_left ?_ (cos_window s hs)
    rw [mul_zero, zero_mul, cos_zero]
    rcases he with rfl | rfl
    · rw [one_mul]; exact cos_le_one _
    · linarith [neg_one_le_cos (π / 2 * x * s)]
  rw [abs_le]
  have h1 := key 1 (Or.inl rfl)
  have h2 := key (-1) (Or.inr rfl)
  constructor <;> linarith

theorem rollFn_ge (x : ℝ) (h0 : 0 ≤ x) (h2 : x ≤ 2) : 1 / 3 ≤ rollFn x := by
  rw [← rollFn_two]; exact rollFn_anti x 2 h0 h2 le_rfl

theorem rollFn_nonneg (x : ℝ) (h0 : 0 ≤ x) (h3 : x ≤ 3) : 0 ≤ rollFn x := by
  by_cases h : x ≤ 2
  · exact le_trans (by norm_num) (rollFn_ge x h0 h)
  · push Not at h
    have he := rollFn_eq x
    have hp := pi_pos
    have hc : cos (π / 2 * x) ≤ 0 := cos_nonpos_of_pi_div_two_le_of_le (by nlinarith) (by nlinarith)
    by_contra hneg
    push Not at hneg
    nlinarith [mul_pos_of_neg_of_neg (show 1 - x ^ 2 < 0 by nlinarith) hneg]

theorem rcosFn_even (β t : ℝ) : rcosFn β (-t) = rcosFn β t := by
  rw [rcosFn, rcosFn, mul_neg, sinc_neg, mul_neg, sub_neg_eq_add, ← sub_eq_add_neg]; ring

theorem rcosFn_zero' (β : ℝ) : rcosFn β 0 = 1 := by rw [rcosFn_roll]; simp [rollFn_zero]

theorem rcosFn_sinc (t : ℝ) : rcosFn 0 t = sinc (π * t) := by rw [rcosFn_roll]; simp [rollFn_zero]

/-- tails: at least one symbol from the centre the pulse is small -/
theorem rcosFn_tail (β t : ℝ) (ht : 1 ≤ |t|) : |rcosFn β t| < 1 / 2 := by
  have hp := pi_gt_three
  have h0 : t ≠ 0 := by intro h; rw [h, abs_zero] at ht; linarith
  rw [rcosFn_roll, abs_mul]
  have h1 : |sinc (π * t)| ≤ 1 / 3 := by
    rw [sinc_of_ne_zero (mul_ne_zero pi_ne_zero h0), abs_div, abs_mul, abs_of_pos pi_pos, div_le_iff₀ (by positivity)]
    have := abs_sin_le_one (π * t)
    nlinarith
  have := mul_le_mul h1 (rollFn_abs (2 * β * t)) (abs_nonneg _) (by norm_num)
  linarith

/-- within half a symbol of the centre the pulse is large -/
theorem rcosFn_main (β t : ℝ) (hβ : 0 ≤ β) (hβ1 : β ≤ 1) (h0 : 0 ≤ t) (ht : t ≤ 1 / 2) : 1 / 2 ≤ rcosFn β t := by
  have hp := pi_pos
  rw [rcosFn_roll]
  have h1 : 2 / π ≤ sinc (π * t) := by
    by_cases h : t = 0
    · rw [h, mul_zero, sinc_zero, div_le_one hp]; linarith [pi_gt_three]
    · have htp : 0 < t := lt_of_le_of_ne h0 (Ne.symm h)
      rw [sinc_of_ne_zero (by positivity), div_le_div_iff₀ hp (by positivity)]
      have := mul_le_sin (x := π * t) (by positivity) (by nlinarith)
      have e : 2 / π * (π * t) = 2 * t := by field_simp
      rw [e] at this
      nlinarith
  have h2 : π / 4 ≤ rollFn (2 * β * t) := by
    rw [← rollFn_one]
    exact rollFn_anti _ _ (by positivity) (by nlinarith) (by norm_num)
  have := mul_le_mul h1 h2 (by positivity) (le_trans (by positivity) h1)
  have e : 2 / π * (π / 4) = 1 / 2 := by field_simp; norm_num
  linarith

/-- nearer to the centre than half a symbol the pulse exceeds its value at the mirrored distance -/
theorem rcosFn_near (β t : ℝ) (hβ : 0 ≤ β) (hβ1 : β ≤ 1) (h0 : 0 ≤ t) (ht : t < 1 / 2) : rcosFn β (1 - t) < rcosFn β t := by
  have hp := pi_pos
  by_cases h : t = 0
  · rw [h, sub_zero, rcosFn_zero', rcosFn_roll, mul_one, sinc_of_ne_zero pi_ne_zero, sin_pi]; norm_num
  · have htp : 0 < t := lt_of_le_of_ne h0 (Ne.symm h)
    rw [rcosFn_roll, rcosFn_roll]
    have hs : 0 < sin (π * t) := sin_pos_of_pos_of_lt_pi (by positivity) (by nlinarith)
    have e1 : sinc (π * (1 - t)) = sin (π * t) / (π * (1 - t)) := by
      rw [sinc_of_ne_zero (mul_ne_zero hp.ne' (by linarith)), mul_sub, mul_one, sin_pi_sub]
    have e2 : sinc (π * t) = sin (π * t) / (π * t) := sinc_of_ne_zero (by positivity)
    have h1 : sinc (π * (1 - t)) < sinc (π * t) := by
      rw [e1, e2]
      exact div_lt_div_of_pos_left hs (by positivity) (by nlinarith)
    have h2 := rollFn_anti (2 * β * t) (2 * β * (1 - t)) (by positivity) (by nlinarith) (by nlinarith)
    have h3 := rollFn_ge (2 * β * (1 - t)) (by nlinarith) (by nlinarith)
    have h4 : 0 < sinc (π * t) := by rw [e2]; positivity
    calc sinc (π * (1 - t)) * rollFn (2 * β * (1 - t)) < sinc (π * t) * rollFn (2 * β * (1 - t)) :=
          mul_lt_mul_of_pos_right h1 (by linarith)
      _ ≤ _ := mul_le_mul_of_nonneg_left h2 h4.le

/-- the pulse half a symbol to three halves from the centre: positive on this side of one symbol, not beyond -/
theorem rcosFn_sides (β σ : ℝ) (hβ : 0 ≤ β) (hβ1 : β ≤ 1) (h0 : 0 < σ) (hσ : σ ≤ 1 / 2) :
    sin (π * σ) / (π * (1 - σ)) * rollFn (2 * β * (1 - σ)) = rcosFn β (1 - σ) ∧
    rcosFn β (1 + σ) = -(sin (π * σ) / (π * (1 + σ)) * rollFn (2 * β * (1 + σ))) ∧ 0 < rcosFn β (1 - σ) ∧
    rcosFn β (1 + σ) ≤ 0 := by
  have hp := pi_pos
  have hs : 0 < sin (π * σ) := sin_pos_of_pos_of_lt_pi (by positivity) (by nlinarith)
  have e1 : sin (π * σ) / (π * (1 - σ)) * rollFn (2 * β * (1 - σ)) = rcosFn β (1 - σ) := by
    rw [rcosFn_roll, sinc_of_ne_zero (mul_ne_zero hp.ne' (by linarith)), mul_sub, mul_one, sin_pi_sub]
  have e2 : rcosFn β (1 + σ) = -(sin (π * σ) / (π * (1 + σ)) * rollFn (2 * β * (1 + σ))) := by
    rw [rcosFn_roll, sinc_of_ne_zero (mul_ne_zero hp.ne' (by linarith)), mul_add, mul_one, add_comm π, sin_add_pi]
    ring
  refine ⟨e1, e2, ?_, ?_⟩
  · rw [← e1]
    have := rollFn_ge (2 * β * (1 - σ)) (by nlinarith) (by nlinarith)
    have : (0 : ℝ) < 1 - σ := by linarith
    positivity
  · rw [e2, neg_nonpos]
    have := rollFn_nonneg (2 * β * (1 + σ)) (by positivity) (by nlinarith)
    positivity

end Verif
