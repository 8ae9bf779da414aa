import Verif.Model.Pulse
import Verif.Spec.Pulse
import Mathlib.Topology.Algebra.Module.Cardinality
import Mathlib.Tactic.LinearCombination
import Mathlib.Tactic.FieldSimp
import Mathlib.Tactic.Positivity

/-! The pulse functions of the code are samples of the continuous pulses. -/

namespace Verif

open Real Spec

theorem mul_sinc (x : ℝ) : x * sinc x = sin x := by
  by_cases h : x = 0
  · simp [h]
  · rw [sinc_of_ne_zero h]; field_simp

theorem npSinc_eq (x : ℝ) : npSinc x = sinc (π * x) := by
  unfold npSinc
  by_cases h : x = 0
  · simp [h]
  · rw [if_neg h, sinc_of_ne_zero (mul_ne_zero pi_ne_zero h)]

theorem sinc_int (k : ℤ) : sinc (π * k) = if k = 0 then 1 else 0 := by
  by_cases h : k = 0
  · simp [h]
  · have : (k : ℝ) ≠ 0 := by exact_mod_cast h
    rw [if_neg h, sinc_of_ne_zero (mul_ne_zero pi_ne_zero this), mul_comm, sin_int_mul_pi, zero_div]

/-! ### raised cosine -/

/-- closed form of the raised cosine -/
noncomputable def rcosFn (β t : ℝ) : ℝ :=
  sinc (π * t) * (π / 4 * (sinc (π / 2 - π * β * t) + sinc (π / 2 + π * β * t)))

theorem rcosFn_spec (β : ℝ) : IsRaisedCosine β (rcosFn β) := by
  constructor
  · unfold rcosFn
    have := continuous_sinc
    fun_prop
  · intro t
    unfold rcosFn
    have h1 := mul_sinc (π / 2 - π * β * t)
    have h2 := mul_sinc (π / 2 + π * β * t)
    rw [sin_pi_div_two_sub] at h1
    rw [add_comm, sin_add_pi_div_two] at h2
    rw [add_comm] at h2
    linear_combination sinc (π * t) * ((1 + 2 * β * t) / 2 * h1 + (1 - 2 * β * t) / 2 * h2)

theorem eq_of_off_finite (p : ℝ → ℝ) (hp : {t | p t = 0}.Finite) (g g' : ℝ → ℝ) (hg : Continuous g)
    (hg' : Continuous g') (h : ∀ t, p t * g t = p t * g' t) : g = g' := by
  have hd : Dense {t | p t = 0}ᶜ := hp.countable.dense_compl ℝ
  refine hg.ext_on hd hg' fun t ht => ?_
  exact mul_left_cancel₀ ht (h t)

theorem finite_sq (c : ℝ) : {t : ℝ | 1 - (c * t) ^ 2 = 0}.Finite := by
  by_cases hc : c = 0
  · simp [hc]
  · refine Set.Finite.subset (Set.toFinite {1 / c, -1 / c}) fun t ht => ?_
    have : (c * t - 1) * (c * t + 1) = 0 := by
      have : 1 - (c * t) ^ 2 = 0 := ht
      linear_combination -this
    rcases mul_eq_zero.1 this with h | h
    · left; rw [eq_div_iff hc]; linarith
    · right; rw [Set.mem_singleton_iff, eq_div_iff hc]; linarith

theorem isRaisedCosine_unique (β : ℝ) (g : ℝ → ℝ) (h : IsRaisedCosine β g) : g = rcosFn β :=
  eq_of_off_finite (fun t => 1 - (2 * β * t) ^ 2) (by simpa [mul_assoc] using finite_sq (2 * β)) _ _ h.continuous
    (rcosFn_spec β).continuous fun t => (h.equation t).trans ((rcosFn_spec β).equation t).symm

theorem rcos_code (β : ℝ) (hβ : β ≠ 0) (u : ℝ) :
    (if |2 * β * u| = 1 then π / 4 * npSinc (1 / (2 * β))
      else npSinc u * cos (π * β * u) / (1 - (2 * β * u) ^ 2)) = rcosFn β u := by
  simp only [npSinc_eq]
  split_ifs with h
  · rcases (abs_eq (by norm_num)).1 h with h | h
    · have hu : u = 1 / (2 * β) := by rw [eq_div_iff (by positivity)]; linarith
      unfold rcosFn
      rw [show π / 2 - π * β * u = 0 by linear_combination -π / 2 * h,
        show π / 2 + π * β * u = π * (1 : ℤ) by push_cast; linear_combination π / 2 * h, sinc_int, sinc_zero, hu]
      norm_num
      ring
    · have hu : u = -(1 / (2 * β)) := by
        rw [← neg_div, eq_div_iff (by positivity)]; linarith
      unfold rcosFn
      rw [show π / 2 + π * β * u = 0 by linear_combination π / 2 * h,
        show π / 2 - π * β * u = π * (1 : ℤ) by push_cast; linear_combination -π / 2 * h, sinc_int, sinc_zero, hu,
        mul_neg, sinc_neg]
      norm_num
      ring
  · have hne : 1 - (2 * β * u) ^ 2 ≠ 0 := by
      intro h0
      apply h
      have : (2 * β * u) ^ 2 = 1 := by linarith
      rw [← sq_abs] at this
      nlinarith [abs_nonneg (2 * β * u)]
    rw [div_eq_iff hne, ← (rcosFn_spec β).equation u]
    ring

/-! ### root raised cosine -/

/-- closed form of the root raised cosine -/
noncomputable def rrcFn (β t : ℝ) : ℝ :=
  (1 - β) * sinc ((1 - β) * π * t) + β / √2 * ((sin (π * t) + cos (π * t)) * sinc (π / 4 - π * β * t)
    + (cos (π * t) - sin (π * t)) * sinc (π / 4 + π * β * t))

theorem rrcFn_spec (β : ℝ) : IsRootRaisedCosine β (rrcFn β) := by
  constructor
  · unfold rrcFn
    have := continuous_sinc
    fun_prop
  · intro t
    unfold rrcFn
    have h0 := mul_sinc ((1 - β) * π * t)
    have h1 := mul_sinc (π / 4 - π * β * t)
    have h2 := mul_sinc (π / 4 + π * β * t)
    rw [sin_sub, sin_pi_div_four, cos_pi_div_four] at h1
    rw [sin_add, sin_pi_div_four, cos_pi_div_four] at h2
    rw [show (1 - β) * π * t = π * t - π * β * t by ring, sin_sub] at h0 ⊢
    rw [show (1 + β) * π * t = π * t + π * β * t by ring, cos_add]
    have hs : (√2) ≠ 0 := by positivity
    have hs2 : √2 * √2 = 2 := mul_self_sqrt (by norm_num)
    generalize sin (π * t) = sA at *
    generalize cos (π * t) = cA at *
    generalize sin (π * β * t) = sB at *
    generalize cos (π * β * t) = cB at *
    generalize sinc (π * t - π * β * t) = q0 at *
    generalize sinc (π / 4 - π * β * t) = q1 at *
    generalize sinc (π / 4 + π * β * t) = q2 at *
    have hd : β / √2 = β * √2 / 2 := by
      rw [div_eq_div_iff hs (by norm_num), mul_assoc, hs2]
    rw [hd]
    linear_combination (1 - (4 * β * t) ^ 2) * h0
      + (4 * β * t) * (1 + 4 * β * t) * (sA + cA) * √2 / 2 * h1
      + (4 * β * t) * (1 - 4 * β * t) * (cA - sA) * √2 / 2 * h2
      + ((4 * β * t) * (1 + 4 * β * t) * (sA + cA) * (cB - sB) / 4
        + (4 * β * t) * (1 - 4 * β * t) * (cA - sA) * (cB + sB) / 4) * hs2

theorem isRootRaisedCosine_unique (β : ℝ) (g : ℝ → ℝ) (h : IsRootRaisedCosine β g) : g = rrcFn β := by
  refine eq_of_off_finite (fun t => π * t * (1 - (4 * β * t) ^ 2)) ?_ _ _ h.continuous
    (rrcFn_spec β).continuous fun t => (h.equation t).trans ((rrcFn_spec β).equation t).symm
  refine Set.Finite.subset ((finite_sq (4 * β)).union (Set.finite_singleton 0)) fun t ht => ?_
  rcases mul_eq_zero.1 ht with h | h
  · right
    exact (mul_eq_zero.1 h).resolve_left pi_ne_zero
  · left
    exact h

theorem rrcFn_neg (β t : ℝ) : rrcFn β (-t) = rrcFn β t := by
  unfold rrcFn
  rw [mul_neg, mul_neg, mul_neg, sinc_neg, sin_neg, cos_neg, sub_neg_eq_add, ← sub_eq_add_neg]
  ring

/-- the value of `rrc_pulse` at the three singular times, and elsewhere -/
theorem rrcFn_zero (β : ℝ) : rrcFn β 0 = 1 + β * (4 / π - 1) := by
  unfold rrcFn
  have hs : (√2) ≠ 0 := by positivity
  have hs2 : √2 * √2 = 2 := mul_self_sqrt (by norm_num)
  simp only [mul_zero, sinc_zero, sin_zero, cos_zero, sub_zero, add_zero, zero_add, one_mul]
  rw [sinc_of_ne_zero (by positivity), sin_pi_div_four]
  field_simp
  ring

theorem rrcFn_quarter (β : ℝ) (hβ : β ≠ 0) : rrcFn β (1 / (4 * β))
    = β / √2 * ((1 + 2 / π) * sin (π / (4 * β)) + (1 - 2 / π) * cos (π / (4 * β))) := by
  have h0 := mul_sinc ((1 - β) * π * (1 / (4 * β)))
  have e0 : (1 - β) * π * (1 / (4 * β)) = π / (4 * β) - π / 4 := by field_simp
  unfold rrcFn
  rw [show π * β * (1 / (4 * β)) = π / 4 by field_simp, sub_self, sinc_zero, show π / 4 + π / 4 = π / 2 by ring,
    show π * (1 / (4 * β)) = π / (4 * β) by ring, sinc_of_ne_zero (x := π / 2) (by positivity), sin_pi_div_two]
  have hs : (√2) ≠ 0 := by positivity
  have hs2 : √2 * √2 = 2 := mul_self_sqrt (by norm_num)
  rw [show sin ((1 - β) * π * (1 / (4 * β))) = √2 / 2 * (sin (π / (4 * β)) - cos (π / (4 * β))) by
    rw [e0, sin_sub, sin_pi_div_four, cos_pi_div_four]; ring] at h0
  have h1 : (1 - β) * sinc ((1 - β) * π * (1 / (4 * β)))
      = 4 * β / π * (√2 / 2 * (sin (π / (4 * β)) - cos (π / (4 * β)))) := by
    rw [← h0]
    have := pi_ne_zero
    field_simp
  rw [h1]
  have hd : β / √2 = β * √2 / 2 := by
    rw [div_eq_div_iff hs (by norm_num), mul_assoc, hs2]
  rw [hd]
  have := pi_ne_zero
  field_simp
  ring

theorem rrc_code (β : ℝ) (hβ : 0 < β) (u : ℝ) (h1 : |u| ≤ 1 / 10 ^ 8 → u = 0)
    (h2 : |(|u| - 1 / (4 * β))| ≤ 1 / 10 ^ 8 → |u| = 1 / (4 * β)) :
    (if closeToZero (|u| - 1 / (4 * β)) then
      β / √2 * ((1 + 2 / π) * sin (π / (4 * β)) + (1 - 2 / π) * cos (π / (4 * β)))
    else if closeToZero u then 1 + β * (4 / π - 1)
    else 4 * β / π * (cos ((1 + β) * π * u) + sin ((1 - β) * π * u) / (4 * β * u)) / (1 - (4 * β * u) ^ 2))
      = rrcFn β u := by
  have hβ' : β ≠ 0 := hβ.ne'
  unfold closeToZero
  simp only [decide_eq_true_eq]
  split_ifs with ha hb
  · have := h2 ha
    rw [← rrcFn_quarter β hβ', ← this]
    rcases abs_choice u with e | e
    · rw [e]
    · rw [e, rrcFn_neg]
  · rw [h1 hb, rrcFn_zero]
  · have hu : u ≠ 0 := by
      rintro rfl
      exact hb (by norm_num)
    have hw : 1 - (4 * β * u) ^ 2 ≠ 0 := by
      intro h0
      apply ha
      have h3 : (4 * β * |u|) ^ 2 = 1 := by
        rw [mul_pow, sq_abs, ← mul_pow]; linarith
      have h4 : 4 * β * |u| = 1 := by nlinarith [abs_nonneg u, mul_nonneg hβ.le (abs_nonneg u)]
      rw [show |u| = 1 / (4 * β) by rw [eq_div_iff (by positivity)]; linarith]
      norm_num
    have e := (rrcFn_spec β).equation u
    have hp : π * u * (1 - (4 * β * u) ^ 2) ≠ 0 := mul_ne_zero (mul_ne_zero pi_ne_zero hu) hw
    have hpi := pi_ne_zero
    refine mul_left_cancel₀ hp ?_
    rw [e, div_eq_mul_inv _ (1 - (4 * β * u) ^ 2)]
    calc _ = (1 - (4 * β * u) ^ 2) * (1 - (4 * β * u) ^ 2)⁻¹ * (4 * β * u * (cos ((1 + β) * π * u) + sin ((1 - β) * π * u) / (4 * β * u))) := by
            field_simp
      _ = _ := by rw [mul_inv_cancel₀ hw, one_mul]; field_simp; ring

end Verif
