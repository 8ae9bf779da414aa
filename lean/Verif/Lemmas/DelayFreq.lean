import Verif.Lemmas.Delay
import Mathlib.Analysis.SpecialFunctions.Trigonometric.Bounds
import Mathlib.Analysis.SpecialFunctions.Complex.CircleAddChar
import Mathlib.Analysis.SpecialFunctions.ExpDeriv
import Mathlib.Analysis.Calculus.MeanValue
import Mathlib.Data.Nat.Choose.Sum
import Mathlib.Data.Nat.Factorial.BigOperators

/-! The frequency response of the Lagrange delay filters. -/

open Finset

namespace Verif

theorem lagDen_eq (r d : ℕ) : lagDen (r + d) r = (-1) ^ d * r.factorial * d.factorial := by
  induction d with
  | zero =>
    unfold lagDen
    rw [add_zero, prod_range_succ, if_pos rfl, mul_one, pow_zero, Nat.factorial_zero, one_mul, Nat.cast_one, mul_one,
      ← Nat.descFactorial_self, Nat.descFactorial_eq_prod_range, Nat.cast_prod]
    refine prod_congr rfl fun c hc => ?_
    have := mem_range.1 hc
    rw [if_neg (by omega), Nat.cast_sub (by omega)]
  | succ d ih =>
    have e : lagDen (r + (d + 1)) r = lagDen (r + d) r * ((r : ℤ) - (r + d + 1 : ℕ)) := by
      unfold lagDen
      rw [show r + (d + 1) + 1 = (r + d + 1) + 1 by ring, prod_range_succ _ (r + d + 1), if_neg (by omega)]
    rw [e, ih, Nat.factorial_succ]
    push_cast
    ring

/-- Each tap times its distance from the delay is a binomial coefficient with alternating sign times the product of all distances. -/
theorem tap_weight (n o r : ℕ) (hr : r ≤ n) (α : ℝ) :
    (α - tapPos ℝ o r) * Polynomial.eval α (Lagrange.basis (range (n + 1)) (tapPos ℝ o) r)
      = (∏ c ∈ range (n + 1), (α - tapPos ℝ o c)) / n.factorial * ((-1) ^ (n - r) * n.choose r) := by
  obtain ⟨d, rfl⟩ : ∃ d, n = r + d := ⟨n - r, by omega⟩
  rw [basis_eval (r + d) o r (by omega), lagDen_eq]
  have hp : ∏ c ∈ range (r + d + 1), (α - tapPos ℝ o c)
      = (α - tapPos ℝ o r) * ∏ c ∈ range (r + d + 1), (if c = r then 1 else (α - tapPos ℝ o c)) := by
    have h : ∀ c ∈ range (r + d + 1), (α - tapPos ℝ o c)
        = (if c = r then (α - tapPos ℝ o r) else 1) * (if c = r then 1 else (α - tapPos ℝ o c)) := by
      intro c _
      split_ifs with h
      · rw [h, mul_one]
      · rw [one_mul]
    rw [prod_congr rfl h, prod_mul_distrib, prod_ite_eq' (range (r + d + 1)) r, if_pos (by simp)]
  rw [hp, Nat.add_sub_cancel_left]
  have hch : (((r + d).choose r : ℕ) : ℝ) * r.factorial * d.factorial = (r + d).factorial := by
    exact_mod_cast (by have := Nat.choose_mul_factorial_mul_factorial (show r ≤ r + d by omega)
                       rwa [Nat.add_sub_cancel_left] at this)
  have h1 : ((r.factorial : ℕ) : ℝ) ≠ 0 := by exact_mod_cast r.factorial_ne_zero
  have h2 : ((d.factorial : ℕ) : ℝ) ≠ 0 := by exact_mod_cast d.factorial_ne_zero
  have h3 : (((r + d).factorial : ℕ) : ℝ) ≠ 0 := by exact_mod_cast (r + d).factorial_ne_zero
  have hs : ((-1 : ℝ) ^ d) * (-1) ^ d = 1 := by rw [← mul_pow]; norm_num
  have hs0 : ((-1 : ℝ) ^ d) ≠ 0 := pow_ne_zero _ (by norm_num)
  push_cast
  rw [mul_div_assoc', div_mul_eq_mul_div, div_eq_div_iff (mul_ne_zero (mul_ne_zero hs0 h1) h2) h3, ← hch]
  generalize ∏ c ∈ range (r + d + 1), (if c = r then 1 else (α - tapPos ℝ o c)) = P
  linear_combination (-(α - tapPos ℝ o r) * P * ((r + d).choose r : ℝ) * r.factorial * d.factorial) * hs

/-- The response of the filter, relative to the delay, deviates from 1 by at most this. -/
theorem response_error (n : ℕ) (o : ℝ) (α : ℝ) (c : ℕ → ℝ) (W : ℝ) (hsum : ∑ k ∈ range (n + 1), c k = 1)
    (hc : ∀ k ≤ n, (α - ((k : ℝ) - o)) * c k = W / n.factorial * ((-1) ^ (n - k) * n.choose k)) (ω : ℝ) (hω : |ω| ≤ Real.pi) :
    ‖∑ k ∈ range (n + 1), (c k : ℂ) * Complex.exp (Complex.I * ((ω * ((k : ℝ) - o - α) : ℝ) : ℂ)) - 1‖
      ≤ |W| / n.factorial * (2 * |Real.sin (ω / 2)|) ^ n * |ω| := by
  obtain ⟨G, hG⟩ : ∃ G : ℝ → ℂ, G = fun s => ∑ k ∈ range (n + 1), (c k : ℂ) * Complex.exp (Complex.I * ((s * ((k : ℝ) - o - α) : ℝ) : ℂ)) :=
    ⟨_, rfl⟩
  have hd : ∀ s : ℝ, HasDerivAt G (∑ k ∈ range (n + 1),
      (c k : ℂ) * (Complex.exp (Complex.I * ((s * ((k : ℝ) - o - α) : ℝ) : ℂ)) * (Complex.I * (((k : ℝ) - o - α : ℝ) : ℂ)))) s := by
    intro s
    rw [hG]
    refine HasDerivAt.fun_sum fun k _ => HasDerivAt.const_mul _ ?_
    have h1 : HasDerivAt (fun s : ℝ => ((s * ((k : ℝ) - o - α) : ℝ) : ℂ)) (((k : ℝ) - o - α : ℝ) : ℂ) s := by
      have := ((hasDerivAt_id s).mul_const ((k : ℝ) - o - α)).ofReal_comp
      simpa using this
    exact (h1.const_mul Complex.I).cexp
  have hder : ∀ s : ℝ, ‖∑ k ∈ range (n + 1),
      (c k : ℂ) * (Complex.exp (Complex.I * ((s * ((k : ℝ) - o - α) : ℝ) : ℂ)) * (Complex.I * (((k : ℝ) - o - α : ℝ) : ℂ)))‖
      = |W| / n.factorial * (2 * |Real.sin (s / 2)|) ^ n := by
    intro s
    have e : ∑ k ∈ range (n + 1),
        (c k : ℂ) * (Complex.exp (Complex.I * ((s * ((k : ℝ) - o - α) : ℝ) : ℂ)) * (Complex.I * (((k : ℝ) - o - α : ℝ) : ℂ)))
        = -Complex.I * ((W / n.factorial : ℝ) : ℂ) * Complex.exp (Complex.I * ((s * (-o - α) : ℝ) : ℂ))
          * (Complex.exp (Complex.I * (s : ℂ)) + (-1)) ^ n := by
      rw [add_pow, mul_sum]
      refine sum_congr rfl fun k hk => ?_
      have hk' : k ≤ n := by have := mem_range.1 hk; omega
      have h1 : ((α : ℂ) - ((k : ℂ) - o)) * (c k : ℂ) = ((W / n.factorial : ℝ) : ℂ) * ((-1) ^ (n - k) * (n.choose k : ℂ)) := by
        exact_mod_cast congrArg (fun x : ℝ => (x : ℂ)) (hc k hk')
      have h2 : Complex.exp (Complex.I * ((s * ((k : ℝ) - o - α) : ℝ) : ℂ))
          = Complex.exp (Complex.I * ((s * (-o - α) : ℝ) : ℂ)) * Complex.exp (Complex.I * (s : ℂ)) ^ k := by
        rw [← Complex.exp_nat_mul, ← Complex.exp_add]
        congr 1
        push_cast
        ring
      rw [h2]
      push_cast
      push_cast at h1
      linear_combination (-Complex.I * Complex.exp (Complex.I * (s * (-o - α))) * Complex.exp (Complex.I * (s : ℂ)) ^ k) * h1
    rw [e, norm_mul, norm_mul, norm_mul, norm_neg, Complex.norm_I, one_mul, norm_pow, ← sub_eq_add_neg,
      Complex.norm_exp_I_mul_ofReal_sub_one, mul_comm Complex.I, Complex.norm_exp_ofReal_mul_I, mul_one, Complex.norm_real,
      Real.norm_eq_abs, Real.norm_eq_abs, abs_div, Nat.abs_cast, abs_mul, abs_two]
  have hG0 : G 0 = 1 := by
    rw [hG]
    simp only [zero_mul, Complex.ofReal_zero, mul_zero, Complex.exp_zero, mul_one]
    exact_mod_cast congrArg (fun x : ℝ => (x : ℂ)) hsum
  have hmono : ∀ s : ℝ, |s| ≤ |ω| → |Real.sin (s / 2)| ≤ |Real.sin (ω / 2)| := by
    intro s hs
    have ha : ∀ u : ℝ, |u| ≤ Real.pi → |Real.sin (u / 2)| = Real.sin (|u| / 2) := by
      intro u hu
      have h0 : 0 ≤ Real.sin (|u| / 2) := Real.sin_nonneg_of_nonneg_of_le_pi (by positivity) (by linarith [Real.pi_pos])
      rcases abs_cases u with ⟨h, -⟩ | ⟨h, -⟩
      · rw [h] at h0 ⊢; exact abs_of_nonneg h0
      · rw [h] at h0 ⊢
        rw [neg_div, Real.sin_neg] at h0 ⊢
        exact abs_of_nonpos (by linarith)
    rw [ha s (hs.trans hω), ha ω hω]
    have hp := Real.pi_pos
    exact Real.sin_le_sin_of_le_of_le_pi_div_two (by linarith [abs_nonneg s]) (by linarith) (by linarith)
  have hmv := Convex.norm_image_sub_le_of_norm_hasDerivWithin_le (f := G) (s := Set.uIcc 0 ω)
    (C := |W| / n.factorial * (2 * |Real.sin (ω / 2)|) ^ n) (x := 0) (y := ω)
    (fun s _ => (hd s).hasDerivWithinAt) (fun s hs => by
      rw [hder s]
      have hs' : |s| ≤ |ω| := by
        have := Set.abs_sub_left_of_mem_uIcc hs
        simpa using this
      refine mul_le_mul_of_nonneg_left (pow_le_pow_left₀ (by positivity) ?_ n) (by positivity)
      linarith [hmono s hs']) (convex_uIcc 0 ω) Set.left_mem_uIcc Set.right_mem_uIcc
  rw [hG0, sub_zero, Real.norm_eq_abs] at hmv
  rw [hG] at hmv
  exact hmv

end Verif
