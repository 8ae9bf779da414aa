import Verif.Spec.GainLoop
import Mathlib.Algebra.Order.Archimedean.Basic
import Mathlib.Tactic.Linarith
import Mathlib.Tactic.Positivity
import Mathlib.Tactic.FieldSimp
import Mathlib.Tactic.Ring

namespace Verif

open Spec

/-- one step of the gain control: the new gain stays between the steps for the extreme powers -/
theorem gain_step_bounds (c L P1 P2 P M g : ℝ) (hc : 0 < c) (hL : 0 < L) (h1 : 0 < P1) (h12 : P1 ≤ P) (h2 : P ≤ P2)
    (hM : 2 * c * P2 * M ≤ 1) (hu : √(L / P1) ≤ M) (hg : 0 < g) (hgM : g ≤ M) :
    0 < g + c * (L - g ^ 2 * P) ∧ g + c * (L - g ^ 2 * P) ≤ M ∧
      g + c * (L - g ^ 2 * P) - √(L / P1) ≤ (1 - c * √(L * P1)) * max (g - √(L / P1)) 0 ∧
      √(L / P2) - (g + c * (L - g ^ 2 * P)) ≤ (1 - c * √(L * P2)) * max (√(L / P2) - g) 0 := by
  have hP2 : 0 < P2 := lt_of_lt_of_le h1 (h12.trans h2)
  have hP : 0 < P := lt_of_lt_of_le h1 h12
  have hMp : 0 < M := lt_of_lt_of_le hg hgM
  have e1 : √(L / P1) ^ 2 = L / P1 := Real.sq_sqrt (by positivity)
  have e2 : √(L / P2) ^ 2 = L / P2 := Real.sq_sqrt (by positivity)
  have u1 : 0 < √(L / P1) := Real.sqrt_pos.2 (by positivity)
  have u2 : 0 < √(L / P2) := Real.sqrt_pos.2 (by positivity)
  have f1 : √(L * P1) = √(L / P1) * P1 := by
    rw [show L * P1 = (L / P1) * P1 ^ 2 by field_simp, Real.sqrt_mul (by positivity), Real.sqrt_sq h1.le]
  have f2 : √(L * P2) = √(L / P2) * P2 := by
    rw [show L * P2 = (L / P2) * P2 ^ 2 by field_simp, Real.sqrt_mul (by positivity), Real.sqrt_sq hP2.le]
  have l1 : L = √(L / P1) ^ 2 * P1 := by rw [e1]; field_simp
  have l2 : L = √(L / P2) ^ 2 * P2 := by rw [e2]; field_simp
  have hlu : √(L / P2) ≤ √(L / P1) := by
    apply Real.sqrt_le_sqrt
    exact div_le_div_of_nonneg_left hL.le h1 (h12.trans h2)
  rw [f1, f2]
  generalize √(L / P1) = u at *
  generalize √(L / P2) = l at *
  have hcP2 : 0 < c * P2 := mul_pos hc hP2
  have hup : g + c * (L - g ^ 2 * P) ≤ g + c * (L - g ^ 2 * P1) := by
    have := mul_le_mul_of_nonneg_left h12 (sq_nonneg g)
    nlinarith
  have hlo : g + c * (L - g ^ 2 * P2) ≤ g + c * (L - g ^ 2 * P) := by
    have := mul_le_mul_of_nonneg_left h2 (sq_nonneg g)
    nlinarith
  have hP1M : c * P1 * M ≤ 1 / 2 := by
    have : c * P1 * M ≤ c * P2 * M := by
      apply mul_le_mul_of_nonneg_right _ hMp.le
      exact mul_le_mul_of_nonneg_left (h12.trans h2) hc.le
    linarith
  have hP2M : c * P2 * M ≤ 1 / 2 := by linarith
  have id1 : g + c * (L - g ^ 2 * P1) - u = (g - u) * (1 - c * P1 * (g + u)) := by
    rw [l1]; ring
  have id2 : l - (g + c * (L - g ^ 2 * P2)) = (l - g) * (1 - c * P2 * (g + l)) := by
    rw [l2]; ring
  have g1 : c * P1 * (g + u) ≤ 1 := by
    have a : c * P1 * g ≤ c * P1 * M := mul_le_mul_of_nonneg_left hgM (by positivity)
    have b : c * P1 * u ≤ c * P1 * M := mul_le_mul_of_nonneg_left hu (by positivity)
    rw [mul_add]
    linarith
  have g2 : c * P2 * (g + l) ≤ 1 := by
    have a : c * P2 * g ≤ c * P2 * M := mul_le_mul_of_nonneg_left hgM (by positivity)
    have b : c * P2 * l ≤ c * P2 * M := mul_le_mul_of_nonneg_left (hlu.trans hu) (by positivity)
    rw [mul_add]
    linarith
  have s1 : g + c * (L - g ^ 2 * P1) - u ≤ (1 - c * (u * P1)) * max (g - u) 0 := by
    rw [id1]
    rcases le_total g u with h | h
    · rw [max_eq_right (by linarith), mul_zero]
      exact mul_nonpos_of_nonpos_of_nonneg (by linarith) (by linarith)
    · rw [max_eq_left (by linarith), mul_comm]
      apply mul_le_mul_of_nonneg_right _ (by linarith)
      have h3 : 0 < c * P1 * g := by positivity
      have h4 : c * P1 * (g + u) = c * P1 * g + c * (u * P1) := by ring
      linarith
  have s2 : l - (g + c * (L - g ^ 2 * P2)) ≤ (1 - c * (l * P2)) * max (l - g) 0 := by
    rw [id2]
    rcases le_total l g with h | h
    · rw [max_eq_right (by linarith), mul_zero]
      exact mul_nonpos_of_nonpos_of_nonneg (by linarith) (by linarith)
    · rw [max_eq_left (by linarith), mul_comm]
      apply mul_le_mul_of_nonneg_right _ (by linarith)
      have h3 : 0 < c * P2 * g := by positivity
      have h4 : c * P2 * (g + l) = c * P2 * g + c * (l * P2) := by ring
      linarith
  refine ⟨?_, ?_, ?_, ?_⟩
  · have : c * P2 * g ≤ c * P2 * M := mul_le_mul_of_nonneg_left hgM hcP2.le
    have h3 : 0 < c * L := by positivity
    have h4 : c * P2 * g * g ≤ 1 / 2 * g := mul_le_mul_of_nonneg_right (this.trans hP2M) hg.le
    have h5 : c * (L - g ^ 2 * P2) = c * L - c * P2 * g * g := by ring
    linarith
  · have hr1 : 1 - c * (u * P1) ≤ 1 := by
      have : 0 < c * (u * P1) := by positivity
      linarith
    have h3 : (1 - c * (u * P1)) * max (g - u) 0 ≤ M - u := by
      calc (1 - c * (u * P1)) * max (g - u) 0 ≤ 1 * max (g - u) 0 :=
            mul_le_mul_of_nonneg_right hr1 (le_max_right _ _)
        _ ≤ M - u := by
          rw [one_mul]
          exact max_le (by linarith) (by linarith)
    linarith
  · linarith
  · linarith

/-- the gain over a whole run -/
theorem gain_run_bounds (c L P1 P2 M : ℝ) (P g : ℕ → ℝ) (n : ℕ) (hc : 0 < c) (hL : 0 < L) (h1 : 0 < P1)
    (hP : ∀ k, k < n → P1 ≤ P k ∧ P k ≤ P2) (hM : 2 * c * P2 * M ≤ 1) (hu : √(L / P1) ≤ M) (hg : 0 < g 0) (hgM : g 0 ≤ M)
    (hf : FollowsGain c L P g n) (k : ℕ) (hk : k ≤ n) :
    0 < g k ∧ g k ≤ M ∧ g k ≤ √(L / P1) + (1 - c * √(L * P1)) ^ k * max (g 0 - √(L / P1)) 0 ∧
      √(L / P2) - (1 - c * √(L * P2)) ^ k * max (√(L / P2) - g 0) 0 ≤ g k := by
  induction k with
  | zero =>
    refine ⟨hg, hgM, ?_, ?_⟩
    · have := le_max_left (g 0 - √(L / P1)) 0
      simp only [pow_zero, one_mul]
      linarith
    · have := le_max_left (√(L / P2) - g 0) 0
      simp only [pow_zero, one_mul]
      linarith
  | succ k ih =>
    obtain ⟨i1, i2, i3, i4⟩ := ih (by omega)
    obtain ⟨p1, p2⟩ := hP k (by omega)
    obtain ⟨a, b, d, e⟩ := gain_step_bounds c L P1 P2 (P k) M (g k) hc hL h1 p1 p2 hM hu i1 i2
    have hP2 : 0 < P2 := lt_of_lt_of_le h1 (p1.trans p2)
    have hMp : 0 < M := lt_of_lt_of_le i1 i2
    have f : ∀ Q, 0 < Q → √(L * Q) = √(L / Q) * Q := by
      intro Q hQ
      rw [show L * Q = (L / Q) * Q ^ 2 by field_simp, Real.sqrt_mul (by positivity), Real.sqrt_sq hQ.le]
    have r1 : 0 ≤ 1 - c * √(L * P1) := by
      rw [f P1 h1]
      have : c * P1 * √(L / P1) ≤ c * P2 * M := by
        apply mul_le_mul _ hu (Real.sqrt_nonneg _) (by positivity)
        exact mul_le_mul_of_nonneg_left (p1.trans p2) hc.le
      nlinarith
    have r2 : 0 ≤ 1 - c * √(L * P2) := by
      rw [f P2 hP2]
      have hlu : √(L / P2) ≤ M := (Real.sqrt_le_sqrt (div_le_div_of_nonneg_left hL.le h1 (p1.trans p2))).trans hu
      have : c * P2 * √(L / P2) ≤ c * P2 * M := mul_le_mul_of_nonneg_left hlu (by positivity)
      nlinarith
    rw [← hf k (by omega)] at a b d e
    refine ⟨a, b, ?_, ?_⟩
    · have h3 : max (g k - √(L / P1)) 0 ≤ (1 - c * √(L * P1)) ^ k * max (g 0 - √(L / P1)) 0 :=
        max_le (by linarith) (mul_nonneg (pow_nonneg r1 _) (le_max_right _ _))
      have := mul_le_mul_of_nonneg_left h3 r1
      rw [pow_succ]
      nlinarith
    · have h3 : max (√(L / P2) - g k) 0 ≤ (1 - c * √(L * P2)) ^ k * max (√(L / P2) - g 0) 0 :=
        max_le (by linarith) (mul_nonneg (pow_nonneg r2 _) (le_max_right _ _))
      have := mul_le_mul_of_nonneg_left h3 r2
      rw [pow_succ]
      nlinarith

/-- a gain that became negative enough runs away -/
theorem gain_runaway (c L P : ℝ) (g : ℕ → ℝ) (hc : 0 < c) (hg : g 0 < 0) (h0 : L < g 0 ^ 2 * P) (hP : 0 < P)
    (hf : ∀ k, g (k + 1) = g k + c * (L - g k ^ 2 * P)) (B : ℝ) : ∃ K, ∀ k, K ≤ k → g k < B := by
  have key : ∀ k, g k ≤ g 0 - k * (c * (g 0 ^ 2 * P - L)) := by
    intro k
    induction k with
    | zero => simp
    | succ k ih =>
      have h1 : g k ≤ g 0 := by
        have : 0 ≤ (k : ℝ) * (c * (g 0 ^ 2 * P - L)) := by
          apply mul_nonneg (Nat.cast_nonneg k) (mul_nonneg hc.le (by linarith))
        linarith
      have h2 : g 0 ^ 2 ≤ g k ^ 2 := by nlinarith
      have h3 : g 0 ^ 2 * P ≤ g k ^ 2 * P := mul_le_mul_of_nonneg_right h2 hP.le
      have h4 : c * (g 0 ^ 2 * P) ≤ c * (g k ^ 2 * P) := mul_le_mul_of_nonneg_left h3 hc.le
      rw [hf k]
      push_cast
      nlinarith
  have hd : 0 < c * (g 0 ^ 2 * P - L) := mul_pos hc (by linarith)
  obtain ⟨K, hK⟩ := exists_nat_gt ((g 0 - B) / (c * (g 0 ^ 2 * P - L)))
  refine ⟨K, fun k hk => ?_⟩
  have h1 : (g 0 - B) / (c * (g 0 ^ 2 * P - L)) < k := lt_of_lt_of_le hK (by exact_mod_cast hk)
  rw [div_lt_iff₀ hd] at h1
  linarith [key k]

end Verif
