import Mathlib.Algebra.Order.BigOperators.Ring.Finset
import Mathlib.Algebra.Order.Chebyshev
import Mathlib.Analysis.Real.Sqrt
import Mathlib.Tactic.Linarith
import Mathlib.Tactic.Ring
import Mathlib.Tactic.FieldSimp

/-! Gradient steps with a positive weight per coefficient on a sum of squared errors. -/

open Finset

namespace Verif

section
variable {ι τ : Type} (S : Finset ι) (T : Finset τ) (u : ι → τ → ℝ) (r : τ → ℝ) (w : ι → ℝ)

/-- error of sample `n` with the coefficients `x` -/
def trainErr (x : ι → ℝ) (n : τ) : ℝ := ∑ c ∈ S, x c * u c n - r n

/-- sum of squared errors -/
def trainSq (x : ι → ℝ) : ℝ := ∑ n ∈ T, trainErr S u r x n ^ 2

/-- correlation of the errors with the signal of a coefficient -/
def trainCorr (x : ι → ℝ) (c : ι) : ℝ := ∑ n ∈ T, trainErr S u r x n * u c n

/-- one step lowers the sum of squared errors by at least the weighted energy of the correlations -/
theorem train_descent (hw : ∀ c ∈ S, 0 < w c) (hL : ∑ c ∈ S, w c * ∑ n ∈ T, u c n ^ 2 ≤ 1) (x x' : ι → ℝ)
    (hx : ∀ c ∈ S, x' c = x c - w c * trainCorr S T u r x c) :
    trainSq S T u r x' ≤ trainSq S T u r x - ∑ c ∈ S, w c * trainCorr S T u r x c ^ 2 := by
  obtain ⟨h, hh⟩ : ∃ h : ι → ℝ, h = trainCorr S T u r x := ⟨_, rfl⟩
  rw [← hh] at hx ⊢
  have he : ∀ n, trainErr S u r x' n = trainErr S u r x n - ∑ c ∈ S, w c * h c * u c n := by
    intro n
    unfold trainErr
    rw [sum_congr rfl (fun c hc => by rw [hx c hc, sub_mul]), sum_sub_distrib]
    ring
  have h1 : trainSq S T u r x' = trainSq S T u r x
      - 2 * ∑ n ∈ T, trainErr S u r x n * ∑ c ∈ S, w c * h c * u c n + ∑ n ∈ T, (∑ c ∈ S, w c * h c * u c n) ^ 2 := by
    unfold trainSq
    rw [mul_sum, ← sum_sub_distrib, ← sum_add_distrib]
    exact sum_congr rfl (fun n _ => by rw [he]; ring)
  have h2 : ∑ n ∈ T, trainErr S u r x n * ∑ c ∈ S, w c * h c * u c n = ∑ c ∈ S, w c * h c ^ 2 := by
    simp_rw [mul_sum]
    rw [sum_comm]
    refine sum_congr rfl (fun c _ => ?_)
    have : ∑ n ∈ T, trainErr S u r x n * (w c * h c * u c n) = w c * h c * ∑ n ∈ T, trainErr S u r x n * u c n := by
      rw [mul_sum]; exact sum_congr rfl (fun n _ => by ring)
    rw [this]
    have : ∑ n ∈ T, trainErr S u r x n * u c n = h c := by rw [hh]; rfl
    rw [this]; ring
  have h3 : ∀ n ∈ T, (∑ c ∈ S, w c * h c * u c n) ^ 2 ≤ (∑ c ∈ S, w c * h c ^ 2) * ∑ c ∈ S, w c * u c n ^ 2 := by
    intro n _
    refine sum_sq_le_sum_mul_sum_of_sq_le_mul S (fun c hc => ?_) (fun c hc => ?_) (fun c _ => le_of_eq (by ring))
    · exact mul_nonneg (hw c hc).le (sq_nonneg _)
    · exact mul_nonneg (hw c hc).le (sq_nonneg _)
  have hG : 0 ≤ ∑ c ∈ S, w c * h c ^ 2 := sum_nonneg (fun c hc => mul_nonneg (hw c hc).le (sq_nonneg _))
  have h4 : ∑ n ∈ T, (∑ c ∈ S, w c * h c * u c n) ^ 2 ≤ ∑ c ∈ S, w c * h c ^ 2 := by
    refine (sum_le_sum h3).trans ?_
    rw [← mul_sum, sum_comm]
    have : ∑ c ∈ S, ∑ n ∈ T, w c * u c n ^ 2 = ∑ c ∈ S, w c * ∑ n ∈ T, u c n ^ 2 :=
      sum_congr rfl (fun c _ => by rw [mul_sum])
    rw [this]
    exact mul_le_of_le_one_right hG hL
  rw [h1, h2]
  linarith

/-- one step brings the coefficients closer to every comparison by the advantage left over it -/
theorem train_closer (hw : ∀ c ∈ S, 0 < w c) (hL : ∑ c ∈ S, w c * ∑ n ∈ T, u c n ^ 2 ≤ 1) (x x' z : ι → ℝ)
    (hx : ∀ c ∈ S, x' c = x c - w c * trainCorr S T u r x c) :
    ∑ c ∈ S, (x' c - z c) ^ 2 / w c + (trainSq S T u r x' - trainSq S T u r z) ≤ ∑ c ∈ S, (x c - z c) ^ 2 / w c := by
  have hd := train_descent S T u r w hw hL x x' hx
  obtain ⟨h, hh⟩ : ∃ h : ι → ℝ, h = trainCorr S T u r x := ⟨_, rfl⟩
  rw [← hh] at hx hd
  have h1 : ∑ c ∈ S, (x' c - z c) ^ 2 / w c
      = ∑ c ∈ S, (x c - z c) ^ 2 / w c - 2 * ∑ c ∈ S, (x c - z c) * h c + ∑ c ∈ S, w c * h c ^ 2 := by
    rw [mul_sum, ← sum_sub_distrib, ← sum_add_distrib]
    refine sum_congr rfl (fun c hc => ?_)
    have := (hw c hc).ne'
    rw [hx c hc]
    field_simp
    ring
  have h2 : ∑ c ∈ S, (x c - z c) * h c
      = ∑ n ∈ T, trainErr S u r x n * (trainErr S u r x n - trainErr S u r z n) := by
    have : ∀ n, trainErr S u r x n - trainErr S u r z n = ∑ c ∈ S, (x c - z c) * u c n := by
      intro n
      unfold trainErr
      rw [sub_sub_sub_cancel_right, ← sum_sub_distrib]
      exact sum_congr rfl (fun c _ => by ring)
    simp_rw [this, mul_sum]
    rw [sum_comm]
    refine sum_congr rfl (fun c _ => ?_)
    rw [hh]
    unfold trainCorr
    rw [mul_sum]
    exact sum_congr rfl (fun n _ => by ring)
  have h3 : trainSq S T u r x - trainSq S T u r z ≤ 2 * ∑ c ∈ S, (x c - z c) * h c := by
    rw [h2]
    unfold trainSq
    rw [mul_sum, ← sum_sub_distrib]
    exact sum_le_sum (fun n _ => by nlinarith [sq_nonneg (trainErr S u r x n - trainErr S u r z n)])
  rw [h1]
  linarith

/-- after `K` steps the advantage of any comparison is at most its weighted distance from the start over `K` -/
theorem train_rate (hw : ∀ c ∈ S, 0 < w c) (hL : ∑ c ∈ S, w c * ∑ n ∈ T, u c n ^ 2 ≤ 1) (x : ℕ → ι → ℝ) (z : ι → ℝ)
    (hx : ∀ k, ∀ c ∈ S, x (k + 1) c = x k c - w c * trainCorr S T u r (x k) c) (K : ℕ) :
    K * (trainSq S T u r (x K) - trainSq S T u r z) + ∑ c ∈ S, (x K c - z c) ^ 2 / w c
      ≤ ∑ c ∈ S, (x 0 c - z c) ^ 2 / w c := by
  induction K with
  | zero => simp
  | succ K ih =>
    have h1 := train_closer S T u r w hw hL (x K) (x (K + 1)) z (hx K)
    have h2 := train_descent S T u r w hw hL (x K) (x (K + 1)) (hx K)
    have h3 : 0 ≤ ∑ c ∈ S, w c * trainCorr S T u r (x K) c ^ 2 :=
      sum_nonneg (fun c hc => mul_nonneg (hw c hc).le (sq_nonneg _))
    have h4 : (K : ℝ) * (trainSq S T u r (x (K + 1)) - trainSq S T u r z)
        ≤ K * (trainSq S T u r (x K) - trainSq S T u r z) :=
      mul_le_mul_of_nonneg_left (by linarith) (Nat.cast_nonneg K)
    push_cast
    linarith

/-- if the sum of squared errors grows at least quadratically around `z`, the distance decays geometrically -/
theorem train_geometric (hw : ∀ c ∈ S, 0 < w c) (hL : ∑ c ∈ S, w c * ∑ n ∈ T, u c n ^ 2 ≤ 1) (x : ℕ → ι → ℝ) (z : ι → ℝ)
    (hx : ∀ k, ∀ c ∈ S, x (k + 1) c = x k c - w c * trainCorr S T u r (x k) c) (q : ℝ) (hq : 0 ≤ q)
    (hg : ∀ k, trainSq S T u r z + q * ∑ c ∈ S, (x k c - z c) ^ 2 / w c ≤ trainSq S T u r (x k)) (K : ℕ) :
    ∑ c ∈ S, (x K c - z c) ^ 2 / w c ≤ (∑ c ∈ S, (x 0 c - z c) ^ 2 / w c) / (1 + q) ^ K := by
  induction K with
  | zero => simp
  | succ K ih =>
    have h1 := train_closer S T u r w hw hL (x K) (x (K + 1)) z (hx K)
    have h2 := hg (K + 1)
    have h3 : (1 + q) * ∑ c ∈ S, (x (K + 1) c - z c) ^ 2 / w c ≤ (∑ c ∈ S, (x 0 c - z c) ^ 2 / w c) / (1 + q) ^ K := by
      linarith
    rw [pow_succ, ← div_div, le_div_iff₀ (by linarith)]
    linarith

end

end Verif
