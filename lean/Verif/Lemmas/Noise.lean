import Verif.Model.Noise
import Verif.Spec.Noise
import Verif.Lemmas.Ffe
import Mathlib.Tactic.Linarith
import Mathlib.Tactic.FieldSimp
import Mathlib.Tactic.Positivity

/-! Lemmas on signal powers. -/

open Finset

namespace Verif

open Spec (avg meanPower unbiasedVar)

theorem list_sum_getD' {α : Type*} [AddCommMonoid α] (l : List α) : l.sum = ∑ n ∈ range l.length, l.getD n 0 := by
  induction l with
  | nil => simp
  | cons x xs ih => rw [List.sum_cons, ih, List.length_cons, sum_range_succ', add_comm]; simp

theorem sigPowerHat_eq (l : List ℝ) (h : 2 ≤ l.length) :
    sigPowerHat l = some (unbiasedVar l.length (fun n => l.getD n 0) + avg l.length (fun n => l.getD n 0) ^ 2) := by
  rw [sigPowerHat, if_neg (by omega)]
  simp only []
  rw [list_map_sum_getD, list_sum_getD' l]
  rfl

theorem sum_sq_dev (N : ℕ) (hN : 0 < N) (x : ℕ → ℝ) :
    ∑ n ∈ range N, (x n - avg N x) ^ 2 = N * meanPower N x - N * avg N x ^ 2 := by
  have hN' : (N : ℝ) ≠ 0 := by exact_mod_cast (by omega : N ≠ 0)
  have e : ∀ n, (x n - avg N x) ^ 2 = x n ^ 2 - 2 * avg N x * x n + avg N x ^ 2 := fun n => by ring
  simp only [e, sum_add_distrib, sum_sub_distrib, ← mul_sum, sum_const, card_range, nsmul_eq_mul]
  have h1 : ∑ n ∈ range N, x n = N * avg N x := by rw [avg]; field_simp
  have h2 : ∑ n ∈ range N, x n ^ 2 = N * meanPower N x := by rw [meanPower]; field_simp
  rw [h1, h2]; ring

theorem meanPower_nonneg (N : ℕ) (x : ℕ → ℝ) : 0 ≤ meanPower N x :=
  div_nonneg (sum_nonneg (fun _ _ => sq_nonneg _)) (Nat.cast_nonneg _)

/-- the estimate lies between the mean power and `N/(N-1)` times the mean power -/
theorem estimate_bounds (N : ℕ) (hN : 2 ≤ N) (x : ℕ → ℝ) :
    unbiasedVar N x + avg N x ^ 2 = meanPower N x + (meanPower N x - avg N x ^ 2) / (N - 1) ∧
    avg N x ^ 2 ≤ meanPower N x := by
  have hN1 : (0 : ℝ) < N - 1 := by
    have : (2 : ℝ) ≤ N := by exact_mod_cast hN
    linarith
  have hN0 : (0 : ℝ) < N := by linarith
  constructor
  · rw [unbiasedVar, sum_sq_dev N (by omega) x]
    field_simp
    ring
  · have h := sum_sq_dev N (by omega) x
    have h2 : 0 ≤ ∑ n ∈ range N, (x n - avg N x) ^ 2 := sum_nonneg (fun _ _ => sq_nonneg _)
    rw [h, ← mul_sub] at h2
    have := nonneg_of_mul_nonneg_right h2 hN0
    linarith

end Verif
