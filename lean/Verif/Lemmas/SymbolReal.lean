import Verif.Model.SymbolReal
import Verif.Lemmas.Symbol
import Mathlib.Analysis.SpecialFunctions.Log.Deriv
import Mathlib.Analysis.Complex.ExponentialBounds
import Mathlib.Tactic.IntervalCases

namespace Verif

theorem logb_two_pow (b : ℕ) : Real.logb 2 ((2 ^ b : ℕ) : ℝ) = b := by
  push_cast
  rw [Real.logb_pow, Real.logb_self_eq_one (by norm_num), mul_one]

theorem npIsclose_refl (a : ℝ) : npIsclose a a := by
  unfold npIsclose
  rw [sub_self, abs_zero]
  positivity

theorem floatMod_nat (n b : ℕ) : floatMod n b = ((n % b : ℕ) : ℝ) := by
  unfold floatMod
  rw [show ((n : ℝ) / (b : ℝ)) = (((n : ℚ) / (b : ℚ) : ℚ) : ℝ) by push_cast; rfl,
    Rat.floor_cast, Rat.floor_natCast_div_natCast]
  have h := Nat.div_add_mod n b
  have : (n : ℝ) = b * (n / b : ℕ) + (n % b : ℕ) := by exact_mod_cast h.symm
  rw [← Int.natCast_div, Int.cast_natCast]
  linarith

theorem floor_logb {m k : ℕ} (h1 : 2 ^ k ≤ m) (h2 : m < 2 ^ (k + 1)) :
    ⌊Real.logb 2 (m : ℝ)⌋₊ = k := by
  have hm : (0 : ℝ) < m := by
    have : 0 < m := lt_of_lt_of_le (by positivity) h1
    exact_mod_cast this
  have l1 : (k : ℝ) ≤ Real.logb 2 m := by
    rw [← logb_two_pow k]
    exact Real.logb_le_logb_of_le (by norm_num) (by positivity) (by exact_mod_cast h1)
  have l2 : Real.logb 2 (m : ℝ) < k + 1 := by
    have := logb_two_pow (k + 1)
    push_cast at this
    rw [← this]
    exact Real.logb_lt_logb (by norm_num) hm (by exact_mod_cast h2)
  exact (Nat.floor_eq_iff (le_trans (Nat.cast_nonneg _) l1)).2 ⟨l1, l2⟩

/-- below 16384 a count strictly between two powers of two is outside the tolerance -/
theorem not_isclose_between {m k : ℕ} (h1 : 2 ^ k < m) (hk : k ≤ 13) :
    ¬ npIsclose (Real.logb 2 (m : ℝ)) (k : ℝ) := by
  have hm : (0 : ℝ) < m := by
    have : 0 < m := lt_of_le_of_lt (Nat.zero_le _) h1
    exact_mod_cast this
  have hx : (0 : ℝ) < 1 / 2 ^ k := by positivity
  have hle : (2 : ℝ) ^ k * (1 + 1 / 2 ^ k) ≤ m := by
    have : (2 : ℝ) ^ k * (1 + 1 / 2 ^ k) = ((2 ^ k + 1 : ℕ) : ℝ) := by
      push_cast
      field_simp
    rw [this]
    exact_mod_cast h1
  have hlog : (k : ℝ) * Real.log 2 + Real.log (1 + 1 / 2 ^ k) ≤ Real.log m := by
    have := Real.log_le_log (by positivity) hle
    rwa [Real.log_mul (by positivity) (by positivity), Real.log_pow] at this
  have hlb := Real.le_log_one_add_of_nonneg hx.le
  have h2 := Real.log_two_lt_d9
  have h2p := Real.log_two_gt_d9
  have hL : Real.logb 2 (m : ℝ) * Real.log 2 = Real.log m := by
    rw [Real.logb, div_mul_cancel₀ _ (by linarith)]
  intro hc
  unfold npIsclose at hc
  rw [abs_of_nonneg (Nat.cast_nonneg k : (0 : ℝ) ≤ k)] at hc
  have hc' := (abs_le.1 hc).2
  have key : 2 * (1 / (2 : ℝ) ^ k) / (1 / 2 ^ k + 2)
      > 0.6931471808 * (1 / 100000000 + 1 / 100000 * (k : ℝ)) := by
    interval_cases k <;> norm_num
  have h3 : (Real.logb 2 (m : ℝ) - k) * Real.log 2
      ≤ (1 / 100000000 + 1 / 100000 * (k : ℝ)) * 0.6931471808 := by
    apply mul_le_mul hc' h2.le (by linarith) (by positivity)
  nlinarith

theorem logb_16385 : 14 < Real.logb 2 (16385 : ℝ) ∧
    Real.logb 2 (16385 : ℝ) ≤ 14 + 1 / 10000 := by
  have h2p := Real.log_two_gt_d9
  have hL : Real.logb 2 (16385 : ℝ) * Real.log 2 = Real.log 16385 := by
    rw [Real.logb, div_mul_cancel₀ _ (by linarith)]
  have he : Real.log 16385 = 14 * Real.log 2 + Real.log (1 + 1 / 16384) := by
    rw [show (16385 : ℝ) = 2 ^ 14 * (1 + 1 / 16384) by norm_num,
      Real.log_mul (by norm_num) (by norm_num), Real.log_pow]
    norm_num
  have hub := Real.log_le_sub_one_of_pos (show (0 : ℝ) < 1 + 1 / 16384 by norm_num)
  have hlb := Real.log_pos (show (1 : ℝ) < 1 + 1 / 16384 by norm_num)
  constructor
  · by_contra hc
    push Not at hc
    nlinarith
  · by_contra hc
    push Not at hc
    nlinarith

theorem isclose_16385 : npIsclose (Real.logb 2 (16385 : ℝ)) 14 := by
  obtain ⟨h1, h2⟩ := logb_16385
  unfold npIsclose
  rw [abs_le]
  norm_num
  constructor <;> linarith

end Verif
