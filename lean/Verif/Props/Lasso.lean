import Verif.Model.Lasso
import Verif.Spec.Lasso
import Verif.Props.LeastSq
import Mathlib.Topology.Order.Compact
import Mathlib.Analysis.Normed.Group.Bounded
import Mathlib.Analysis.Normed.Module.FiniteDimension

/-!
# `lasso_regression` (C93)

The solver of scikit-learn is a parameter with its documented contract `IsLassoFit`; `eps` allows for the tolerance at which
it stops.
-/

open Finset Matrix

namespace Verif
open Spec (ridgeCost lassoCost IsMinimiser skLassoCost IsLassoFit)

variable {K : Type} [Field K] [LinearOrder K] [IsStrictOrderedRing K] {m n : ℕ}

/-- residual of row `i` -/
def lassoRes (A : Matrix (Fin m) (Fin n) K) (b : Fin m → K) (x : Fin n → K) (c : K) (i : Fin m) : K :=
  b i - ∑ j, A i j * x j - c

/-- correlation of column `j` with the residual -/
def lassoCorr (A : Matrix (Fin m) (Fin n) K) (b : Fin m → K) (x : Fin n → K) (c : K) (j : Fin n) : K :=
  (∑ i, A i j * lassoRes A b x c i) / m

theorem lasso_expand (A : Matrix (Fin m) (Fin n) K) (b : Fin m → K) (lam : K) (hm : 0 < m) (x y : Fin n → K) (c d : K) :
    skLassoCost A b lam y d - skLassoCost A b lam x c
      = 1 / (2 * (m : K)) * ∑ i, (∑ j, A i j * (y j - x j) + (d - c)) ^ 2
        - (∑ i, lassoRes A b x c i) / m * (d - c)
        + ∑ j, (lam * (|y j| - |x j|) - lassoCorr A b x c j * (y j - x j)) := by
  have hm0 : (m : K) ≠ 0 := by exact_mod_cast hm.ne'
  have h1 : ∀ i, ∑ j, A i j * y j + d - b i = (∑ j, A i j * (y j - x j) + (d - c)) - lassoRes A b x c i := by
    intro i
    have : ∑ j, A i j * (y j - x j) = ∑ j, A i j * y j - ∑ j, A i j * x j := by
      rw [← sum_sub_distrib]; exact sum_congr rfl fun j _ => by ring
    rw [this, lassoRes]; ring
  have h2 : ∀ i, ∑ j, A i j * x j + c - b i = - lassoRes A b x c i := fun i => by rw [lassoRes]; ring
  have h3 : ∑ j, lassoCorr A b x c j * (y j - x j) = (∑ i, (∑ j, A i j * (y j - x j)) * lassoRes A b x c i) / m := by
    simp only [lassoCorr, sum_mul, sum_div]
    rw [sum_comm]
    refine sum_congr rfl fun i _ => sum_congr rfl fun j _ => ?_
    ring
  rw [sum_sub_distrib, h3, ← mul_sum, sum_sub_distrib]
  unfold skLassoCost
  simp only [h1, h2, neg_sq]
  have h4 : ∀ i, ((∑ j, A i j * (y j - x j) + (d - c)) - lassoRes A b x c i) ^ 2
      = (∑ j, A i j * (y j - x j) + (d - c)) ^ 2 - 2 * ((∑ j, A i j * (y j - x j)) * lassoRes A b x c i)
        - 2 * (d - c) * lassoRes A b x c i + lassoRes A b x c i ^ 2 := fun i => by ring
  simp only [h4, sum_add_distrib, sum_sub_distrib, ← mul_sum]
  field_simp
  ring

/-- if `B ≤ C s` for all small positive `s` then `B ≤ 0` -/
theorem le_zero_of_small {B C : K} (h : ∀ s, 0 < s → s ≤ 1 → B ≤ C * s) : B ≤ 0 := by
  by_contra hB
  rw [not_le] at hB
  have hC : B ≤ C := by simpa using h 1 one_pos le_rfl
  have hC0 : 0 < C := lt_of_lt_of_le hB hC
  have h1 := h (B / (2 * C)) (by positivity) (by rw [div_le_one (by positivity)]; linarith)
  rw [show C * (B / (2 * C)) = B / 2 by field_simp] at h1
  linarith

/-- **C93.** The optimality conditions: `x` with intercept `c` minimises scikit-learn's objective exactly if the residuals
have mean zero and no column is correlated with them by more than `λ`, with equality and the right sign for the columns in
use. -/
theorem C93_kkt (A : Matrix (Fin m) (Fin n) K) (b : Fin m → K) (lam : K) (hm : 0 < m) (hl : 0 ≤ lam) (x : Fin n → K) (c : K) :
    (∀ y d, skLassoCost A b lam x c ≤ skLassoCost A b lam y d) ↔
      ∑ i, (b i - ∑ j, A i j * x j - c) = 0 ∧
      ∀ j, |(∑ i, A i j * (b i - ∑ j, A i j * x j - c)) / m| ≤ lam ∧
        (∑ i, A i j * (b i - ∑ j, A i j * x j - c)) / m * x j = lam * |x j| := by
  have hm' : (0 : K) < m := by exact_mod_cast hm
  change _ ↔ ∑ i, lassoRes A b x c i = 0 ∧ ∀ j, |lassoCorr A b x c j| ≤ lam ∧ lassoCorr A b x c j * x j = lam * |x j|
  constructor
  · intro h
    have hx : ∀ (j : Fin n) (t : K), 0 ≤ 1 / (2 * (m : K)) * (∑ i, A i j ^ 2) * t ^ 2 + lam * (|x j + t| - |x j|) - lassoCorr A b x c j * t := by
      intro j t
      have h1 := h (Function.update x j (x j + t)) c
      have h2 := lasso_expand A b lam hm x (Function.update x j (x j + t)) c c
      have e1 : ∀ k, Function.update x j (x j + t) k - x k = if k = j then t else 0 := by
        intro k
        by_cases hk : k = j
        · subst hk; simp
        · simp [hk]
      have e2 : ∀ k, |Function.update x j (x j + t) k| - |x k| = if k = j then |x j + t| - |x j| else 0 := by
        intro k
        by_cases hk : k = j
        · subst hk; simp
        · simp [hk]
      have e3 : ∀ k, lam * (if k = j then |x j + t| - |x j| else 0) - lassoCorr A b x c k * (if k = j then t else 0)
          = if k = j then lam * (|x j + t| - |x j|) - lassoCorr A b x c j * t else 0 := by
        intro k
        by_cases hk : k = j
        · subst hk; simp
        · simp [hk]
      have e4 : ∀ i, ∑ k, A i k * (if k = j then t else 0) = A i j * t := by
        intro i; simp
      simp only [e1, e2, e3, e4, sub_self, add_zero, mul_zero, sub_zero, sum_ite_eq', mem_univ, if_true, mul_pow, ← sum_mul] at h2
      linarith
    have hc : ∀ t : K, 0 ≤ 1 / 2 * t ^ 2 - (∑ i, lassoRes A b x c i) / m * t := by
      intro t
      have h1 := h x (c + t)
      have h2 := lasso_expand A b lam hm x x c (c + t)
      simp only [sub_self, zero_add, mul_zero, sum_const_zero, add_zero, sum_const, card_univ, Fintype.card_fin, nsmul_eq_mul,
        add_sub_cancel_left] at h2
      have : 1 / (2 * (m : K)) * (m * t ^ 2) = 1 / 2 * t ^ 2 := by field_simp
      linarith
    refine ⟨?_, fun j => ?_⟩
    · obtain ⟨S, hS⟩ : ∃ S, S = (∑ i, lassoRes A b x c i) / m := ⟨_, rfl⟩
      have h1 := hc S
      rw [← hS] at h1
      have h2 : S ^ 2 ≤ 0 := by nlinarith
      have h3 : S = 0 := pow_eq_zero_iff (two_ne_zero) |>.1 (le_antisymm h2 (sq_nonneg _))
      rw [hS, div_eq_zero_iff] at h3
      exact h3.resolve_right hm'.ne'
    · obtain ⟨a, ha⟩ : ∃ a, a = 1 / (2 * (m : K)) * (∑ i, A i j ^ 2) := ⟨_, rfl⟩
      obtain ⟨g, hg⟩ : ∃ g, g = lassoCorr A b x c j := ⟨_, rfl⟩
      have hx' := hx j
      rw [← ha, ← hg] at hx'
      rw [← hg]
      have hab : |g| ≤ lam := by
        rw [abs_le]
        constructor
        · have : -lam - g ≤ 0 := by
            refine le_zero_of_small (C := a) fun s hs _ => ?_
            have h1 := hx' (-s)
            have h2 := abs_add_le (x j) (-s)
            rw [abs_neg, abs_of_pos hs] at h2
            have h3 : lam * (|x j + -s| - |x j|) ≤ lam * s := mul_le_mul_of_nonneg_left (by linarith) hl
            have h4 : 0 ≤ s * (a * s + lam + g) := by nlinarith
            have := nonneg_of_mul_nonneg_right h4 hs
            linarith
          linarith
        · have : g - lam ≤ 0 := by
            refine le_zero_of_small (C := a) fun s hs _ => ?_
            have h1 := hx' s
            have h2 := abs_add_le (x j) s
            rw [abs_of_pos hs] at h2
            have h3 : lam * (|x j + s| - |x j|) ≤ lam * s := mul_le_mul_of_nonneg_left (by linarith) hl
            have h4 : 0 ≤ s * (a * s + lam - g) := by nlinarith
            have := nonneg_of_mul_nonneg_right h4 hs
            linarith
          linarith
      refine ⟨hab, le_antisymm ?_ ?_⟩
      · calc g * x j ≤ |g * x j| := le_abs_self _
          _ = |g| * |x j| := abs_mul _ _
          _ ≤ lam * |x j| := mul_le_mul_of_nonneg_right hab (abs_nonneg _)
      · have : lam * |x j| - g * x j ≤ 0 := by
          refine le_zero_of_small (C := a * x j ^ 2) fun s hs hs1 => ?_
          have h1 := hx' (-(s * x j))
          have h2 : |x j + -(s * x j)| = (1 - s) * |x j| := by
            rw [show x j + -(s * x j) = (1 - s) * x j by ring, abs_mul, abs_of_nonneg (by linarith : 0 ≤ 1 - s)]
          rw [h2] at h1
          have h4 : 0 ≤ s * (a * x j ^ 2 * s - (lam * |x j| - g * x j)) := by nlinarith
          have := nonneg_of_mul_nonneg_right h4 hs
          linarith
        linarith
  · rintro ⟨h0, hj⟩ y d
    have h2 := lasso_expand A b lam hm x y c d
    have h3 : 0 ≤ ∑ j, (lam * (|y j| - |x j|) - lassoCorr A b x c j * (y j - x j)) := by
      refine sum_nonneg fun j _ => ?_
      have h4 : lassoCorr A b x c j * y j ≤ lam * |y j| :=
        calc lassoCorr A b x c j * y j ≤ |lassoCorr A b x c j * y j| := le_abs_self _
          _ = |lassoCorr A b x c j| * |y j| := abs_mul _ _
          _ ≤ lam * |y j| := mul_le_mul_of_nonneg_right (hj j).1 (abs_nonneg _)
      have := (hj j).2
      linarith
    have h5 : 0 ≤ 1 / (2 * (m : K)) * ∑ i, (∑ j, A i j * (y j - x j) + (d - c)) ^ 2 :=
      mul_nonneg (by positivity) (sum_nonneg fun i _ => sq_nonneg _)
    rw [h0, zero_div, zero_mul, sub_zero] at h2
    linarith

/-- **C93.** How far off a solution of limited accuracy can be: if the objective of `(y, d)` is within `eps` of the minimum,
attained at `(x, c)`, then the fitted values differ by at most `2 eps` in mean square. In particular all minimisers fit the
same values. -/
theorem C93_accuracy (A : Matrix (Fin m) (Fin n) K) (b : Fin m → K) (lam : K) (hm : 0 < m) (hl : 0 ≤ lam) (x y : Fin n → K)
    (c d eps : K) (h : ∀ z e, skLassoCost A b lam x c ≤ skLassoCost A b lam z e)
    (hy : skLassoCost A b lam y d ≤ skLassoCost A b lam x c + eps) :
    (∑ i, ((∑ j, A i j * y j + d) - (∑ j, A i j * x j + c)) ^ 2) / m ≤ 2 * eps := by
  have hm' : (0 : K) < m := by exact_mod_cast hm
  obtain ⟨h0, hj⟩ := (C93_kkt A b lam hm hl x c).1 h
  change ∑ i, lassoRes A b x c i = 0 at h0
  change ∀ j, |lassoCorr A b x c j| ≤ lam ∧ lassoCorr A b x c j * x j = lam * |x j| at hj
  have h2 := lasso_expand A b lam hm x y c d
  have h3 : 0 ≤ ∑ j, (lam * (|y j| - |x j|) - lassoCorr A b x c j * (y j - x j)) := by
    refine sum_nonneg fun j _ => ?_
    have h4 : lassoCorr A b x c j * y j ≤ lam * |y j| :=
      calc lassoCorr A b x c j * y j ≤ |lassoCorr A b x c j * y j| := le_abs_self _
        _ = |lassoCorr A b x c j| * |y j| := abs_mul _ _
        _ ≤ lam * |y j| := mul_le_mul_of_nonneg_right (hj j).1 (abs_nonneg _)
    have := (hj j).2
    linarith
  rw [h0, zero_div, zero_mul, sub_zero] at h2
  have e : ∀ i, (∑ j, A i j * y j + d) - (∑ j, A i j * x j + c) = ∑ j, A i j * (y j - x j) + (d - c) := by
    intro i
    have : ∑ j, A i j * (y j - x j) = ∑ j, A i j * y j - ∑ j, A i j * x j := by
      rw [← sum_sub_distrib]; exact sum_congr rfl fun j _ => by ring
    rw [this]; ring
  simp only [e]
  have h6 : 1 / (2 * (m : K)) * ∑ i, (∑ j, A i j * (y j - x j) + (d - c)) ^ 2 ≤ eps := by linarith
  rw [div_le_iff₀ hm']
  rw [one_div, inv_mul_le_iff₀ (by positivity)] at h6
  linarith

/-! ### the intercept -/

theorem intercept_split (A : Matrix (Fin m) (Fin n) K) (b : Fin m → K) (hm : 0 < m) (y : Fin n → K) (d : K) :
    ∑ i, (∑ j, A i j * y j + d - b i) ^ 2 = ∑ i, (∑ j, centred A i j * y j - centredVec b i) ^ 2
      + m * (d - ((∑ k, b k) / m - ∑ j, colMean A j * y j)) ^ 2 := by
  have hm0 : (m : K) ≠ 0 := by exact_mod_cast hm.ne'
  have hr : ∀ i, ∑ j, A i j * y j + d - b i
      = (∑ j, centred A i j * y j - centredVec b i) + (d - ((∑ k, b k) / m - ∑ j, colMean A j * y j)) := by
    intro i
    have : ∑ j, centred A i j * y j = ∑ j, A i j * y j - ∑ j, colMean A j * y j := by
      rw [← sum_sub_distrib]
      exact sum_congr rfl (fun j _ => by simp only [centred, of_apply]; ring)
    rw [this, centredVec]
    ring
  have hz : ∑ i, (∑ j, centred A i j * y j - centredVec b i) = 0 := by
    have h1 : ∑ i, ∑ j, centred A i j * y j = 0 := by
      rw [sum_comm]
      refine sum_eq_zero (fun j _ => ?_)
      rw [← sum_mul]
      have : ∑ i, centred A i j = 0 := by
        simp only [centred, of_apply, sum_sub_distrib, sum_const, card_univ, Fintype.card_fin, nsmul_eq_mul, colMean]
        field_simp
        ring
      rw [this, zero_mul]
    have h2 : ∑ i, centredVec b i = 0 := by
      simp only [centredVec, sum_sub_distrib, sum_const, card_univ, Fintype.card_fin, nsmul_eq_mul]
      field_simp
      ring
    rw [sum_sub_distrib, h1, h2, sub_zero]
  simp only [hr, add_sq, sum_add_distrib, ← sum_mul, ← mul_sum, hz]
  simp only [sum_const, card_univ, Fintype.card_fin, nsmul_eq_mul]
  ring

/-- **C93.** What is computed, in terms of the documented objective `||y - Xw||² + λ ||w||₁`: its minimiser for the data with
the means removed and for the factor `2 m λ`, where `m` is the number of rows. -/
theorem C93_documented (A : Matrix (Fin m) (Fin n) K) (b : Fin m → K) (lam : K) (hm : 0 < m) (x : Fin n → K) :
    IsLassoFit 0 A b lam x ↔ IsMinimiser (lassoCost 1 (fun i j => A i j - (∑ k, A k j) / m) (fun i => b i - (∑ k, b k) / m) (2 * m * lam)) x := by
  have hm' : (0 : K) < m := by exact_mod_cast hm
  change _ ↔ IsMinimiser (lassoCost 1 (centred A) (centredVec b) (2 * m * lam)) x
  have hs : ∀ y d, 2 * m * skLassoCost A b lam y d = lassoCost 1 (centred A) (centredVec b) (2 * m * lam) y
      + m * (d - ((∑ k, b k) / m - ∑ j, colMean A j * y j)) ^ 2 := by
    intro y d
    unfold skLassoCost lassoCost
    rw [intercept_split A b hm]
    field_simp
    ring
  constructor
  · rintro ⟨c, hc⟩ y
    have h1 := hc y ((∑ k, b k) / m - ∑ j, colMean A j * y j)
    rw [add_zero] at h1
    have h2 := mul_le_mul_of_nonneg_left h1 (by positivity : (0 : K) ≤ 2 * m)
    rw [hs, hs, sub_self] at h2
    have h3 : 0 ≤ m * (c - ((∑ k, b k) / m - ∑ j, colMean A j * x j)) ^ 2 := mul_nonneg hm'.le (sq_nonneg _)
    linarith
  · intro h
    refine ⟨(∑ k, b k) / m - ∑ j, colMean A j * x j, fun y d => ?_⟩
    have h1 := h y
    rw [add_zero]
    refine le_of_mul_le_mul_left (a := 2 * (m : K)) ?_ (by positivity)
    rw [hs, hs, sub_self]
    have h3 : 0 ≤ m * (d - ((∑ k, b k) / m - ∑ j, colMean A j * y j)) ^ 2 := mul_nonneg hm'.le (sq_nonneg _)
    linarith

/-- **C93.** `lasso_regression` for a solver that meets its documentation up to `eps`: the coefficients of such a fit and the sum
of squares without the intercept; a negative factor and empty data are rejected. -/
theorem C93_result (fit : Matrix (Fin m) (Fin n) K → (Fin m → K) → K → (Fin n → K)) (eps : K)
    (ols : Matrix (Fin m) (Fin n) K → (Fin m → K) → Py (LsOut K n)) (A : Matrix (Fin m) (Fin n) K) (b : Fin m → K) (lam : K)
    (hfit : 0 < m → 0 < n → 0 ≤ lam → IsLassoFit eps A b lam (fit A b lam)) :
    (0 < m → 0 < n → 0 ≤ lam → ∃ x s, leastSquares ols (lassoSk fit) A b .lasso lam = .ok (x, s) ∧
      IsLassoFit eps A b lam x ∧ s = ∑ i, (∑ j, A i j * x j - b i) ^ 2) ∧
    (m = 0 ∨ n = 0 ∨ lam < 0 → leastSquares ols (lassoSk fit) A b .lasso lam = .error .valueError) := by
  constructor
  · intro hm hn hl
    refine ⟨fit A b lam, ssr A b (fit A b lam), ?_, hfit hm hn hl, ?_⟩
    · show lassoSk fit A b lam = _
      rw [lassoSk, if_neg (by rintro (h | h | h); · omega
                              · omega
                              · exact absurd hl (not_le.2 h))]
    · rw [ssr_eq]
      unfold ridgeCost
      rw [zero_mul, add_zero]
  · intro h
    show lassoSk fit A b lam = _
    rw [lassoSk, if_pos h]

/-! ### consequences -/

/-- **C93.** When all coefficients vanish: exactly if `λ` is at least the largest correlation of a column with the centred
right-hand side; above that value they are the only solution. -/
theorem C93_zero (A : Matrix (Fin m) (Fin n) K) (b : Fin m → K) (lam : K) (hm : 0 < m) (hl : 0 ≤ lam) :
    (IsLassoFit 0 A b lam 0 ↔ ∀ j, |∑ i, A i j * (b i - (∑ k, b k) / m)| ≤ m * lam) ∧
    ((∀ j, |∑ i, A i j * (b i - (∑ k, b k) / m)| < m * lam) → ∀ x, IsLassoFit 0 A b lam x → x = 0) := by
  have hm' : (0 : K) < m := by exact_mod_cast hm
  have hz : ∀ c, ((∀ y d, skLassoCost A b lam 0 c ≤ skLassoCost A b lam y d) ↔
      c = (∑ k, b k) / m ∧ ∀ j, |∑ i, A i j * (b i - c)| ≤ m * lam) := by
    intro c
    rw [C93_kkt A b lam hm hl 0 c]
    simp only [Pi.zero_apply, mul_zero, sum_const_zero, sub_zero, abs_zero, and_true, abs_div, abs_of_pos hm',
      div_le_iff₀ hm']
    rw [mul_comm lam]
    refine and_congr_left fun _ => ?_
    rw [sum_sub_distrib, sum_const, card_univ, Fintype.card_fin, nsmul_eq_mul, sub_eq_zero, eq_div_iff hm'.ne', mul_comm,
      eq_comm]
  have h1 : IsLassoFit 0 A b lam 0 ↔ ∀ j, |∑ i, A i j * (b i - (∑ k, b k) / m)| ≤ m * lam := by
    unfold IsLassoFit
    simp only [add_zero]
    constructor
    · rintro ⟨c, hc⟩
      obtain ⟨rfl, h⟩ := (hz c).1 hc
      exact h
    · intro h
      exact ⟨_, (hz _).2 ⟨rfl, h⟩⟩
  refine ⟨h1, fun h x hx => ?_⟩
  have h0 := (hz _).2 ⟨rfl, fun j => (h j).le⟩
  obtain ⟨c, hc⟩ := hx
  simp only [add_zero] at hc
  -- both minimise: the expansion around zero
  have he := lasso_expand A b lam hm 0 x ((∑ k, b k) / m) c
  have hle := hc 0 ((∑ k, b k) / m)
  have hc0 : ∑ i, lassoRes A b 0 ((∑ k, b k) / m) i = 0 := ((C93_kkt A b lam hm hl 0 _).1 h0).1
  have hcor : ∀ j, |lassoCorr A b 0 ((∑ k, b k) / m) j| < lam := by
    intro j
    have := h j
    have e : lassoCorr A b 0 ((∑ k, b k) / m) j = (∑ i, A i j * (b i - (∑ k, b k) / m)) / m := by
      simp [lassoCorr, lassoRes]
    rw [e, abs_div, abs_of_pos hm', div_lt_iff₀ hm', mul_comm]
    exact this
  rw [hc0, zero_div, zero_mul, sub_zero] at he
  have h5 : 0 ≤ 1 / (2 * (m : K)) * ∑ i, (∑ j, A i j * (x j - (0 : Fin n → K) j) + (c - (∑ k, b k) / m)) ^ 2 :=
    mul_nonneg (by positivity) (sum_nonneg fun i _ => sq_nonneg _)
  have hterm : ∀ j, 0 ≤ lam * (|x j| - |(0 : Fin n → K) j|) - lassoCorr A b 0 ((∑ k, b k) / m) j * (x j - (0 : Fin n → K) j) ∧
      (lam * (|x j| - |(0 : Fin n → K) j|) - lassoCorr A b 0 ((∑ k, b k) / m) j * (x j - (0 : Fin n → K) j) = 0 → x j = 0) := by
    intro j
    simp only [Pi.zero_apply, abs_zero, sub_zero]
    have h6 : lassoCorr A b 0 ((∑ k, b k) / m) j * x j ≤ |lassoCorr A b 0 ((∑ k, b k) / m) j| * |x j| := by
      rw [← abs_mul]; exact le_abs_self _
    have h7 := mul_le_mul_of_nonneg_right (hcor j).le (abs_nonneg (x j))
    refine ⟨by linarith, fun h8 => ?_⟩
    by_contra hx0
    have h9 := mul_lt_mul_of_pos_right (hcor j) (abs_pos.2 hx0)
    linarith
  have hsum : ∑ j, (lam * (|x j| - |(0 : Fin n → K) j|) - lassoCorr A b 0 ((∑ k, b k) / m) j * (x j - (0 : Fin n → K) j)) = 0 :=
    le_antisymm (by linarith) (sum_nonneg fun j _ => (hterm j).1)
  funext j
  exact (hterm j).2 ((sum_eq_zero_iff_of_nonneg fun j _ => (hterm j).1).1 hsum j (mem_univ j))

/-- **C93.** A larger factor never gives a larger sum of absolute coefficients, nor a smaller sum of squares (with
intercept). -/
theorem C93_shrinks (A : Matrix (Fin m) (Fin n) K) (b : Fin m → K) (l1 l2 : K) (hl : 0 ≤ l1) (h12 : l1 < l2)
    (x1 x2 : Fin n → K) (c1 c2 : K) (h1 : ∀ y d, skLassoCost A b l1 x1 c1 ≤ skLassoCost A b l1 y d)
    (h2 : ∀ y d, skLassoCost A b l2 x2 c2 ≤ skLassoCost A b l2 y d) :
    ∑ j, |x2 j| ≤ ∑ j, |x1 j| ∧
    1 / (2 * (m : K)) * ∑ i, (∑ j, A i j * x1 j + c1 - b i) ^ 2 ≤ 1 / (2 * (m : K)) * ∑ i, (∑ j, A i j * x2 j + c2 - b i) ^ 2 := by
  have e1 := h1 x2 c2
  have e2 := h2 x1 c1
  unfold skLassoCost at e1 e2
  obtain ⟨p1, hp1⟩ : ∃ p, p = ∑ j, |x1 j| := ⟨_, rfl⟩
  obtain ⟨p2, hp2⟩ : ∃ p, p = ∑ j, |x2 j| := ⟨_, rfl⟩
  rw [← hp1, ← hp2] at e1 e2 ⊢
  have h3 : (l2 - l1) * p2 ≤ (l2 - l1) * p1 := by linarith
  have h4 : p2 ≤ p1 := le_of_mul_le_mul_left h3 (by linarith)
  refine ⟨h4, ?_⟩
  have := mul_le_mul_of_nonneg_left h4 hl
  linarith

/-- soft threshold -/
def softThreshold (t r : K) : K := if t < r then r - t else if r < -t then r + t else 0

theorem scalar_lasso (S r t : K) (hS : 0 < S) (ht : 0 ≤ t) (y : K) :
    S * (softThreshold t r / S) ^ 2 - 2 * r * (softThreshold t r / S) + 2 * t * |softThreshold t r / S|
      + S * (y - softThreshold t r / S) ^ 2 ≤ S * y ^ 2 - 2 * r * y + 2 * t * |y| := by
  obtain ⟨z, hz⟩ : ∃ z, z = softThreshold t r / S := ⟨_, rfl⟩
  have hz' : S * z = softThreshold t r := by rw [hz]; field_simp
  rw [← hz]
  have hy1 := mul_le_mul_of_nonneg_left (le_abs_self y) ht
  have hy2 := mul_le_mul_of_nonneg_left (neg_abs_le y) ht
  unfold softThreshold at hz'
  split_ifs at hz' with h1 h2
  · have hz0 : 0 ≤ z := by
      by_contra h
      have := mul_neg_of_pos_of_neg hS (not_le.1 h)
      linarith
    rw [abs_of_nonneg hz0]
    have hr : r = S * z + t := by linarith
    rw [hr]
    nlinarith
  · have hz0 : z ≤ 0 := by
      by_contra h
      have := mul_pos hS (not_le.1 h)
      linarith
    rw [abs_of_nonpos hz0]
    have hr : r = S * z - t := by linarith
    rw [hr]
    nlinarith
  · have hz0 : z = 0 := by
      rcases mul_eq_zero.1 hz' with h | h
      · exact absurd h hS.ne'
      · exact h
    rw [hz0]
    simp only [abs_zero]
    have h3 : r * y ≤ t * |y| := by
      calc r * y ≤ |r * y| := le_abs_self _
        _ = |r| * |y| := abs_mul _ _
        _ ≤ t * |y| := mul_le_mul_of_nonneg_right (abs_le.2 ⟨not_lt.1 h2, not_lt.1 h1⟩) (abs_nonneg _)
    nlinarith

/-- **C93.** One column: the least squares slope, shrunk by the soft threshold. -/
theorem C93_single (a b : Fin m → K) (lam : K) (hm : 0 < m) (hl : 0 ≤ lam)
    (hS : 0 < ∑ i, (a i - (∑ k, a k) / m) ^ 2) (x : Fin 1 → K) :
    IsLassoFit 0 (fun i _ => a i) b lam x ↔
      x 0 = softThreshold (m * lam) (∑ i, (a i - (∑ k, a k) / m) * (b i - (∑ k, b k) / m)) / ∑ i, (a i - (∑ k, a k) / m) ^ 2 := by
  have hm' : (0 : K) < m := by exact_mod_cast hm
  have hd := C93_documented (fun i (_ : Fin 1) => a i) b lam hm x
  rw [hd]
  obtain ⟨u, hu⟩ : ∃ u : Fin m → K, ∀ i, u i = a i - (∑ k, a k) / m := ⟨_, fun _ => rfl⟩
  obtain ⟨v, hv⟩ : ∃ v : Fin m → K, ∀ i, v i = b i - (∑ k, b k) / m := ⟨_, fun _ => rfl⟩
  simp only [← hu, ← hv] at hS ⊢
  have hc : ∀ y : Fin 1 → K, lassoCost 1 (fun i (_ : Fin 1) => u i) v (2 * m * lam) y
      = (∑ i, u i ^ 2) * y 0 ^ 2 - 2 * (∑ i, u i * v i) * y 0 + 2 * (m * lam) * |y 0| + ∑ i, v i ^ 2 := by
    intro y
    unfold lassoCost
    simp only [univ_unique, sum_singleton, Fin.default_eq_zero, Fin.isValue, one_mul]
    have : ∀ i, (u i * y 0 - v i) ^ 2 = u i ^ 2 * y 0 ^ 2 - 2 * (u i * v i) * y 0 + v i ^ 2 := fun i => by ring
    simp only [this, sum_add_distrib, sum_sub_distrib, ← sum_mul, ← mul_sum]
    ring
  have hs := scalar_lasso (∑ i, u i ^ 2) (∑ i, u i * v i) (m * lam) hS (mul_nonneg hm'.le hl)
  constructor
  · intro h
    have h1 := h fun _ => softThreshold (m * lam) (∑ i, u i * v i) / ∑ i, u i ^ 2
    rw [hc, hc] at h1
    have h2 := hs (x 0)
    have h3 : (∑ i, u i ^ 2) * (x 0 - softThreshold (m * lam) (∑ i, u i * v i) / ∑ i, u i ^ 2) ^ 2 ≤ 0 := by linarith
    have h4 : (x 0 - softThreshold (m * lam) (∑ i, u i * v i) / ∑ i, u i ^ 2) ^ 2 = 0 :=
      le_antisymm (by by_contra h; exact absurd h3 (not_le.2 (mul_pos hS (not_le.1 h)))) (sq_nonneg _)
    exact sub_eq_zero.1 (pow_eq_zero_iff two_ne_zero |>.1 h4)
  · intro h y
    rw [hc, hc, h]
    have h2 := hs (y 0)
    have h3 : 0 ≤ (∑ i, u i ^ 2) * (y 0 - softThreshold (m * lam) (∑ i, u i * v i) / ∑ i, u i ^ 2) ^ 2 :=
      mul_nonneg hS.le (sq_nonneg _)
    linarith

/-! ### existence -/

/-- **C93.** Over the reals the minimum is attained for every admissible factor, so that the contract of the solver can be
met (with `eps = 0`, and for every larger `eps` as well). -/
theorem C93_exists (A : Matrix (Fin m) (Fin n) ℝ) (b : Fin m → ℝ) (lam : ℝ) (hm : 0 < m) (hl : 0 ≤ lam) :
    ∃ x, ∀ eps, 0 ≤ eps → IsLassoFit eps A b lam x := by
  have hm' : (0 : ℝ) < m := by exact_mod_cast hm
  have key : ∃ x, IsLassoFit 0 A b lam x := by
    rcases hl.eq_or_lt with h0 | hpos
    · obtain ⟨x, hx⟩ := C60_exists (centred A) (centredVec b)
      refine ⟨x, (C93_documented A b lam hm x).2 fun y => ?_⟩
      have := hx y
      unfold ridgeCost at this
      unfold lassoCost
      rw [← h0]
      simpa [centred, colMean, centredVec] using this
    · obtain ⟨u, hu⟩ : ∃ u : Fin m → Fin n → ℝ, u = fun i j => A i j - (∑ k, A k j) / m := ⟨_, rfl⟩
      obtain ⟨v, hv⟩ : ∃ v : Fin m → ℝ, v = fun i => b i - (∑ k, b k) / m := ⟨_, rfl⟩
      obtain ⟨l, hl'⟩ : ∃ l, l = 2 * m * lam := ⟨_, rfl⟩
      have hlp : 0 < l := by rw [hl']; positivity
      have hcont : Continuous (lassoCost 1 u v l) := by
        unfold lassoCost
        fun_prop
      obtain ⟨x, _, hx⟩ := (isCompact_closedBall (0 : Fin n → ℝ) (lassoCost 1 u v l 0 / l)).exists_isMinOn
        ⟨0, Metric.mem_closedBall_self (div_nonneg (by unfold lassoCost; positivity) hlp.le)⟩ hcont.continuousOn
      refine ⟨x, (C93_documented A b lam hm x).2 fun y => ?_⟩
      rw [← hu, ← hv, ← hl']
      by_cases hy : y ∈ Metric.closedBall (0 : Fin n → ℝ) (lassoCost 1 u v l 0 / l)
      · exact hx hy
      · have h0 : lassoCost 1 u v l x ≤ lassoCost 1 u v l 0 :=
          hx (Metric.mem_closedBall_self (div_nonneg (by unfold lassoCost; positivity) hlp.le))
        rw [mem_closedBall_zero_iff, not_le, div_lt_iff₀ hlp] at hy
        have h1 : ‖y‖ ≤ ∑ j, |y j| := by
          rw [pi_norm_le_iff_of_nonneg (sum_nonneg fun j _ => abs_nonneg _)]
          intro j
          rw [Real.norm_eq_abs]
          exact single_le_sum (f := fun j => |y j|) (fun j _ => abs_nonneg _) (mem_univ j)
        have h2 : l * ∑ j, |y j| ≤ lassoCost 1 u v l y := by
          unfold lassoCost
          have : 0 ≤ 1 * ∑ i, (∑ j, u i j * y j - v i) ^ 2 := by positivity
          linarith
        have h3 := mul_le_mul_of_nonneg_right h1 hlp.le
        linarith
  obtain ⟨x, c, hc⟩ := key
  refine ⟨x, fun eps he => ⟨c, fun y d => ?_⟩⟩
  have := hc y d
  linarith

/-! ### the documented objective -/

/-- **C93** (negation). The documented `||y - Xw||² + λ ||w||₁` is not what is minimised: for these data every exact fit
returns the coefficient `1/2`, and `5/3` has a smaller documented objective. The returned sum of squares is not the one of the
fitted model either (`17/2` instead of `1/6`), because the intercept is missing. -/
theorem C93_negative (fit : Matrix (Fin 3) (Fin 1) ℚ → (Fin 3 → ℚ) → ℚ → (Fin 1 → ℚ))
    (hfit : IsLassoFit 0 (fun i _ => ![1, 1, 2] i) ![2, 2, 3] (1/9) (fit (fun i _ => ![1, 1, 2] i) ![2, 2, 3] (1/9)))
    (ols : Matrix (Fin 3) (Fin 1) ℚ → (Fin 3 → ℚ) → Py (LsOut ℚ 1)) :
    ∃ x s, leastSquares ols (lassoSk fit) (fun i _ => ![1, 1, 2] i) ![2, 2, 3] .lasso (1/9) = .ok (x, s) ∧ x 0 = 1/2 ∧ s = 17/2 ∧
      lassoCost 1 (fun i (_ : Fin 1) => ![1, 1, 2] i) ![2, 2, 3] (1/9) ![5/3] < lassoCost 1 (fun i (_ : Fin 1) => ![1, 1, 2] i) ![2, 2, 3] (1/9) x ∧
      ∃ c, (∀ y d, skLassoCost (fun i (_ : Fin 1) => ![1, 1, 2] i) ![2, 2, 3] (1/9) x c ≤ skLassoCost (fun i (_ : Fin 1) => ![1, 1, 2] i) ![2, 2, 3] (1/9) y d) ∧
        ∑ i, (∑ j : Fin 1, ![1, 1, 2] i * x j + c - ![2, 2, 3] i) ^ 2 = 1/6 := by
  obtain ⟨x, s, h1, h2, h3⟩ := (C93_result fit 0 ols (fun i _ => ![1, 1, 2] i) ![2, 2, 3] (1/9) (fun _ _ _ => hfit)).1 (by norm_num) (by norm_num)
    (by norm_num)
  have hx := (C93_single (K := ℚ) ![1, 1, 2] ![2, 2, 3] (1/9) (by norm_num) (by norm_num)
    (by simp [Fin.sum_univ_three]; norm_num) x).1 h2
  have hx0 : x 0 = 1/2 := by
    rw [hx]
    simp [Fin.sum_univ_three, softThreshold]
    norm_num
  have hxe : x = ![1/2] := by
    funext j; rw [Subsingleton.elim j 0, hx0]; rfl
  subst hxe
  refine ⟨_, s, h1, rfl, by rw [h3]; decide +kernel, by decide +kernel, ?_⟩
  obtain ⟨c, hc⟩ := h2
  simp only [add_zero] at hc
  refine ⟨c, hc, ?_⟩
  have hk := ((C93_kkt _ _ _ (by norm_num) (by norm_num) _ _).1 hc).1
  simp [Fin.sum_univ_three] at hk
  have hcv : c = 5/3 := by linarith
  rw [hcv]
  decide +kernel

/-! ### instances -/

/-- a solver meeting the contract exists (real data), so the hypothesis of `C93_result` can be met -/
example : ∃ fit : Matrix (Fin 3) (Fin 2) ℝ → (Fin 3 → ℝ) → ℝ → (Fin 2 → ℝ), ∀ A b lam, 0 ≤ lam → IsLassoFit 0 A b lam (fit A b lam) := by
  classical
  choose g hg using fun (A : Matrix (Fin 3) (Fin 2) ℝ) b lam (h : 0 ≤ lam) => C93_exists A b lam (by norm_num) h
  exact ⟨fun A b lam => if h : 0 ≤ lam then g A b lam h else 0, fun A b lam h => by
    show IsLassoFit 0 A b lam (if h : 0 ≤ lam then g (Matrix.of A) b lam h else 0)
    rw [dif_pos h]
    exact hg A b lam h 0 le_rfl⟩

/-- the same for the rational data of `C93_negative`, by the formula for one column -/
example : IsLassoFit (K := ℚ) 0 (fun i (_ : Fin 1) => ![1, 1, 2] i) (![2, 2, 3] : Fin 3 → ℚ) (1/9) ![1/2] := by
  rw [C93_single (K := ℚ) ![1, 1, 2] ![2, 2, 3] (1/9) (by norm_num) (by norm_num) (by simp [Fin.sum_univ_three]; norm_num)]
  simp [Fin.sum_univ_three, softThreshold]
  norm_num

/-- above the largest correlation all coefficients vanish -/
example : ∀ x, IsLassoFit (K := ℚ) 0 (fun i (_ : Fin 1) => ![1, 1, 2] i) (![2, 2, 3] : Fin 3 → ℚ) 1 x → x = 0 :=
  (C93_zero _ _ _ (by norm_num) (by norm_num)).2 (by intro j; simp [Fin.sum_univ_three]; norm_num [abs_lt])

end Verif
