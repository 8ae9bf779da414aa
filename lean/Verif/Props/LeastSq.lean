import Verif.Lemmas.LeastSq
import Mathlib.Analysis.Calculus.Deriv.Pow
import Mathlib.Analysis.Calculus.Deriv.Mul
import Mathlib.Analysis.Calculus.Deriv.Abs
import Mathlib.Data.Fin.VecNotation
import Mathlib.Tactic.NormNum

/-! Property theorems C60 and C66 (least squares). -/

set_option linter.unusedSectionVars false

open Finset Matrix

namespace Verif

open Spec (ridgeCost lassoCost interceptCost IsMinimiser IsUniqueMinimiser IsPinv FullColumnRank)

variable {K : Type} [Field K] [LinearOrder K] [IsStrictOrderedRing K] {m n : ℕ}

/-! ### C60 -/

/-- **C60.** For `λ > 0` and every matrix and right-hand side, `ridge_regression_manual` succeeds; its coefficients
are the only minimiser of `||Ax-b||² + λ||x||²`, and the second value is `||Ax-b||²`. -/
theorem C60_ridge (A : Matrix (Fin m) (Fin n) K) (b : Fin m → K) (lam : K) (hl : 0 < lam) :
    ∃ x s, ridgeManual A b lam = .ok (x, s) ∧ IsUniqueMinimiser (ridgeCost A b lam) x ∧ s = ridgeCost A b 0 x := by
  obtain ⟨x, h, -, hu⟩ := ridgeManual_ok A b lam (ridge_pos A lam hl)
  exact ⟨x, _, h, hu, ssr_eq A b x⟩

example : ridgeManual (K := ℚ) !![1, 2; 3, 4; 5, 6] ![1, 2, 3] 1 = .ok (![11/58, 10/29], 59/3364) :=
  ridgeManual_eq _ _ _ (by decide) _ _ (by decide +kernel) (by decide +kernel)

/-- **C60.** With `λ = 0` and full column rank, `ridge_regression_manual` is ordinary least squares. -/
theorem C60_ridge_zero (A : Matrix (Fin m) (Fin n) K) (b : Fin m → K) (hA : FullColumnRank A) :
    ∃ x s, ridgeManual A b 0 = .ok (x, s) ∧ IsUniqueMinimiser (ridgeCost A b 0) x ∧ s = ridgeCost A b 0 x := by
  obtain ⟨x, h, -, hu⟩ := ridgeManual_ok A b 0 (fullRank_pos A hA)
  exact ⟨x, _, h, hu, ssr_eq A b x⟩

/-- **C60.** With `λ = 0` and linearly dependent columns, `ridge_regression_manual` raises (LinAlgError). -/
theorem C60_ridge_singular (A : Matrix (Fin m) (Fin n) K) (b : Fin m → K) (hA : ¬ FullColumnRank A) :
    ridgeManual A b 0 = .error .valueError := by
  have : ∃ x : Fin n → K, (∀ i, ∑ j, A i j * x j = 0) ∧ x ≠ 0 := by
    by_contra h
    exact hA (fun x hx => by by_contra hne; exact h ⟨x, hx, hne⟩)
  obtain ⟨x, hx, hne⟩ := this
  have hdet : (Aᵀ * A + (0 : K) • (1 : Matrix (Fin n) (Fin n) K)).det = 0 := by
    refine Matrix.exists_mulVec_eq_zero_iff.1 ⟨x, hne, ?_⟩
    rw [zero_smul, add_zero, ← mulVec_mulVec, show A *ᵥ x = 0 from funext hx, mulVec_zero]
  rw [ridgeManual, npInv, if_pos hdet]
  rfl

example : ¬ FullColumnRank (K := ℚ) ![![1, 2], ![2, 4], ![3, 6]] := by
  intro h
  have := congrFun (h ![2, -1] (by decide +kernel)) 0
  revert this; decide +kernel

/-- **C60.** `ols_manual` with the Moore-Penrose inverse minimises `||Ax-b||²`, and among all minimisers its result
has the smallest norm; for full column rank it is the only minimiser. -/
theorem C60_ols (A : Matrix (Fin m) (Fin n) K) (P : Matrix (Fin n) (Fin m) K) (hP : IsPinv A P) (b : Fin m → K) :
    ∃ x s, olsManual P A b = (x, s) ∧ s = ridgeCost A b 0 x ∧ IsMinimiser (ridgeCost A b 0) x ∧
      (∀ y, IsMinimiser (ridgeCost A b 0) y → ∑ j, x j ^ 2 ≤ ∑ j, y j ^ 2) ∧
      (FullColumnRank A → IsUniqueMinimiser (ridgeCost A b 0) x) := by
  have hn := pinv_normal A P hP b
  have key : ∀ y, ridgeCost A b 0 y
      = ridgeCost A b 0 (P *ᵥ b) + ∑ i, ((A *ᵥ (y - P *ᵥ b)) i) ^ 2 := by
    intro y
    have h := ridgeCost_add A b 0 (P *ᵥ b) (y - P *ᵥ b)
    rw [add_sub_cancel, hn] at h
    simpa using h
  have hmin : IsMinimiser (ridgeCost A b 0) (P *ᵥ b) := by
    intro y
    rw [key y]
    have : 0 ≤ ∑ i, ((A *ᵥ (y - P *ᵥ b)) i) ^ 2 := sum_nonneg (fun _ _ => sq_nonneg _)
    linarith
  refine ⟨_, _, rfl, ssr_eq A b _, hmin, fun y hy => ?_, fun hA => ?_⟩
  · have h0 : ∑ i, ((A *ᵥ (y - P *ᵥ b)) i) ^ 2 = 0 := by
      have h1 := key y
      have h2 := hy (P *ᵥ b)
      have h3 := hmin y
      linarith
    have hz : A *ᵥ (y - P *ᵥ b) = 0 := by
      by_contra hne
      exact absurd h0 (ne_of_gt (sum_sq_pos _ hne))
    have horth : ∑ j, (P *ᵥ b) j * (y - P *ᵥ b) j = 0 := by
      have e : P *ᵥ b = (P * A)ᵀ *ᵥ (P *ᵥ b) := by
        rw [hP.pa_symm, mulVec_mulVec, hP.pap]
      have : (P *ᵥ b) ⬝ᵥ (y - P *ᵥ b) = 0 := by
        generalize P *ᵥ b = x at e hz ⊢
        calc x ⬝ᵥ (y - x) = ((P * A)ᵀ *ᵥ x) ⬝ᵥ (y - x) := by rw [← e]
          _ = x ⬝ᵥ (P *ᵥ (A *ᵥ (y - x))) := by rw [mulVec_transpose, ← dotProduct_mulVec, mulVec_mulVec]
          _ = 0 := by rw [hz, mulVec_zero, dotProduct_zero]
      exact this
    have : ∑ j, y j ^ 2 = ∑ j, (P *ᵥ b) j ^ 2 + 2 * ∑ j, (P *ᵥ b) j * (y - P *ᵥ b) j
        + ∑ j, (y - P *ᵥ b) j ^ 2 := by
      rw [mul_sum, ← sum_add_distrib, ← sum_add_distrib]
      exact sum_congr rfl (fun j _ => by rw [Pi.sub_apply]; ring)
    rw [this, horth]
    have : 0 ≤ ∑ j, (y - P *ᵥ b) j ^ 2 := sum_nonneg (fun _ _ => sq_nonneg _)
    linarith
  · exact unique_of_normal A b 0 _ (fun j => by rw [hn]; simp) (fullRank_pos A hA)

/-- **C60.** Every least squares problem has a minimiser (so the documented behaviour of `numpy.linalg.lstsq` can be
met for every input). -/
theorem C60_exists (A : Matrix (Fin m) (Fin n) K) (b : Fin m → K) : ∃ x, IsMinimiser (ridgeCost A b 0) x :=
  exists_minimiser A b

/-- **C60.** The Moore-Penrose inverse assumed in `C60_ols` is unique, and for full column rank it exists and is the
commented-out formula `inv(AᵀA) Aᵀ` of line 72. -/
theorem C60_pinv (A : Matrix (Fin m) (Fin n) K) :
    (∀ P Q, IsPinv A P → IsPinv A Q → P = Q) ∧
    (FullColumnRank A → ∃ N, npInv (Aᵀ * A) = .ok N ∧ IsPinv A (N * Aᵀ)) := by
  constructor
  · intro P Q hP hQ
    have h1 : A * P = A * Q := by
      calc A * P = (A * Q * A) * P := by rw [hQ.apa]
        _ = (A * Q)ᵀ * (A * P)ᵀ := by rw [hQ.ap_symm, hP.ap_symm]; simp only [Matrix.mul_assoc]
        _ = (A * P * A * Q)ᵀ := by rw [← transpose_mul]; simp only [Matrix.mul_assoc]
        _ = A * Q := by rw [hP.apa, hQ.ap_symm]
    have h2 : P * A = Q * A := by
      calc P * A = P * (A * Q * A) := by rw [hQ.apa]
        _ = (P * A)ᵀ * (Q * A)ᵀ := by rw [hQ.pa_symm, hP.pa_symm]; simp only [Matrix.mul_assoc]
        _ = (Q * (A * P * A))ᵀ := by rw [← transpose_mul]; simp only [Matrix.mul_assoc]
        _ = Q * A := by rw [hP.apa, hQ.pa_symm]
    calc P = P * A * P := hP.pap.symm
      _ = Q * (A * P) := by rw [h2, Matrix.mul_assoc]
      _ = Q * A * Q := by rw [h1, Matrix.mul_assoc]
      _ = Q := hQ.pap
  · intro hA
    have hd := ridge_det A 0 (fullRank_pos A hA)
    rw [zero_smul, add_zero] at hd
    obtain ⟨N, hN, h1, h2⟩ := npInv_ok _ hd
    have hNt : Nᵀ = N := by
      have : (Aᵀ * A)ᵀ = Aᵀ * A := by rw [transpose_mul, transpose_transpose]
      calc Nᵀ = Nᵀ * (Aᵀ * A * N) := by rw [h1, Matrix.mul_one]
        _ = (Nᵀ * (Aᵀ * A)ᵀ) * N := by rw [this]; simp only [Matrix.mul_assoc]
        _ = N := by rw [← transpose_mul, h1, transpose_one, Matrix.one_mul]
    refine ⟨N, hN, ?_, ?_, ?_, ?_⟩
    · rw [Matrix.mul_assoc, Matrix.mul_assoc, h2, Matrix.mul_one]
    · rw [show N * Aᵀ * A * (N * Aᵀ) = (N * (Aᵀ * A)) * (N * Aᵀ) by simp only [Matrix.mul_assoc], h2, Matrix.one_mul]
    · rw [transpose_mul, transpose_mul, transpose_transpose, hNt, Matrix.mul_assoc]
    · rw [Matrix.mul_assoc, h2, transpose_one]

example : FullColumnRank (K := ℚ) ![![1, 2], ![3, 4], ![5, 6]] := by
  intro x h
  have h0 := h 0
  have h1 := h 1
  simp [Fin.sum_univ_two] at h0 h1
  funext j
  fin_cases j
  · show x 0 = 0; linarith
  · show x 1 = 0; linarith

/-- **C60.** What `ridge_regression` (the function used by `least_squares`) computes instead: sklearn's Ridge
fits a free constant, so the coefficients are the ridge solution with intercept, whose optimal constant is the mean
residual. -/
theorem C60_intercept (A : Matrix (Fin m) (Fin n) K) (b : Fin m → K) (lam : K) (hl : 0 < lam) (hm : 0 < m) :
    ∃ x s, ridgeSk A b lam = .ok (x, s) ∧ s = ridgeCost A b 0 x ∧
      ∃ c, ∀ y d, interceptCost A b lam x c ≤ interceptCost A b lam y d ∧
        (interceptCost A b lam x c = interceptCost A b lam y d → y = x ∧ d = c) := by
  obtain ⟨x, h, -, hu⟩ := ridgeManual_ok (centred A) (centredVec b) lam (ridge_pos (centred A) lam hl)
  have hm' : (0 : K) < m := by exact_mod_cast hm
  have hm0 : (m : K) ≠ 0 := ne_of_gt hm'
  have key : ∀ (y : Fin n → K) (d : K), interceptCost A b lam y d
      = ridgeCost (centred A) (centredVec b) lam y + m * (d - ((∑ k, b k) / m - ∑ j, colMean A j * y j)) ^ 2 := by
    intro y d
    have hr : ∀ i, ∑ j, A i j * y j + d - b i
        = (∑ j, centred A i j * y j - centredVec b i) + (d - ((∑ k, b k) / m - ∑ j, colMean A j * y j)) := by
      intro i
      have : ∑ j, centred A i j * y j = ∑ j, A i j * y j - ∑ j, colMean A j * y j := by
        rw [← sum_sub_distrib]
        exact sum_congr rfl (fun j _ => by simp only [centred, of_apply]; ring)
      rw [this, centredVec]
      ring
    have hz : ∑ i, (∑ j, centred A i j * y j - centredVec b i) = 0 := by
      have h1 : ∑ i, ∑ j, centred A i j * y j = 0 := by
        rw [sum_comm]
        refine sum_eq_zero (fun j _ => ?_)
        rw [← sum_mul]
        have : ∑ i, centred A i j = 0 := by
          simp only [centred, of_apply, sum_sub_distrib, sum_const, card_univ, Fintype.card_fin, nsmul_eq_mul,
            colMean]
          field_simp
          ring
        rw [this, zero_mul]
      have h2 : ∑ i, centredVec b i = 0 := by
        simp only [centredVec, sum_sub_distrib, sum_const, card_univ, Fintype.card_fin, nsmul_eq_mul]
        field_simp
        ring
      rw [sum_sub_distrib, h1, h2, sub_zero]
    unfold interceptCost ridgeCost
    simp only [hr, add_sq, sum_add_distrib, ← sum_mul, ← mul_sum, hz]
    simp only [sum_const, card_univ, Fintype.card_fin, nsmul_eq_mul]
    ring
  refine ⟨x, ssr A b x, by rw [ridgeSk, h]; rfl, ssr_eq A b x, (∑ k, b k) / m - ∑ j, colMean A j * x j, ?_⟩
  intro y d
  rw [key, key, sub_self]
  have hsq : 0 ≤ (m : K) * (d - ((∑ k, b k) / m - ∑ j, colMean A j * y j)) ^ 2 := mul_nonneg hm'.le (sq_nonneg _)
  rcases eq_or_ne y x with rfl | hy
  · refine ⟨by linarith, fun e => ⟨rfl, ?_⟩⟩
    have : (m : K) * (d - ((∑ k, b k) / m - ∑ j, colMean A j * y j)) ^ 2 = 0 := by linarith
    rcases mul_eq_zero.1 this with h0 | h0
    · exact absurd h0 hm0
    · exact sub_eq_zero.1 (pow_eq_zero_iff (two_ne_zero) |>.1 h0)
  · have := hu y hy
    exact ⟨by linarith, fun e => absurd e (by intro e; linarith)⟩

/-- **C60** (negation for the sklearn variants). `ridge_regression` documents the objective
`||y-Xw||² + λ||w||²` and the manual variant as "same as sklearn function", but it returns different coefficients,
which do not minimise that objective. -/
theorem C60_negative_sklearn :
    ridgeSk (K := ℚ) !![1; 1; 2] ![2, 2, 3] (1/3) = .ok (![2/3], 19/3) ∧
    ridgeManual (K := ℚ) !![1; 1; 2] ![2, 2, 3] (1/3) = .ok (![30/19], 137/361) ∧
    ridgeCost (K := ℚ) (!![1; 1; 2] : Matrix (Fin 3) (Fin 1) ℚ) ![2, 2, 3] (1/3) ![30/19]
      < ridgeCost (!![1; 1; 2] : Matrix (Fin 3) (Fin 1) ℚ) ![2, 2, 3] (1/3) ![2/3] := by
  have h : ridgeManual (K := ℚ) (centred !![1; 1; 2]) (centredVec ![2, 2, 3]) (1/3) = .ok (![2/3], 2/27) :=
    ridgeManual_eq _ _ _ (by decide +kernel) _ _ (by decide +kernel) (by decide +kernel)
  refine ⟨?_, ridgeManual_eq _ _ _ (by decide +kernel) _ _ (by decide +kernel) (by decide +kernel), by decide +kernel⟩
  rw [ridgeSk, h]
  show Except.ok (_, _) = _
  rw [show ssr (K := ℚ) !![1; 1; 2] ![2, 2, 3] ![2/3] = 19/3 by decide +kernel]

/-- **C60.** `least_squares` end to end, `lstsq` being any solver that returns a least squares solution: without
regularization the coefficients minimise `||Ax-b||²`; with ridge and `λ > 0` they are the ridge solution with a free
constant; with lasso they are whatever the lasso solver returns for the same data and the same `λ`; an unknown
regularization string is rejected whatever the other arguments. -/
theorem C60_dispatch (ols : Matrix (Fin m) (Fin n) K → (Fin m → K) → Py (LsOut K n))
    (hols : ∀ A b, ∃ x s, ols A b = .ok (x, s) ∧ IsMinimiser (ridgeCost A b 0) x)
    (lasso : Matrix (Fin m) (Fin n) K → (Fin m → K) → K → Py (LsOut K n)) (A : Matrix (Fin m) (Fin n) K)
    (b : Fin m → K) (lam : K) :
    (∃ x s, leastSquares ols lasso A b .none lam = .ok (x, s) ∧ IsMinimiser (ridgeCost A b 0) x) ∧
    (0 < lam → 0 < m → ∃ x s c, leastSquares ols lasso A b .ridge lam = .ok (x, s) ∧
      ∀ y d, interceptCost A b lam x c ≤ interceptCost A b lam y d) ∧
    (∀ P : K → (Fin n → K) → Prop, (∀ l x s, lasso A b l = .ok (x, s) → P l x) →
      ∀ x s, leastSquares ols lasso A b .lasso lam = .ok (x, s) → P lam x) ∧
    leastSquares ols lasso A b .other lam = .error .valueError := by
  refine ⟨hols A b, fun hl hm => ?_, fun P h x s e => h lam x s e, rfl⟩
  obtain ⟨x, s, h, -, c, hc⟩ := C60_intercept A b lam hl hm
  exact ⟨x, s, c, h, fun y d => (hc y d).1⟩

/-- A solver meeting the hypothesis of `C60_dispatch` exists. -/
example : ∃ ols : Matrix (Fin m) (Fin n) K → (Fin m → K) → Py (LsOut K n),
    ∀ A b, ∃ x s, ols A b = .ok (x, s) ∧ IsMinimiser (ridgeCost A b 0) x :=
  ⟨fun A b => .ok ((exists_minimiser A b).choose, 0), fun A b => ⟨_, _, rfl, (exists_minimiser A b).choose_spec⟩⟩

/-! ### C66: manual lasso -/

/-- **C66.** The path returned by `lasso_regression_manual` starts at the initial vector, each column is obtained
from the previous one by a gradient step, it has at most `max_steps` columns, and the result is its last column
together with `||Aw-b||²`. The loop stops before `max_steps` columns exactly if the last step moved every coefficient
by less than `tol`; no earlier step did. -/
theorem C66_path (around : K → K) (A : Matrix (Fin m) (Fin n) K) (b : Fin m → K) (lam mu tol : K) (maxSteps : ℕ)
    (hs : 2 ≤ maxSteps) (hn : 0 < n) (w0 : Fin n → K) :
    ∃ w s reached path, lassoManual around A b lam mu tol maxSteps w0 = .ok (w, s, reached, path) ∧
      2 ≤ path.length ∧ path.length ≤ maxSteps ∧ path.getD 0 0 = w0 ∧ w = path.getD (path.length - 1) 0 ∧
      s = ridgeCost A b 0 w ∧
      (∀ k : ℕ, k + 1 < path.length → path.getD (k + 1) 0 = lassoStep around A b lam mu (path.getD k 0)) ∧
      (∀ k : ℕ, k + 2 < path.length → ∃ j, tol ≤ |path.getD (k + 1) 0 j - path.getD k 0 j|) ∧
      (path.length < maxSteps → ∀ j, |path.getD (path.length - 1) 0 j - path.getD (path.length - 2) 0 j| < tol) ∧
      (reached = true ↔ path.length < maxSteps) := by
  obtain ⟨h1, h2, h3, h4, h5, h6⟩ := lassoLoop_spec around A b lam mu tol (maxSteps - 1) w0
  set r := lassoLoop around A b lam mu tol (maxSteps - 1) w0 with hr
  have h2' := h2 (by omega)
  refine ⟨r.1.getLastD w0, ssr A b (r.1.getLastD w0), decide (r.1.length - 1 ≠ maxSteps - 1), r.1, ?_, h2', by omega,
    h3, ?_, ssr_eq A b _, h4, h5, fun h => h6 (by omega) h2', ?_⟩
  · rw [lassoManual, if_neg (by omega), if_neg (by omega), if_neg (by omega)]
  · rw [List.getLastD_eq_getLast?, List.getLast?_eq_getElem?, List.getD_eq_getElem?_getD,
      List.getElem?_eq_getElem (by omega)]
    rfl
  · rw [decide_eq_true_iff]; omega

example : (lassoManual (K := ℚ) id !![2; 1; 1] ![3, 1, 1] 1 (1/8) (1/4) 4 ![0]).map
      (fun r => (r.1 0, r.2.1, r.2.2.1, r.2.2.2.map (· 0)))
    = .ok (9/8, 19/32, true, [0, 1, 9/8]) := by decide +kernel

/-- **C66.** Where rounding to four decimals keeps the sign of a non-zero coefficient, the step direction is the
partial derivative of `||Aw-b||²/(2n) + λ||w||₁`, `n` being the number of columns. -/
theorem C66_gradient (around : ℝ → ℝ) (A : Matrix (Fin m) (Fin n) ℝ) (b : Fin m → ℝ) (lam : ℝ) (w : Fin n → ℝ)
    (j : Fin n) (hw : w j ≠ 0) (hr : signOf (around (w j)) = signOf (w j)) :
    HasDerivAt (fun t => lassoCost (1 / (2 * (n : ℝ))) A b lam (Function.update w j t))
      (lassoGrad around A b lam w j) (w j) := by
  have hrow : ∀ i, HasDerivAt (fun t => ∑ k, A i k * Function.update w j t k - b i) (A i j) (w j) := by
    intro i
    have : (fun t => ∑ k, A i k * Function.update w j t k - b i)
        = fun t => A i j * t + (∑ k ∈ univ.erase j, A i k * w k - b i) := by
      funext t
      rw [← add_sum_erase univ _ (mem_univ j), Function.update_self, add_sub_assoc]
      congr 2
      exact sum_congr rfl (fun k hk => by rw [Function.update_of_ne (ne_of_mem_erase hk)])
    rw [this]
    simpa using ((hasDerivAt_id (w j)).const_mul (A i j)).add_const (∑ k ∈ univ.erase j, A i k * w k - b i)
  have hsq : HasDerivAt (fun t => ∑ i, (∑ k, A i k * Function.update w j t k - b i) ^ 2)
      (∑ i, 2 * (∑ k, A i k * w k - b i) * A i j) (w j) := by
    refine HasDerivAt.fun_sum (fun i _ => ?_)
    have := (hrow i).fun_pow 2
    simpa [Function.update_eq_self] using this
  have habs : HasDerivAt (fun t => ∑ k, |Function.update w j t k|) (signOf (w j)) (w j) := by
    have : (fun t => ∑ k, |Function.update w j t k|) = fun t => |t| + ∑ k ∈ univ.erase j, |w k| := by
      funext t
      rw [← add_sum_erase univ _ (mem_univ j), Function.update_self]
      congr 1
      exact sum_congr rfl (fun k hk => by rw [Function.update_of_ne (ne_of_mem_erase hk)])
    rw [this]
    refine HasDerivAt.add_const _ ?_
    rcases lt_or_gt_of_ne hw with h | h
    · simpa [signOf, h] using hasDerivAt_abs_neg h
    · simpa [signOf, not_lt.2 h.le, ne_of_gt h] using hasDerivAt_abs_pos h
  have := (hsq.const_mul (1 / (2 * (n : ℝ)))).fun_add (habs.const_mul lam)
  have e : lassoGrad around A b lam w j
      = 1 / (2 * (n : ℝ)) * (∑ i, 2 * (∑ k, A i k * w k - b i) * A i j) + lam * signOf (w j) := by
    rw [lassoGrad, hr, mulVec_sum]
    congr 1
    rw [mul_sum, mul_sum]
    refine sum_congr rfl (fun i _ => ?_)
    rw [transpose_apply, mulVec_sum]
    ring
  rw [e]
  exact this

/-- **C66.** A point where the step direction vanishes, with every coefficient's sign kept by the rounding, is a
global minimiser of `||Aw-b||²/(2n) + λ||w||₁`. -/
theorem C66_stationary (around : K → K) (A : Matrix (Fin m) (Fin n) K) (b : Fin m → K) (lam : K) (hl : 0 ≤ lam)
    (w : Fin n → K) (hr : ∀ j, signOf (around (w j)) = signOf (w j))
    (h0 : ∀ j, lassoGrad around A b lam w j = 0) :
    IsMinimiser (lassoCost (1 / (2 * (n : K))) A b lam) w := by
  intro y
  rcases Nat.eq_zero_or_pos n with hn | hn
  · subst hn; rw [Subsingleton.elim y w]
  have hn' : (0 : K) < n := by exact_mod_cast hn
  have hq := ridgeCost_add A b 0 w (y - w)
  rw [add_sub_cancel] at hq
  have hnn : 0 ≤ ∑ i, ((A *ᵥ (y - w)) i) ^ 2 := sum_nonneg (fun _ _ => sq_nonneg _)
  simp only [zero_mul, add_zero] at hq
  have hg : ∀ j, (Aᵀ *ᵥ (A *ᵥ w - b)) j = -(n * lam * signOf (w j)) := by
    intro j
    have := h0 j
    rw [lassoGrad, hr j] at this
    have e : (Aᵀ *ᵥ (fun i => b i - (A *ᵥ w) i)) j = -(Aᵀ *ᵥ (A *ᵥ w - b)) j := by
      rw [mulVec_sum, mulVec_sum, ← sum_neg_distrib]
      exact sum_congr rfl (fun i _ => by rw [Pi.sub_apply]; ring)
    rw [e] at this
    field_simp at this
    linarith
  have habs : ∀ j, |w j| + signOf (w j) * (y - w) j ≤ |y j| := by
    intro j
    rw [Pi.sub_apply]
    rcases lt_trichotomy (w j) 0 with h | h | h
    · rw [signOf, if_pos h, abs_of_neg h]
      have := neg_abs_le (y j); linarith
    · rw [signOf, if_neg (by rw [h]; exact lt_irrefl _), if_pos h, h]
      simp
    · rw [signOf, if_neg (not_lt.2 h.le), if_neg (ne_of_gt h), abs_of_pos h]
      have := le_abs_self (y j); linarith
  have hsum : ∑ j, |w j| + ∑ j, signOf (w j) * (y - w) j ≤ ∑ j, |y j| := by
    rw [← sum_add_distrib]; exact sum_le_sum (fun j _ => habs j)
  have hlin : ∑ j, (y - w) j * (Aᵀ *ᵥ (A *ᵥ w - b)) j = -(n * lam) * ∑ j, signOf (w j) * (y - w) j := by
    rw [mul_sum]; exact sum_congr rfl (fun j _ => by rw [hg j]; ring)
  rw [hlin] at hq
  have hc : ∀ x, lassoCost (1 / (2 * (n : K))) A b lam x
      = 1 / (2 * (n : K)) * ridgeCost A b 0 x + lam * ∑ j, |x j| := by
    intro x; simp [lassoCost, ridgeCost]
  rw [hc, hc, hq]
  have h1 := mul_le_mul_of_nonneg_left hsum hl
  have h2 : 1 / (2 * (n : K)) * (ridgeCost A b 0 w + 2 * (-(n * lam) * ∑ j, signOf (w j) * (y - w) j)
      + ∑ i, ((A *ᵥ (y - w)) i) ^ 2)
      = 1 / (2 * (n : K)) * ridgeCost A b 0 w - lam * ∑ j, signOf (w j) * (y - w) j
        + 1 / (2 * (n : K)) * ∑ i, ((A *ᵥ (y - w)) i) ^ 2 := by
    field_simp; ring
  rw [h2]
  have h3 : 0 ≤ 1 / (2 * (n : K)) * ∑ i, ((A *ᵥ (y - w)) i) ^ 2 := by positivity
  linarith

/-- A stationary point with non-zero penalty. -/
example : ∀ j, lassoGrad (K := ℚ) id !![1; 1] ![3, 3] 2 ![2] j = 0 := by decide +kernel

/-- **C66** (negation). The manual variant does not minimise the objective documented for lasso regression in this
file, `||y-Xw||² + λ||w||₁`, nor sklearn's `||y-Xw||²/(2m) + λ||w||₁`: the point `2`, where it stops, costs more than
`5/2` for the first and more than `1` for the second. -/
theorem C66_negative_objective :
    (∀ j, lassoGrad (K := ℚ) id !![1; 1] ![3, 3] 2 ![2] j = 0) ∧
    lassoCost (K := ℚ) 1 ![![1], ![1]] ![3, 3] 2 ![5/2] < lassoCost 1 ![![1], ![1]] ![3, 3] 2 ![2] ∧
    lassoCost (K := ℚ) (1/4) ![![1], ![1]] ![3, 3] 2 ![1] < lassoCost (1/4) ![![1], ![1]] ![3, 3] 2 ![2] := by
  refine ⟨?_, ?_, ?_⟩ <;> decide +kernel

/-- **C66** (negation). `reached_tol` is False although the tolerance was reached, if that happens in the last
permitted step. -/
theorem C66_negative_flag (around : K → K) (A : Matrix (Fin m) (Fin n) K) (b : Fin m → K) (lam mu tol : K)
    (ht : 0 < tol) (hn : 0 < n) (w : Fin n → K) (h0 : ∀ j, lassoGrad around A b lam w j = 0) :
    lassoManual around A b lam mu tol 2 w = .ok (w, ssr A b w, false, [w, w]) ∧
    lassoManual around A b lam mu tol 3 w = .ok (w, ssr A b w, true, [w, w]) := by
  have hw : lassoStep around A b lam mu w = w := by
    funext j; rw [lassoStep, h0 j, mul_zero, sub_zero]
  have hl : ∀ f, lassoLoop around A b lam mu tol (f + 1) w = ([w, w], true) := by
    intro f
    rw [lassoLoop, hw]
    simp [ht]
  constructor
  · rw [lassoManual, if_neg (by omega), if_neg (by omega), if_neg (by omega), hl]; rfl
  · rw [lassoManual, if_neg (by omega), if_neg (by omega), if_neg (by omega), hl]; rfl

/-- **C66.** Too few permitted steps: IndexError for `max_steps = 0`, UnboundLocalError for `max_steps = 1`. -/
theorem C66_rejects (around : K → K) (A : Matrix (Fin m) (Fin n) K) (b : Fin m → K) (lam mu tol : K) (w : Fin n → K) :
    lassoManual around A b lam mu tol 0 w = .error .indexError ∧
    lassoManual around A b lam mu tol 1 w = .error .unboundLocal := ⟨rfl, rfl⟩

end Verif
