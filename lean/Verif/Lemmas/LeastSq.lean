import Verif.Model.LeastSq
import Verif.Spec.LeastSq
import Mathlib.LinearAlgebra.Matrix.ToLinearEquiv
import Mathlib.LinearAlgebra.Matrix.Rank
import Mathlib.Algebra.Order.BigOperators.Ring.Finset
import Mathlib.Tactic.Linarith
import Mathlib.Tactic.Ring
import Mathlib.Tactic.LinearCombination
import Mathlib.Tactic.FieldSimp
import Mathlib.Tactic.Positivity

/-! Lemmas on least squares. -/

set_option linter.unusedSectionVars false

open Finset Matrix

namespace Verif

open Spec (ridgeCost IsMinimiser IsUniqueMinimiser IsPinv FullColumnRank)

variable {K : Type} [Field K] [LinearOrder K] [IsStrictOrderedRing K] {m n : ℕ}

theorem mulVec_sum (A : Matrix (Fin m) (Fin n) K) (x : Fin n → K) (i : Fin m) :
    (A *ᵥ x) i = ∑ j, A i j * x j := rfl

theorem ssr_eq (A : Matrix (Fin m) (Fin n) K) (b : Fin m → K) (x : Fin n → K) :
    ssr A b x = ridgeCost A b 0 x := by
  simp [ssr, ridgeCost, mulVec_sum]

/-- the quadratic expansion of the cost around `x` -/
theorem ridgeCost_add (A : Matrix (Fin m) (Fin n) K) (b : Fin m → K) (lam : K) (x d : Fin n → K) :
    ridgeCost A b lam (x + d) = ridgeCost A b lam x
      + 2 * ∑ j, d j * ((Aᵀ *ᵥ (A *ᵥ x - b)) j + lam * x j)
      + (∑ i, ((A *ᵥ d) i) ^ 2 + lam * ∑ j, d j ^ 2) := by
  have h1 : ∑ j, d j * ((Aᵀ *ᵥ (A *ᵥ x - b)) j + lam * x j)
      = ∑ i, (A *ᵥ d) i * ((A *ᵥ x) i - b i) + lam * ∑ j, d j * x j := by
    simp only [mul_add, sum_add_distrib]
    congr 1
    · have : ∀ j, d j * (Aᵀ *ᵥ (A *ᵥ x - b)) j = ∑ i, A i j * d j * ((A *ᵥ x) i - b i) := by
        intro j
        rw [mulVec_sum, mul_sum]
        exact sum_congr rfl (fun i _ => by rw [transpose_apply, Pi.sub_apply]; ring)
      simp only [this]
      rw [sum_comm]
      refine sum_congr rfl (fun i _ => ?_)
      rw [mulVec_sum A d, sum_mul]
    · rw [mul_sum]; exact sum_congr rfl (fun j _ => by ring)
  rw [h1]
  unfold ridgeCost
  have e1 : ∀ i, (∑ j, A i j * (x + d) j - b i) ^ 2
      = (∑ j, A i j * x j - b i) ^ 2 + 2 * ((A *ᵥ d) i * ((A *ᵥ x) i - b i)) + (A *ᵥ d) i ^ 2 := by
    intro i
    have : ∑ j, A i j * (x + d) j = (A *ᵥ x) i + (A *ᵥ d) i := by
      rw [mulVec_sum, mulVec_sum, ← sum_add_distrib]
      exact sum_congr rfl (fun j _ => by rw [Pi.add_apply]; ring)
    rw [this, ← mulVec_sum A x i]
    ring
  have e2 : ∀ j, (x + d) j ^ 2 = x j ^ 2 + 2 * (d j * x j) + d j ^ 2 := by
    intro j; rw [Pi.add_apply]; ring
  simp only [e1, e2, sum_add_distrib, ← mul_sum]
  ring

theorem sum_sq_pos (d : Fin n → K) (h : d ≠ 0) : 0 < ∑ j, d j ^ 2 := by
  rcases lt_or_eq_of_le (sum_nonneg (fun j _ => sq_nonneg (d j)) : 0 ≤ ∑ j, d j ^ 2) with h' | h'
  · exact h'
  · refine absurd ?_ h
    have := (sum_eq_zero_iff_of_nonneg (fun j _ => sq_nonneg (d j))).1 h'.symm
    funext j
    simpa using this j (mem_univ j)

/-- a solution of the normal equations is the unique minimiser if the quadratic part is definite -/
theorem unique_of_normal (A : Matrix (Fin m) (Fin n) K) (b : Fin m → K) (lam : K) (x : Fin n → K)
    (hx : ∀ j, (Aᵀ *ᵥ (A *ᵥ x - b)) j + lam * x j = 0)
    (hd : ∀ d : Fin n → K, d ≠ 0 → 0 < ∑ i, ((A *ᵥ d) i) ^ 2 + lam * ∑ j, d j ^ 2) :
    IsUniqueMinimiser (ridgeCost A b lam) x := by
  intro y hy
  have h := ridgeCost_add A b lam x (y - x)
  rw [add_sub_cancel, sum_eq_zero (fun j _ => by rw [hx j, mul_zero])] at h
  have := hd (y - x) (sub_ne_zero.2 hy)
  linarith

theorem ridge_pos (A : Matrix (Fin m) (Fin n) K) (lam : K) (hl : 0 < lam) (d : Fin n → K) (hd : d ≠ 0) :
    0 < ∑ i, ((A *ᵥ d) i) ^ 2 + lam * ∑ j, d j ^ 2 :=
  add_pos_of_nonneg_of_pos (sum_nonneg (fun _ _ => sq_nonneg _)) (mul_pos hl (sum_sq_pos d hd))

theorem quad_dot (A : Matrix (Fin m) (Fin n) K) (lam : K) (d : Fin n → K) :
    ∑ j, d j * (((Aᵀ * A + lam • (1 : Matrix (Fin n) (Fin n) K)) *ᵥ d) j)
      = ∑ i, ((A *ᵥ d) i) ^ 2 + lam * ∑ j, d j ^ 2 := by
  have := ridgeCost_add A (0 : Fin m → K) lam d d
  have h2 : ridgeCost A (0 : Fin m → K) lam (d + d) = 4 * ridgeCost A (0 : Fin m → K) lam d := by
    unfold ridgeCost
    have e1 : ∑ i, (∑ j, A i j * (d + d) j - (0 : Fin m → K) i) ^ 2
        = 4 * ∑ i, (∑ j, A i j * d j - (0 : Fin m → K) i) ^ 2 := by
      rw [mul_sum]
      refine sum_congr rfl (fun i _ => ?_)
      have : ∑ j, A i j * (d + d) j = 2 * ∑ j, A i j * d j := by
        rw [mul_sum]; exact sum_congr rfl (fun j _ => by rw [Pi.add_apply]; ring)
      rw [this, Pi.zero_apply]; ring
    have e2 : ∑ j, (d + d) j ^ 2 = 4 * ∑ j, d j ^ 2 := by
      rw [mul_sum]
      exact sum_congr rfl (fun j _ => by rw [Pi.add_apply]; ring)
    rw [e1, e2]; ring
  have h3 : ridgeCost A (0 : Fin m → K) lam d = ∑ i, ((A *ᵥ d) i) ^ 2 + lam * ∑ j, d j ^ 2 := by
    simp [ridgeCost, mulVec_sum]
  have h4 : ∀ j, ((Aᵀ * A + lam • (1 : Matrix (Fin n) (Fin n) K)) *ᵥ d) j
      = (Aᵀ *ᵥ (A *ᵥ d - 0)) j + lam * d j := by
    intro j
    rw [sub_zero, add_mulVec, ← mulVec_mulVec, smul_mulVec, one_mulVec]
    rfl
  simp only [h4]
  linarith

/-- the matrix inverted by ridge regression is invertible -/
theorem ridge_det (A : Matrix (Fin m) (Fin n) K) (lam : K)
    (hd : ∀ d : Fin n → K, d ≠ 0 → 0 < ∑ i, ((A *ᵥ d) i) ^ 2 + lam * ∑ j, d j ^ 2) :
    (Aᵀ * A + lam • (1 : Matrix (Fin n) (Fin n) K)).det ≠ 0 := by
  intro h
  obtain ⟨v, hv, e⟩ := Matrix.exists_mulVec_eq_zero_iff.2 h
  have := quad_dot A lam v
  rw [e] at this
  simp only [Pi.zero_apply, mul_zero, sum_const_zero] at this
  have := hd v hv
  linarith

theorem npInv_ok (M : Matrix (Fin n) (Fin n) K) (h : M.det ≠ 0) :
    ∃ P, npInv M = .ok P ∧ M * P = 1 ∧ P * M = 1 := by
  refine ⟨M.det⁻¹ • M.adjugate, by rw [npInv, if_neg h], ?_, ?_⟩
  · rw [mul_smul_comm, mul_adjugate, smul_smul, inv_mul_cancel₀ h, one_smul]
  · rw [smul_mul_assoc, adjugate_mul, smul_smul, inv_mul_cancel₀ h, one_smul]

theorem ridgeManual_ok (A : Matrix (Fin m) (Fin n) K) (b : Fin m → K) (lam : K)
    (hd : ∀ d : Fin n → K, d ≠ 0 → 0 < ∑ i, ((A *ᵥ d) i) ^ 2 + lam * ∑ j, d j ^ 2) :
    ∃ x, ridgeManual A b lam = .ok (x, ssr A b x) ∧ (Aᵀ * A + lam • (1 : Matrix (Fin n) (Fin n) K)) *ᵥ x = Aᵀ *ᵥ b ∧
      IsUniqueMinimiser (ridgeCost A b lam) x := by
  obtain ⟨P, hP, h1, h2⟩ := npInv_ok _ (ridge_det A lam hd)
  have hN : (Aᵀ * A + lam • (1 : Matrix (Fin n) (Fin n) K)) *ᵥ ((P * Aᵀ) *ᵥ b) = Aᵀ *ᵥ b := by
    rw [mulVec_mulVec, ← Matrix.mul_assoc, h1, Matrix.one_mul]
  refine ⟨(P * Aᵀ) *ᵥ b, by rw [ridgeManual, hP]; rfl, hN, unique_of_normal A b lam _ (fun j => ?_) hd⟩
  have := congrFun hN j
  rw [add_mulVec, ← mulVec_mulVec, smul_mulVec, one_mulVec] at this
  rw [mulVec_sub, Pi.sub_apply, ← this]
  simp only [Pi.add_apply, Pi.smul_apply, smul_eq_mul]
  ring

/-- the result of ridge regression is recognised by the normal equations -/
theorem ridgeManual_eq (A : Matrix (Fin m) (Fin n) K) (b : Fin m → K) (lam : K) (hl : 0 < lam) (x : Fin n → K)
    (s : K) (hx : (Aᵀ * A + lam • (1 : Matrix (Fin n) (Fin n) K)) *ᵥ x = Aᵀ *ᵥ b) (hs : ssr A b x = s) :
    ridgeManual A b lam = .ok (x, s) := by
  obtain ⟨y, h, hy, -⟩ := ridgeManual_ok A b lam (ridge_pos A lam hl)
  obtain ⟨P, -, -, h2⟩ := npInv_ok _ (ridge_det A lam (ridge_pos A lam hl))
  have : y = x := by
    have := congrArg (P *ᵥ ·) (hy.trans hx.symm)
    simpa only [mulVec_mulVec, h2, one_mulVec] using this
  rw [h, this, hs]

theorem fullRank_pos (A : Matrix (Fin m) (Fin n) K) (hA : FullColumnRank A) (d : Fin n → K) (hd : d ≠ 0) :
    0 < ∑ i, ((A *ᵥ d) i) ^ 2 + (0 : K) * ∑ j, d j ^ 2 := by
  rw [zero_mul, add_zero]
  refine sum_sq_pos _ (fun h => hd (hA d (fun i => ?_)))
  exact congrFun h i

/-- the normal equations hold for the pseudo-inverse -/
theorem pinv_normal (A : Matrix (Fin m) (Fin n) K) (P : Matrix (Fin n) (Fin m) K) (h : IsPinv A P) (b : Fin m → K) :
    Aᵀ *ᵥ (A *ᵥ (P *ᵥ b) - b) = 0 := by
  have : Aᵀ * (A * P) = Aᵀ := by
    rw [← h.ap_symm, ← transpose_mul, h.apa]
  rw [mulVec_sub, mulVec_mulVec, mulVec_mulVec, Matrix.mul_assoc, this, sub_self]

/-- the normal equations always have a solution -/
theorem normal_solvable (A : Matrix (Fin m) (Fin n) K) (b : Fin m → K) :
    ∃ x, (Aᵀ * A) *ᵥ x = Aᵀ *ᵥ b := by
  have hle : LinearMap.range (Aᵀ * A).mulVecLin ≤ LinearMap.range Aᵀ.mulVecLin := by
    rintro _ ⟨x, rfl⟩
    exact ⟨A *ᵥ x, by simp⟩
  have hr : Module.finrank K (LinearMap.range (Aᵀ * A).mulVecLin) = Module.finrank K (LinearMap.range Aᵀ.mulVecLin) := by
    have h1 := Matrix.rank_transpose_mul_self A
    have h2 := Matrix.rank_transpose A
    unfold Matrix.rank at h1 h2
    rw [h1, ← h2]
  have := Submodule.eq_of_le_of_finrank_eq hle hr
  have hb : Aᵀ *ᵥ b ∈ LinearMap.range (Aᵀ * A).mulVecLin := by rw [this]; exact ⟨b, rfl⟩
  obtain ⟨x, hx⟩ := hb
  exact ⟨x, hx⟩

theorem exists_minimiser (A : Matrix (Fin m) (Fin n) K) (b : Fin m → K) : ∃ x, IsMinimiser (ridgeCost A b 0) x := by
  obtain ⟨x, hx⟩ := normal_solvable A b
  refine ⟨x, fun y => ?_⟩
  have h := ridgeCost_add A b 0 x (y - x)
  have h0 : Aᵀ *ᵥ (A *ᵥ x - b) = 0 := by rw [mulVec_sub, mulVec_mulVec, hx, sub_self]
  rw [add_sub_cancel, h0] at h
  simp only [Pi.zero_apply, zero_mul, add_zero, mul_zero, sum_const_zero] at h
  rw [h]
  have : 0 ≤ ∑ i, ((A *ᵥ (y - x)) i) ^ 2 := sum_nonneg (fun _ _ => sq_nonneg _)
  linarith

theorem lassoLoop_spec (around : K → K) (A : Matrix (Fin m) (Fin n) K) (b : Fin m → K) (lam mu tol : K) :
    ∀ (fuel : ℕ) (w : Fin n → K), let r := lassoLoop around A b lam mu tol fuel w
      (1 ≤ r.1.length ∧ r.1.length ≤ fuel + 1) ∧ (0 < fuel → 2 ≤ r.1.length) ∧ r.1.getD 0 0 = w ∧
      (∀ k : ℕ, k + 1 < r.1.length → r.1.getD (k + 1) 0 = lassoStep around A b lam mu (r.1.getD k 0)) ∧
      (∀ k : ℕ, k + 2 < r.1.length → ∃ j, tol ≤ |r.1.getD (k + 1) 0 j - r.1.getD k 0 j|) ∧
      (r.1.length < fuel + 1 → 2 ≤ r.1.length →
        ∀ j, |r.1.getD (r.1.length - 1) 0 j - r.1.getD (r.1.length - 2) 0 j| < tol) := by
  intro fuel
  induction fuel with
  | zero => intro w; simp [lassoLoop]
  | succ f ih =>
    intro w
    simp only [lassoLoop]
    split_ifs with h
    · refine ⟨by simp, by simp, rfl, ?_, by intro k hk; simp at hk, fun _ _ => h⟩
      intro k hk
      simp at hk
      subst hk
      rfl
    · obtain ⟨h1, h2, h3, h4, h5, h6⟩ := ih (lassoStep around A b lam mu w)
      generalize lassoLoop around A b lam mu tol f (lassoStep around A b lam mu w) = r at *
      refine ⟨by simp only [List.length_cons]; omega, fun _ => by simp only [List.length_cons]; omega, rfl, ?_, ?_, ?_⟩
      · intro k hk
        cases k with
        | zero => simpa using h3
        | succ k =>
          simp only [List.length_cons] at hk
          simpa using h4 k (by omega)
      · intro k hk
        simp only [List.length_cons] at hk
        cases k with
        | zero =>
          obtain ⟨j, hj⟩ := not_forall.1 h
          refine ⟨j, ?_⟩
          have : (w :: r.1).getD (0 + 1) 0 = r.1.getD 0 0 := rfl
          rw [this, h3]
          exact not_lt.1 hj
        | succ k => simpa using h5 k (by omega)
      · intro hl h2'
        simp only [List.length_cons] at hl h2'
        have hlen : 2 ≤ r.1.length := by
          by_contra hc
          have : f = 0 := by by_contra h0; exact hc (h2 (by omega))
          omega
        have := h6 (by omega) hlen
        simp only [List.length_cons]
        obtain ⟨q, hq⟩ : ∃ q, r.1.length = q + 2 := ⟨r.1.length - 2, by omega⟩
        rw [hq] at this ⊢
        simpa using this

end Verif
