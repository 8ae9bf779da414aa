import Verif.Props.LeastSq
import Verif.Props.RxNoise

/-!
# Least squares in Gaussian noise (C116)

The right-hand side `A x₀` goes through `awgn`; the samples behind `numpy.random.normal` are independent standard normal.
-/

open MeasureTheory ProbabilityTheory Matrix

namespace Verif
open Spec

variable {m n : ℕ}

/-- the right-hand side without noise, as a list of samples -/
noncomputable def cleanSide (A : Matrix (Fin m) (Fin n) ℝ) (x₀ : Fin n → ℝ) : List ℝ := List.ofFn fun i => ∑ j, A i j * x₀ j

/-- `b` is the right-hand side after `awgn`, as a function of the samples drawn -/
def NoisySide (A : Matrix (Fin m) (Fin n) ℝ) (x₀ : Fin n → ℝ) (snr : ℝ) (b : (Fin m → ℝ) → Fin m → ℝ) : Prop :=
  ∀ z, awgn (List.ofFn z) (cleanSide A x₀) snr = some (List.ofFn (b z))

theorem affine_moment (μ : ℝ) (c : Fin m → ℝ) : Integrable (fun z : Fin m → ℝ => (μ + ∑ i, c i * z i) ^ 2) (normalDraws m) ∧
    ∫ z, (μ + ∑ i, c i * z i) ^ 2 ∂normalDraws m = μ ^ 2 + ∑ i, c i ^ 2 := by
  have : IsProbabilityMeasure (normalDraws m) := by unfold normalDraws; infer_instance
  have i1 : Integrable (fun z : Fin m → ℝ => ∑ i, 2 * μ * c i * z i) (normalDraws m) :=
    integrable_finsetSum _ fun i _ => (one_integrable i).const_mul _
  obtain ⟨q1, q2⟩ := quad_mean fun i j => c i * c j
  have e : (fun z : Fin m → ℝ => (μ + ∑ i, c i * z i) ^ 2)
      = fun z => μ ^ 2 + (∑ i, 2 * μ * c i * z i + ∑ i, ∑ j, c i * c j * (z i * z j)) := by
    funext z
    have e1 : ∑ i, ∑ j, c i * c j * (z i * z j) = (∑ i, c i * z i) * ∑ i, c i * z i := by
      rw [Finset.sum_mul_sum]
      exact Finset.sum_congr rfl fun i _ => Finset.sum_congr rfl fun j _ => by ring
    have e2 : ∑ i, 2 * μ * c i * z i = 2 * μ * ∑ i, c i * z i := by
      rw [Finset.mul_sum]
      exact Finset.sum_congr rfl fun i _ => by ring
    rw [e1, e2]
    ring
  rw [e]
  have i2 : Integrable (fun z : Fin m → ℝ => ∑ i, 2 * μ * c i * z i + ∑ i, ∑ j, c i * c j * (z i * z j)) (normalDraws m) := i1.add q1
  refine ⟨(integrable_const _).add i2, ?_⟩
  rw [integral_add (integrable_const _) i2, integral_add i1 q1, q2, integral_finsetSum _ fun i _ => (one_integrable i).const_mul _]
  simp only [integral_const_mul, one_moment]
  simp [sq]

theorem noisySide_eq (A : Matrix (Fin m) (Fin n) ℝ) (x₀ : Fin n → ℝ) (snr : ℝ) (hm : 2 ≤ m) (hnz : ∃ i, ∑ j, A i j * x₀ j ≠ 0) :
    ∃ s, awgnStd (cleanSide A x₀) snr = some s ∧ 0 < s ∧ NoisySide A x₀ snr (fun z i => (A *ᵥ x₀) i + s * z i) ∧
      ∀ b, NoisySide A x₀ snr b → b = fun z i => (A *ᵥ x₀) i + s * z i := by
  have hl : (cleanSide A x₀).length = m := by simp [cleanSide]
  obtain ⟨i₀, hi₀⟩ := hnz
  obtain ⟨s, h1, h2, h3⟩ := noisy_record (cleanSide A x₀) snr (by omega) ⟨_, List.mem_ofFn.2 ⟨i₀, rfl⟩, hi₀⟩
  have key : ∀ z, awgn (List.ofFn z) (cleanSide A x₀) snr = some (List.ofFn fun i => (A *ᵥ x₀) i + s * z i) := by
    intro z
    obtain ⟨y, a1, a2, a3⟩ := h3 (fun i => z (i.cast hl))
    have e : (List.ofFn fun i : Fin (cleanSide A x₀).length => z (i.cast hl)) = List.ofFn z := by
      apply List.ext_getElem
      · simp [hl]
      · intro i _ _; simp
    rw [e] at a1
    rw [a1]
    congr 1
    apply List.ext_getElem
    · simp [a2, hl]
    · intro i h _
      have := a3 ⟨i, by omega⟩
      simp only at this
      rw [List.getD_eq_getElem _ _ h] at this
      rw [this, List.getD_eq_getElem _ _ (by omega)]
      simp only [cleanSide, mulVec_sum, List.getElem_ofFn]
      rfl
  refine ⟨s, h1, h2, key, fun b hb => ?_⟩
  funext z
  have := hb z
  rw [key z] at this
  exact (List.ofFn_injective (Option.some.inj this)).symm

/-- law of a linear functional of an affine function of the draws -/
theorem affine_law (μ : ℝ) (c : Fin m → ℝ) : (normalDraws m).map (fun z => μ + ∑ i, c i * z i) = gaussianReal μ (∑ i, c i ^ 2).toNNReal := by
  rw [show (fun z : Fin m → ℝ => μ + ∑ i, c i * z i) = (fun v => μ + v) ∘ fun z => ∑ i, c i * z i from rfl,
    ← Measure.map_map (by fun_prop) (by fun_prop), linear_law, gaussianReal_map_const_add, zero_add]

theorem functional_sum (w : Fin n → ℝ) (M : Matrix (Fin n) (Fin m) ℝ) (s : ℝ) (z : Fin m → ℝ) :
    ∑ j, w j * (s * (M *ᵥ z) j) = ∑ i, (s * ∑ j, w j * M j i) * z i := by
  simp only [mulVec_sum, Finset.mul_sum, Finset.sum_mul]
  rw [Finset.sum_comm]
  exact Finset.sum_congr rfl fun i _ => Finset.sum_congr rfl fun j _ => by ring

theorem pinv_left (A : Matrix (Fin m) (Fin n) ℝ) (P : Matrix (Fin n) (Fin m) ℝ) (hP : IsPinv A P) (hA : FullColumnRank A) : P * A = 1 := by
  obtain ⟨h1, h2⟩ := C60_pinv A
  obtain ⟨N, hN, hq⟩ := h2 hA
  have hd := ridge_det A 0 (fullRank_pos A hA)
  rw [zero_smul, add_zero] at hd
  obtain ⟨N', hN', -, h4⟩ := npInv_ok _ hd
  rw [hN] at hN'
  obtain rfl := Except.ok.inj hN'
  rw [h1 P _ hP hq, Matrix.mul_assoc, h4]

/-- squared length of a functional of the pseudo-inverse -/
theorem pinv_quad (A : Matrix (Fin m) (Fin n) ℝ) (P : Matrix (Fin n) (Fin m) ℝ) (hP : IsPinv A P) (hA : FullColumnRank A) :
    ∃ N, npInv (Aᵀ * A) = .ok N ∧ ∀ w : Fin n → ℝ, ∑ i, (∑ j, w j * P j i) ^ 2 = ∑ j, ∑ k, w j * N j k * w k := by
  obtain ⟨h1, h2⟩ := C60_pinv A
  obtain ⟨N, hN, hq⟩ := h2 hA
  have hd := ridge_det A 0 (fullRank_pos A hA)
  rw [zero_smul, add_zero] at hd
  obtain ⟨N', hN', h3, h4⟩ := npInv_ok _ hd
  rw [hN] at hN'
  obtain rfl := Except.ok.inj hN'
  have hPN := h1 P _ hP hq
  refine ⟨N, hN, fun w => ?_⟩
  have hPP : P * Pᵀ = N := by
    have e : Pᵀ = A * Nᵀ := by rw [hPN, transpose_mul, transpose_transpose]
    have e2 : Nᵀ = N := by
      have : (Aᵀ * A)ᵀ = Aᵀ * A := by rw [transpose_mul, transpose_transpose]
      calc Nᵀ = Nᵀ * (Aᵀ * A * N) := by rw [h3, Matrix.mul_one]
        _ = (Nᵀ * (Aᵀ * A)ᵀ) * N := by rw [this]; simp only [Matrix.mul_assoc]
        _ = N := by rw [← transpose_mul, h3, transpose_one, Matrix.one_mul]
    rw [e, ← Matrix.mul_assoc, pinv_left A P hP hA, Matrix.one_mul, e2]
  rw [← hPP]
  have : ∀ i, (∑ j, w j * P j i) ^ 2 = ∑ j, ∑ k, w j * (P j i * P k i) * w k := by
    intro i
    rw [sq, Finset.sum_mul_sum]
    exact Finset.sum_congr rfl fun j _ => Finset.sum_congr rfl fun k _ => by ring
  simp only [this]
  rw [Finset.sum_comm]
  refine Finset.sum_congr rfl fun j _ => ?_
  rw [Finset.sum_comm]
  refine Finset.sum_congr rfl fun k _ => ?_
  rw [Matrix.mul_apply, Finset.mul_sum, Finset.sum_mul]
  rfl

/-- **C116.** Ordinary least squares on a noisy right-hand side: every linear functional of the coefficients returned by
`ols_manual` is normally distributed about its true value, with variance `s² wᵀ (AᵀA)⁻¹ w`. The expected sum of squared residuals
is `s²` times the number of equations beyond the number of unknowns. -/
theorem C116_ols (A : Matrix (Fin m) (Fin n) ℝ) (P : Matrix (Fin n) (Fin m) ℝ) (hP : IsPinv A P) (hA : FullColumnRank A)
    (x₀ : Fin n → ℝ) (snr : ℝ) (hm : 2 ≤ m) (hnz : ∃ i, ∑ j, A i j * x₀ j ≠ 0) :
    ∃ s N b, awgnStd (cleanSide A x₀) snr = some s ∧ 0 < s ∧ npInv (Aᵀ * A) = .ok N ∧ NoisySide A x₀ snr b ∧
      (∀ w : Fin n → ℝ, (normalDraws m).map (fun z => ∑ j, w j * (olsManual P A (b z)).1 j)
        = gaussianReal (∑ j, w j * x₀ j) (s ^ 2 * ∑ j, ∑ k, w j * N j k * w k).toNNReal) ∧
      ∫ z, (olsManual P A (b z)).2 ∂normalDraws m = s ^ 2 * (m - n) := by
  obtain ⟨s, h1, h2, h3, -⟩ := noisySide_eq A x₀ snr hm hnz
  obtain ⟨N, hN, hq⟩ := pinv_quad A P hP hA
  have hPA := pinv_left A P hP hA
  have hx : ∀ z : Fin m → ℝ, P *ᵥ (fun i => (A *ᵥ x₀) i + s * z i) = fun j => x₀ j + s * (P *ᵥ z) j := by
    intro z
    have : (fun i => (A *ᵥ x₀) i + s * z i) = A *ᵥ x₀ + s • z := by funext i; simp
    rw [this, mulVec_add, mulVec_mulVec, hPA, one_mulVec, mulVec_smul]
    funext j; simp
  refine ⟨s, N, _, h1, h2, hN, h3, fun w => ?_, ?_⟩
  · have e : (fun z : Fin m → ℝ => ∑ j, w j * (olsManual P A (fun i => (A *ᵥ x₀) i + s * z i)).1 j)
        = fun z => ∑ j, w j * x₀ j + ∑ i, (s * ∑ j, w j * P j i) * z i := by
      funext z
      rw [olsManual]
      simp only [hx, mul_add, Finset.sum_add_distrib]
      rw [functional_sum]
    rw [e, affine_law]
    congr 2
    rw [← hq, Finset.mul_sum]
    exact Finset.sum_congr rfl fun i _ => by ring
  · obtain ⟨R, hR⟩ : ∃ R : Matrix (Fin m) (Fin m) ℝ, R = A * P - 1 := ⟨_, rfl⟩
    have e : (fun z : Fin m → ℝ => (olsManual P A (fun i => (A *ᵥ x₀) i + s * z i)).2)
        = fun z => ∑ i, (0 + ∑ k, (s * R i k) * z k) ^ 2 := by
      funext z
      rw [olsManual]
      simp only [hx, ssr]
      refine Finset.sum_congr rfl fun i _ => ?_
      congr 1
      have e1 : (fun j => x₀ j + s * (P *ᵥ z) j) = x₀ + s • (P *ᵥ z) := by funext j; simp
      rw [e1, mulVec_add, mulVec_smul, mulVec_mulVec, zero_add]
      have e2 : ∑ k, s * R i k * z k = s * (R *ᵥ z) i := by
        rw [mulVec_sum, Finset.mul_sum]
        exact Finset.sum_congr rfl fun k _ => by ring
      rw [e2, hR, sub_mulVec, one_mulVec]
      simp only [Pi.add_apply, Pi.smul_apply, smul_eq_mul, Pi.sub_apply]
      ring
    rw [e, integral_finsetSum _ fun i _ => (affine_moment 0 _).1]
    simp only [(affine_moment 0 _).2]
    have hRR : R * Rᵀ = 1 - A * P := by
      have ht : Rᵀ = R := by rw [hR, transpose_sub, hP.ap_symm, transpose_one]
      rw [ht, hR, Matrix.mul_sub, Matrix.sub_mul, Matrix.mul_one, ← Matrix.mul_assoc, hP.apa, Matrix.one_mul, sub_self, zero_sub, neg_sub]
    have htr : (R * Rᵀ).trace = m - n := by
      rw [hRR, trace_sub, trace_mul_comm, hPA, trace_one, trace_one, Fintype.card_fin, Fintype.card_fin]
    rw [← htr, trace, Finset.mul_sum]
    refine Finset.sum_congr rfl fun i _ => ?_
    rw [diag_apply, Matrix.mul_apply, Finset.mul_sum, zero_pow two_ne_zero, zero_add]
    exact Finset.sum_congr rfl fun k _ => by rw [transpose_apply]; ring

theorem example_pinv : IsPinv (K := ℝ) !![1, 0; 0, 1; 1, 1] !![2 / 3, -1 / 3, 1 / 3; -1 / 3, 2 / 3, 1 / 3] := by
  constructor <;> (ext i j; fin_cases i <;> fin_cases j <;> norm_num [Matrix.mul_apply, Fin.sum_univ_succ])

theorem example_rank : FullColumnRank (K := ℝ) !![1, 0; 0, 1; 1, 1] := by
  intro x h
  have h0 := h 0
  have h1 := h 1
  simp [Fin.sum_univ_two] at h0 h1
  funext j
  fin_cases j
  · exact h0
  · exact h1

/-- Three equations for two unknowns: each coefficient has two thirds of the noise variance, and one noise variance is left in
the residual. -/
example (snr : ℝ) : ∃ s b, NoisySide (!![1, 0; 0, 1; 1, 1] : Matrix (Fin 3) (Fin 2) ℝ) ![1, 2] snr b ∧ 0 < s ∧
    (normalDraws 3).map (fun z => (olsManual !![2 / 3, -1 / 3, 1 / 3; -1 / 3, 2 / 3, 1 / 3] !![1, 0; 0, 1; 1, 1] (b z)).1 0)
      = gaussianReal 1 (s ^ 2 * (2 / 3)).toNNReal ∧
    ∫ z, (olsManual !![2 / 3, -1 / 3, 1 / 3; -1 / 3, 2 / 3, 1 / 3] !![1, 0; 0, 1; 1, 1] (b z)).2 ∂normalDraws 3 = s ^ 2 := by
  obtain ⟨s, N, b, -, h2, h3, h4, h5, h6⟩ := C116_ols _ _ example_pinv example_rank ![1, 2] snr (by norm_num)
    ⟨0, by norm_num [Fin.sum_univ_succ]⟩
  refine ⟨s, b, h4, h2, ?_, by rw [h6]; norm_num⟩
  have h7 := h5 ![1, 0]
  have hN : N 0 0 = 2 / 3 := by
    obtain ⟨N', a1, a2⟩ := pinv_quad _ _ example_pinv example_rank
    rw [h3] at a1
    obtain rfl := Except.ok.inj a1
    have := a2 ![1, 0]
    simp [Fin.sum_univ_two, Fin.sum_univ_three] at this
    rw [← this]
    norm_num
  simp only [Fin.sum_univ_two] at h7
  simpa [hN] using h7

/-- **C116.** No unbiased linear estimator is better: if `L` recovers every `x` from `A x`, then for every linear functional the
expected squared error of `ols_manual` is at most that of `L` applied to the same noisy right-hand side. -/
theorem C116_best (A : Matrix (Fin m) (Fin n) ℝ) (P : Matrix (Fin n) (Fin m) ℝ) (hP : IsPinv A P) (hA : FullColumnRank A)
    (x₀ : Fin n → ℝ) (snr : ℝ) (hm : 2 ≤ m) (hnz : ∃ i, ∑ j, A i j * x₀ j ≠ 0) (b : (Fin m → ℝ) → Fin m → ℝ)
    (hb : NoisySide A x₀ snr b) (L : Matrix (Fin n) (Fin m) ℝ) (hL : ∀ x, L *ᵥ (A *ᵥ x) = x) (w : Fin n → ℝ) :
    Integrable (fun z => (∑ j, w j * ((L *ᵥ b z) j - x₀ j)) ^ 2) (normalDraws m) ∧
      ∫ z, (∑ j, w j * ((olsManual P A (b z)).1 j - x₀ j)) ^ 2 ∂normalDraws m
        ≤ ∫ z, (∑ j, w j * ((L *ᵥ b z) j - x₀ j)) ^ 2 ∂normalDraws m := by
  obtain ⟨s, h1, h2, -, h3⟩ := noisySide_eq A x₀ snr hm hnz
  rw [h3 b hb]
  have hPA := pinv_left A P hP hA
  have hLA : L * A = 1 := by
    ext i j
    have := congrFun (hL (Pi.single j 1)) i
    rw [mulVec_mulVec, mulVec_single_one] at this
    rw [← Matrix.col_apply (L * A) j i, this, Matrix.one_apply, Pi.single_apply]
  have hx : ∀ M : Matrix (Fin n) (Fin m) ℝ, M * A = 1 → ∀ z : Fin m → ℝ,
      (∑ j, w j * ((M *ᵥ fun i => (A *ᵥ x₀) i + s * z i) j - x₀ j)) ^ 2 = (0 + ∑ i, (s * ∑ j, w j * M j i) * z i) ^ 2 := by
    intro M hM z
    have : (fun i => (A *ᵥ x₀) i + s * z i) = A *ᵥ x₀ + s • z := by funext i; simp
    rw [this, mulVec_add, mulVec_mulVec, hM, one_mulVec, mulVec_smul, ← functional_sum, zero_add]
    congr 1
    exact Finset.sum_congr rfl fun j _ => by simp
  refine ⟨by simp only [hx L hLA]; exact (affine_moment 0 _).1, ?_⟩
  have hols : ∀ z : Fin m → ℝ, (olsManual P A fun i => (A *ᵥ x₀) i + s * z i).1 = P *ᵥ fun i => (A *ᵥ x₀) i + s * z i := fun z => rfl
  simp only [hols, hx L hLA, hx P hPA]
  rw [(affine_moment 0 _).2, (affine_moment 0 _).2]
  simp only [zero_pow two_ne_zero, zero_add, mul_pow, ← Finset.mul_sum]
  refine mul_le_mul_of_nonneg_left ?_ (sq_nonneg s)
  -- the difference of the two estimators is orthogonal to the first
  have hcross : (w ᵥ* (L - P)) ⬝ᵥ (w ᵥ* P) = 0 := by
    have e : (L - P) * Pᵀ = 0 := by
      have : Pᵀ = A * (P * Pᵀ) := by
        calc Pᵀ = (P * (A * P))ᵀ := by rw [← Matrix.mul_assoc, hP.pap]
          _ = A * (P * Pᵀ) := by rw [transpose_mul, hP.ap_symm, Matrix.mul_assoc]
      rw [this, ← Matrix.mul_assoc, Matrix.sub_mul, hLA, hPA, sub_self, Matrix.zero_mul]
    rw [← mulVec_transpose P w, dotProduct_mulVec, vecMul_vecMul, e, vecMul_zero, zero_dotProduct]
  have hsplit : ∀ i, ∑ j, w j * L j i = (w ᵥ* P) i + (w ᵥ* (L - P)) i := by
    intro i
    rw [vecMul_sub, Pi.sub_apply, add_sub_cancel]
    rfl
  have hP' : ∀ i, ∑ j, w j * P j i = (w ᵥ* P) i := fun i => rfl
  simp only [hsplit, hP']
  have : ∑ i, ((w ᵥ* P) i + (w ᵥ* (L - P)) i) ^ 2 = ∑ i, (w ᵥ* P) i ^ 2 + 2 * ((w ᵥ* (L - P)) ⬝ᵥ (w ᵥ* P)) + ∑ i, (w ᵥ* (L - P)) i ^ 2 := by
    rw [dotProduct, Finset.mul_sum, ← Finset.sum_add_distrib, ← Finset.sum_add_distrib]
    exact Finset.sum_congr rfl fun i _ => by ring
  rw [this, hcross]
  have : 0 ≤ ∑ i, (w ᵥ* (L - P)) i ^ 2 := Finset.sum_nonneg fun _ _ => sq_nonneg _
  linarith

/-- ridge against ordinary least squares -/
theorem ridge_split (A : Matrix (Fin m) (Fin n) ℝ) (P : Matrix (Fin n) (Fin m) ℝ) (hP : IsPinv A P) (hPA : P * A = 1) (lam : ℝ)
    (W : Matrix (Fin n) (Fin n) ℝ) (hW : W * (Aᵀ * A + lam • (1 : Matrix (Fin n) (Fin n) ℝ)) = 1) (hWt : Wᵀ = W) (w : Fin n → ℝ) :
    ∑ i, (w ᵥ* P) i ^ 2 = ∑ i, (w ᵥ* (W * Aᵀ)) i ^ 2 + 2 * lam * ∑ j, (w ᵥ* W) j ^ 2 + lam ^ 2 * ∑ i, (w ᵥ* (W * P)) i ^ 2 := by
  have hAP : Aᵀ * (A * P) = Aᵀ := by rw [← hP.ap_symm, ← transpose_mul, hP.apa]
  have e1 : P = W * Aᵀ + lam • (W * P) := by
    calc P = W * (Aᵀ * A + lam • (1 : Matrix (Fin n) (Fin n) ℝ)) * P := by rw [hW, Matrix.one_mul]
      _ = W * Aᵀ + lam • (W * P) := by
        rw [Matrix.mul_assoc, Matrix.add_mul, Matrix.mul_assoc, hAP, Matrix.mul_add, Matrix.smul_mul, Matrix.one_mul, Matrix.mul_smul]
  have hcross : (w ᵥ* (W * Aᵀ)) ⬝ᵥ (w ᵥ* (W * P)) = ∑ j, (w ᵥ* W) j ^ 2 := by
    have e2 : (W * Aᵀ) * (W * P)ᵀ = W * W := by
      rw [transpose_mul, hWt, Matrix.mul_assoc, ← Matrix.mul_assoc Aᵀ, ← transpose_mul, hPA, transpose_one, Matrix.one_mul]
    rw [← mulVec_transpose (W * P) w, dotProduct_mulVec, vecMul_vecMul, e2, ← vecMul_vecMul]
    rw [← dotProduct_mulVec]
    have : W *ᵥ w = w ᵥ* W := by rw [← vecMul_transpose, hWt]
    rw [this, dotProduct]
    exact Finset.sum_congr rfl fun j _ => by ring
  have e3 : ∀ i, (w ᵥ* P) i = (w ᵥ* (W * Aᵀ)) i + lam * (w ᵥ* (W * P)) i := by
    intro i
    conv_lhs => rw [e1]
    rw [vecMul_add, vecMul_smul]
    rfl
  simp only [e3]
  rw [← hcross, dotProduct, Finset.mul_sum, Finset.mul_sum, ← Finset.sum_add_distrib, ← Finset.sum_add_distrib]
  exact Finset.sum_congr rfl fun i _ => by ring

/-- **C116.** `ridge_regression_manual` on a noisy right-hand side: every linear functional of the coefficients is normally
distributed about its value for the right-hand side without noise, with a variance smaller than that of ordinary least squares. The
coefficients are biased, but if `λ |x₀|² ≤ 2 s²` their expected squared distance to `x₀` is smaller than for ordinary least
squares. -/
theorem C116_ridge (A : Matrix (Fin m) (Fin n) ℝ) (P : Matrix (Fin n) (Fin m) ℝ) (hP : IsPinv A P) (hA : FullColumnRank A)
    (x₀ : Fin n → ℝ) (snr : ℝ) (hm : 2 ≤ m) (hnz : ∃ i, ∑ j, A i j * x₀ j ≠ 0) (lam : ℝ) (hl : 0 < lam) :
    ∃ (s : ℝ) (b : (Fin m → ℝ) → Fin m → ℝ) (x : (Fin m → ℝ) → Fin n → ℝ) (r : (Fin m → ℝ) → ℝ) (x₁ : Fin n → ℝ) (r₁ : ℝ),
      awgnStd (cleanSide A x₀) snr = some s ∧ 0 < s ∧ NoisySide A x₀ snr b ∧
      (∀ z, ridgeManual A (b z) lam = .ok (x z, r z)) ∧
      ridgeManual A (fun i => ∑ j, A i j * x₀ j) lam = .ok (x₁, r₁) ∧
      (∀ w : Fin n → ℝ, ∃ v v₀ : ℝ, (normalDraws m).map (fun z => ∑ j, w j * x z j) = gaussianReal (∑ j, w j * x₁ j) v.toNNReal ∧
        (normalDraws m).map (fun z => ∑ j, w j * (olsManual P A (b z)).1 j) = gaussianReal (∑ j, w j * x₀ j) v₀.toNNReal ∧
        0 ≤ v ∧ v ≤ v₀ ∧ (w ≠ 0 → v < v₀)) ∧
      (x₀ ≠ 0 → x₁ ≠ x₀) ∧
      (lam * ∑ j, x₀ j ^ 2 ≤ 2 * s ^ 2 →
        ∫ z, ∑ j, (x z j - x₀ j) ^ 2 ∂normalDraws m < ∫ z, ∑ j, ((olsManual P A (b z)).1 j - x₀ j) ^ 2 ∂normalDraws m) := by
  obtain ⟨s, h1, h2, h3, -⟩ := noisySide_eq A x₀ snr hm hnz
  have hPA := pinv_left A P hP hA
  obtain ⟨W, hW, hW1, hW2⟩ := npInv_ok _ (ridge_det A lam (ridge_pos A lam hl))
  have hWt : Wᵀ = W := by
    have ht : (Aᵀ * A + lam • (1 : Matrix (Fin n) (Fin n) ℝ))ᵀ = Aᵀ * A + lam • (1 : Matrix (Fin n) (Fin n) ℝ) := by
      rw [transpose_add, transpose_mul, transpose_transpose, transpose_smul, transpose_one]
    calc Wᵀ = Wᵀ * ((Aᵀ * A + lam • (1 : Matrix (Fin n) (Fin n) ℝ)) * W) := by rw [hW1, Matrix.mul_one]
      _ = (Wᵀ * (Aᵀ * A + lam • (1 : Matrix (Fin n) (Fin n) ℝ))ᵀ) * W := by rw [ht, Matrix.mul_assoc]
      _ = W := by rw [← transpose_mul, hW1, transpose_one, Matrix.one_mul]
  have hrun : ∀ b : Fin m → ℝ, ridgeManual A b lam = .ok ((W * Aᵀ) *ᵥ b, ssr A b ((W * Aᵀ) *ᵥ b)) := fun b => by
    rw [ridgeManual, hW]; rfl
  have hn : 0 < n := by
    obtain ⟨i, hi⟩ := hnz
    rcases Nat.eq_zero_or_pos n with h | h
    · subst h; simp at hi
    · exact h
  have hcl : (fun i => ∑ j, A i j * x₀ j) = A *ᵥ x₀ := rfl
  have hbias : (W * Aᵀ) *ᵥ (A *ᵥ x₀) = x₀ - lam • (W *ᵥ x₀) := by
    have : W * Aᵀ * A = 1 - lam • W := by
      rw [← hW2, Matrix.mul_add, mul_smul_comm, Matrix.mul_one, Matrix.mul_assoc, add_sub_cancel_right]
    rw [mulVec_mulVec, this, sub_mulVec, one_mulVec, smul_mulVec]
  have hx : ∀ (M : Matrix (Fin n) (Fin m) ℝ) (z : Fin m → ℝ) (j : Fin n),
      (M *ᵥ fun i => (A *ᵥ x₀) i + s * z i) j = (M *ᵥ (A *ᵥ x₀)) j + s * (M *ᵥ z) j := by
    intro M z j
    have : (fun i => (A *ᵥ x₀) i + s * z i) = A *ᵥ x₀ + s • z := by funext i; simp
    rw [this, mulVec_add, mulVec_smul]
    simp
  have hols : ∀ z : Fin m → ℝ, (olsManual P A fun i => (A *ᵥ x₀) i + s * z i).1 = P *ᵥ fun i => (A *ᵥ x₀) i + s * z i := fun z => rfl
  have hlaw : ∀ (M : Matrix (Fin n) (Fin m) ℝ) (w : Fin n → ℝ),
      (normalDraws m).map (fun z => ∑ j, w j * (M *ᵥ fun i => (A *ᵥ x₀) i + s * z i) j)
        = gaussianReal (∑ j, w j * (M *ᵥ (A *ᵥ x₀)) j) (s ^ 2 * ∑ i, (w ᵥ* M) i ^ 2).toNNReal := by
    intro M w
    have e : (fun z : Fin m → ℝ => ∑ j, w j * (M *ᵥ fun i => (A *ᵥ x₀) i + s * z i) j)
        = fun z => ∑ j, w j * (M *ᵥ (A *ᵥ x₀)) j + ∑ i, (s * ∑ j, w j * M j i) * z i := by
      funext z
      simp only [hx, mul_add, Finset.sum_add_distrib]
      rw [functional_sum]
    rw [e, affine_law]
    congr 2
    rw [Finset.mul_sum]
    exact Finset.sum_congr rfl fun i _ => by rw [mul_pow]; rfl
  have hsplit := ridge_split A P hP hPA lam W hW2 hWt
  have hWne : ∀ w : Fin n → ℝ, w ≠ 0 → 0 < ∑ j, (w ᵥ* W) j ^ 2 := by
    intro w hw
    refine sum_sq_pos _ fun h => hw ?_
    have := congrArg (· ᵥ* (Aᵀ * A + lam • (1 : Matrix (Fin n) (Fin n) ℝ))) h
    simpa only [vecMul_vecMul, hW2, vecMul_one, zero_vecMul] using this
  refine ⟨s, _, _, _, _, _, h1, h2, h3, fun z => hrun _, by rw [hcl]; exact hrun _, fun w => ?_, fun h0 hc => ?_, fun hle => ?_⟩
  · refine ⟨_, s ^ 2 * ∑ i, (w ᵥ* P) i ^ 2, hlaw (W * Aᵀ) w, ?_, mul_nonneg (sq_nonneg _) (Finset.sum_nonneg fun _ _ => sq_nonneg _), ?_, ?_⟩
    · simp only [hols]
      rw [hlaw P w, mulVec_mulVec, hPA, one_mulVec]
    · refine mul_le_mul_of_nonneg_left ?_ (sq_nonneg _)
      rw [hsplit w]
      have a1 : 0 ≤ ∑ j, (w ᵥ* W) j ^ 2 := Finset.sum_nonneg fun _ _ => sq_nonneg _
      have a2 : 0 ≤ ∑ j, (w ᵥ* (W * P)) j ^ 2 := Finset.sum_nonneg fun _ _ => sq_nonneg _
      have a3 := mul_nonneg (mul_nonneg zero_le_two hl.le) a1
      have a4 := mul_nonneg (sq_nonneg lam) a2
      linarith
    · intro hw
      refine mul_lt_mul_of_pos_left ?_ (by positivity)
      rw [hsplit w]
      have a1 := hWne w hw
      have a2 : 0 ≤ ∑ j, (w ᵥ* (W * P)) j ^ 2 := Finset.sum_nonneg fun _ _ => sq_nonneg _
      have a3 := mul_pos (mul_pos zero_lt_two hl) a1
      have a4 := mul_nonneg (sq_nonneg lam) a2
      linarith
  · rw [hbias] at hc
    have h4 : lam • (W *ᵥ x₀) = 0 := by
      have := congrArg (x₀ - ·) hc
      simpa using this
    rcases smul_eq_zero.1 h4 with h | h
    · exact hl.ne' h
    · apply h0
      have := congrArg ((Aᵀ * A + lam • (1 : Matrix (Fin n) (Fin n) ℝ)) *ᵥ ·) h
      simpa only [mulVec_mulVec, hW1, one_mulVec, mulVec_zero] using this
  · have hmse : ∀ M : Matrix (Fin n) (Fin m) ℝ, ∫ z, ∑ j, ((M *ᵥ fun i => (A *ᵥ x₀) i + s * z i) j - x₀ j) ^ 2 ∂normalDraws m
        = ∑ j, (((M *ᵥ (A *ᵥ x₀)) j - x₀ j) ^ 2 + s ^ 2 * ∑ i, M j i ^ 2) := by
      intro M
      have e : (fun z : Fin m → ℝ => ∑ j, ((M *ᵥ fun i => (A *ᵥ x₀) i + s * z i) j - x₀ j) ^ 2)
          = fun z => ∑ j, ((M *ᵥ (A *ᵥ x₀)) j - x₀ j + ∑ i, (s * M j i) * z i) ^ 2 := by
        funext z
        refine Finset.sum_congr rfl fun j _ => ?_
        congr 1
        rw [hx, mulVec_sum M z, Finset.mul_sum]
        simp only [mul_assoc]
        ring
      rw [e, integral_finsetSum _ fun i _ => (affine_moment _ _).1]
      refine Finset.sum_congr rfl fun j _ => ?_
      rw [(affine_moment _ _).2, Finset.mul_sum]
      simp only [mul_pow]
    simp only [hols]
    rw [hmse, hmse, hbias, mulVec_mulVec, hPA, one_mulVec]
    obtain ⟨j₀⟩ : Nonempty (Fin n) := ⟨⟨0, hn⟩⟩
    have hrow : ∀ (M : Matrix (Fin n) (Fin n) ℝ) (j k : Fin n), ((Pi.single j (1 : ℝ) : Fin n → ℝ) ᵥ* M) k = M j k := fun M j k => by
      rw [single_one_vecMul]; rfl
    have hrow' : ∀ (M : Matrix (Fin n) (Fin m) ℝ) (j : Fin n) (k : Fin m), ((Pi.single j (1 : ℝ) : Fin n → ℝ) ᵥ* M) k = M j k := fun M j k => by
      rw [single_one_vecMul]; rfl
    have key : ∀ j : Fin n, (((x₀ - lam • (W *ᵥ x₀)) j - x₀ j) ^ 2 + s ^ 2 * ∑ i, (W * Aᵀ) j i ^ 2)
        + s ^ 2 * (lam ^ 2 * ∑ i, (W * P) j i ^ 2) ≤ (x₀ j - x₀ j) ^ 2 + s ^ 2 * ∑ i, P j i ^ 2 := by
      intro j
      have a1 := hsplit (Pi.single j 1)
      simp only [hrow, hrow'] at a1
      rw [a1]
      have a2 : (W *ᵥ x₀) j ^ 2 ≤ (∑ k, W j k ^ 2) * ∑ k, x₀ k ^ 2 := by
        rw [mulVec_sum]
        exact Finset.sum_mul_sq_le_sq_mul_sq _ _ _
      have a3 : 0 ≤ ∑ k, W j k ^ 2 := Finset.sum_nonneg fun _ _ => sq_nonneg _
      have a4 : ((x₀ - lam • (W *ᵥ x₀)) j - x₀ j) ^ 2 = lam ^ 2 * (W *ᵥ x₀) j ^ 2 := by
        simp only [Pi.sub_apply, Pi.smul_apply, smul_eq_mul]
        ring
      rw [a4]
      have a5 := mul_le_mul_of_nonneg_left a2 (sq_nonneg lam)
      have a6 := mul_le_mul_of_nonneg_left hle (mul_nonneg hl.le a3)
      nlinarith
    have hpos : ∃ j, 0 < ∑ i, (W * P) j i ^ 2 := by
      by_contra hc
      push Not at hc
      have h0 : W * P = 0 := by
        ext j i
        have := le_antisymm (hc j) (Finset.sum_nonneg fun _ _ => sq_nonneg _)
        have := (Finset.sum_eq_zero_iff_of_nonneg fun _ _ => sq_nonneg _).1 this i (Finset.mem_univ i)
        simpa using this
      have h5 : W = 0 := by rw [← Matrix.mul_one W, ← hPA, ← Matrix.mul_assoc, h0, Matrix.zero_mul]
      rw [h5, Matrix.zero_mul] at hW2
      have := congrFun (congrFun hW2 j₀) j₀
      simp at this
    obtain ⟨j₁, hj₁⟩ := hpos
    refine Finset.sum_lt_sum (fun j _ => ?_) ⟨j₁, Finset.mem_univ _, ?_⟩
    · have a1 : 0 ≤ s ^ 2 * (lam ^ 2 * ∑ i, (W * P) j i ^ 2) :=
        mul_nonneg (sq_nonneg _) (mul_nonneg (sq_nonneg _) (Finset.sum_nonneg fun _ _ => sq_nonneg _))
      linarith [key j]
    · have a1 : 0 < s ^ 2 * (lam ^ 2 * ∑ i, (W * P) j₁ i ^ 2) := by positivity
      linarith [key j₁]

/-- The same equations with the regularisation `λ = 1` at a signal to noise ratio of 0 dB: the bias is outweighed. -/
example : ∃ (s : ℝ) (b : (Fin 3 → ℝ) → Fin 3 → ℝ) (x : (Fin 3 → ℝ) → Fin 2 → ℝ) (r : (Fin 3 → ℝ) → ℝ),
    NoisySide (!![1, 0; 0, 1; 1, 1] : Matrix (Fin 3) (Fin 2) ℝ) ![1, 2] 0 b ∧
    (∀ z, ridgeManual !![1, 0; 0, 1; 1, 1] (b z) 1 = .ok (x z, r z)) ∧ s = √5 ∧
    ∫ z, ∑ j, (x z j - ![1, 2] j) ^ 2 ∂normalDraws 3
      < ∫ z, ∑ j, ((olsManual !![2 / 3, -1 / 3, 1 / 3; -1 / 3, 2 / 3, 1 / 3] !![1, 0; 0, 1; 1, 1] (b z)).1 j - ![1, 2] j) ^ 2 ∂normalDraws 3 := by
  obtain ⟨s, b, x, r, x₁, r₁, h1, h2, h3, h4, -, -, -, h5⟩ := C116_ridge _ _ example_pinv example_rank ![1, 2] 0 (by norm_num)
    ⟨0, by norm_num [Fin.sum_univ_succ]⟩ 1 one_pos
  have hs : s = √5 := by
    have e : cleanSide (!![1, 0; 0, 1; 1, 1] : Matrix (Fin 3) (Fin 2) ℝ) ![1, 2] = [1, 2, 3] := by
      simp [cleanSide, List.ofFn_succ, Fin.sum_univ_two]
      norm_num
    rw [e] at h1
    norm_num [awgnStd, sigPowerHat] at h1
    rw [← h1]
  refine ⟨s, b, x, r, h3, h4, hs, h5 ?_⟩
  rw [hs, Real.sq_sqrt (by norm_num)]
  norm_num [Fin.sum_univ_two]

end Verif
