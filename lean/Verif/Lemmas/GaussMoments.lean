import Mathlib.Probability.Distributions.Gaussian.Real
import Mathlib.Probability.Moments.MGFAnalytic
import Mathlib.MeasureTheory.Integral.Pi

/-! Moments of independent standard normal variables up to the fourth order, and mean and second moment of quadratic forms. -/

open MeasureTheory ProbabilityTheory Finset Real

namespace Verif

/-- the law of `n` independent standard normal draws -/
noncomputable abbrev normalDraws (n : ℕ) : Measure (Fin n → ℝ) := Measure.pi fun _ => gaussianReal 0 1

theorem gauss_moment_deriv (k : ℕ) : ∫ x, x ^ k ∂gaussianReal 0 1 = iteratedDeriv k (fun t : ℝ => rexp (t ^ 2 / 2)) 0 := by
  have h : mgf (fun x : ℝ => x) (gaussianReal 0 1) = fun t : ℝ => rexp (t ^ 2 / 2) := by
    rw [mgf_fun_id_gaussianReal]
    funext t
    norm_num
  rw [← h, iteratedDeriv_mgf_zero (by simp)]
  rfl

theorem exp_half_deriv (q q' : ℝ → ℝ) (hq : ∀ t, HasDerivAt q (q' t) t) :
    deriv (fun t => q t * rexp (t ^ 2 / 2)) = fun t => (q' t + q t * t) * rexp (t ^ 2 / 2) := by
  funext t
  have h1 : HasDerivAt (fun t : ℝ => t ^ 2 / 2) t t := by
    exact ((hasDerivAt_pow 2 t).div_const 2).congr_deriv (by norm_num)
  have : HasDerivAt (fun t => q t * rexp (t ^ 2 / 2)) (q' t * rexp (t ^ 2 / 2) + q t * (rexp (t ^ 2 / 2) * t)) t := (hq t).mul h1.exp
  rw [this.deriv]
  ring

theorem gauss_two : ∫ x, x ^ 2 ∂gaussianReal 0 1 = 1 ∧ ∫ x, x ^ 4 ∂gaussianReal 0 1 = 3 := by
  have h0 : (fun t : ℝ => rexp (t ^ 2 / 2)) = fun t => (fun _ => 1) t * rexp (t ^ 2 / 2) := by funext t; simp
  have d1 : deriv (fun t : ℝ => rexp (t ^ 2 / 2)) = fun t => t * rexp (t ^ 2 / 2) := by
    rw [h0, exp_half_deriv _ (fun _ => 0) (fun t => hasDerivAt_const _ _)]
    funext t; simp
  have d2 : deriv (fun t : ℝ => t * rexp (t ^ 2 / 2)) = fun t => (1 + t ^ 2) * rexp (t ^ 2 / 2) := by
    rw [exp_half_deriv _ (fun _ => 1) (fun t => hasDerivAt_id' t)]
    funext t; ring
  have d3 : deriv (fun t : ℝ => (1 + t ^ 2) * rexp (t ^ 2 / 2)) = fun t => (3 * t + t ^ 3) * rexp (t ^ 2 / 2) := by
    rw [exp_half_deriv _ (fun t => 2 * t) (fun t => by
      exact ((hasDerivAt_pow 2 t).const_add 1).congr_deriv (by norm_num))]
    funext t; ring
  have d4 : deriv (fun t : ℝ => (3 * t + t ^ 3) * rexp (t ^ 2 / 2)) = fun t => (3 + 6 * t ^ 2 + t ^ 4) * rexp (t ^ 2 / 2) := by
    rw [exp_half_deriv _ (fun t => 3 + 3 * t ^ 2) (fun t => by
      exact (((hasDerivAt_id' t).const_mul 3).add (hasDerivAt_pow 3 t)).congr_deriv (by norm_num))]
    funext t; ring
  constructor
  · rw [gauss_moment_deriv, iteratedDeriv_succ, iteratedDeriv_one, d1, d2]
    simp
  · rw [gauss_moment_deriv, iteratedDeriv_succ, iteratedDeriv_succ, iteratedDeriv_succ, iteratedDeriv_one, d1, d2, d3, d4]
    simp

theorem gauss_pow_integrable (k : ℕ) : Integrable (fun x : ℝ => x ^ k) (gaussianReal 0 1) := by
  have := (memLp_id_gaussianReal (μ := 0) (v := 1) (k : NNReal)).integrable_norm_pow'
  refine (this.mono (by fun_prop) ?_)
  filter_upwards with x
  simp

/-- product of four draws -/
theorem four_prod {n : ℕ} (i j k l : Fin n) (x : Fin n → ℝ) :
    x i * x j * x k * x l = ∏ m, x m ^ ((if m = i then 1 else 0) + (if m = j then 1 else 0) + (if m = k then 1 else 0)
      + (if m = l then 1 else 0)) := by
  have h : ∀ i : Fin n, x i = ∏ m, x m ^ (if m = i then 1 else 0) := by
    intro i
    simp [pow_ite, Finset.prod_ite_eq']
  simp only [pow_add, prod_mul_distrib, ← h]

theorem four_integrable {n : ℕ} (i j k l : Fin n) : Integrable (fun x : Fin n → ℝ => x i * x j * x k * x l) (normalDraws n) := by
  simp only [four_prod]
  exact Integrable.fintype_prod (f := fun m (y : ℝ) => y ^ ((if m = i then 1 else 0) + (if m = j then 1 else 0) + (if m = k then 1 else 0)
      + (if m = l then 1 else 0))) fun m => gauss_pow_integrable _

theorem four_moment {n : ℕ} (i j k l : Fin n) : ∫ x, x i * x j * x k * x l ∂normalDraws n
    = (if i = j ∧ k = l then 1 else 0) + (if i = k ∧ j = l then 1 else 0) + (if i = l ∧ j = k then 1 else 0) := by
  simp only [four_prod]
  rw [integral_fintype_prod_eq_prod (fun m (y : ℝ) => y ^ ((if m = i then 1 else 0) + (if m = j then 1 else 0) + (if m = k then 1 else 0)
      + (if m = l then 1 else 0)))]
  have m0 : ∫ x : ℝ, x ^ 0 ∂gaussianReal 0 1 = 1 := by simp
  have m1 : ∫ x : ℝ, x ^ 1 ∂gaussianReal 0 1 = 0 := by simp
  have m2 := gauss_two.1
  have m4 := gauss_two.2
  obtain ⟨M, hM⟩ : ∃ M : ℕ → ℝ, ∀ k, M k = ∫ x : ℝ, x ^ k ∂gaussianReal 0 1 := ⟨_, fun _ => rfl⟩
  simp only [← hM] at m0 m1 m2 m4 ⊢
  by_cases hij : i = j
  · subst hij
    by_cases hkl : k = l
    · subst hkl
      by_cases hik : i = k
      · subst hik
        rw [prod_eq_single i (fun m _ hm => by simp [hm, m0]) (fun h => absurd (mem_univ _) h)]
        simp [m4]
        norm_num
      · rw [prod_eq_one]
        · simp [hik, (Ne.symm hik : k ≠ i)]
        · intro m _
          by_cases h1 : m = i
          · have : m ≠ k := fun h => hik (h1.symm.trans h)
            simp [h1, hik, m2]
          · by_cases h2 : m = k
            · simp [h2, (Ne.symm hik : k ≠ i), m2]
            · simp [h1, h2, m0]
    · have hz : (if i = i ∧ k = l then (1 : ℝ) else 0) + (if i = k ∧ i = l then 1 else 0) + (if i = l ∧ i = k then 1 else 0) = 0 := by
        rw [if_neg (fun h => hkl h.2), if_neg (fun h => hkl (h.1.symm.trans h.2)), if_neg (fun h => hkl (h.2.symm.trans h.1))]
        norm_num
      rw [hz]
      by_cases hik : k = i
      · refine prod_eq_zero (mem_univ l) ?_
        have h1 : l ≠ i := fun h => hkl (hik.trans h.symm)
        have h2 : l ≠ k := fun h => hkl h.symm
        simp [h1, h2, m1]
      · refine prod_eq_zero (mem_univ k) ?_
        simp [hik, hkl, m1]
  · by_cases hik : i = k
    · subst hik
      by_cases hjl : j = l
      · subst hjl
        rw [prod_eq_one]
        · simp [hij]
        · intro m _
          by_cases h1 : m = i
          · simp [h1, hij, m2]
          · by_cases h2 : m = j
            · simp [h2, (Ne.symm hij : j ≠ i), m2]
            · simp [h1, h2, m0]
      · have hz : (if i = j ∧ i = l then (1 : ℝ) else 0) + (if i = i ∧ j = l then 1 else 0) + (if i = l ∧ j = i then 1 else 0) = 0 := by
          rw [if_neg (fun h => hij h.1), if_neg (fun h => hjl h.2), if_neg (fun h => hij h.2.symm)]
          norm_num
        rw [hz]
        refine prod_eq_zero (mem_univ j) ?_
        simp [hjl, (Ne.symm hij : j ≠ i), m1]
    · by_cases hil : i = l
      · subst hil
        by_cases hjk : j = k
        · subst hjk
          rw [prod_eq_one]
          · simp [hij]
          · intro m _
            by_cases h1 : m = i
            · simp [h1, hij, m2]
            · by_cases h2 : m = j
              · simp [h2, (Ne.symm hij : j ≠ i), m2]
              · simp [h1, h2, m0]
        · have hz : (if i = j ∧ k = i then (1 : ℝ) else 0) + (if i = k ∧ j = i then 1 else 0) + (if i = i ∧ j = k then 1 else 0) = 0 := by
            rw [if_neg (fun h => hij h.1), if_neg (fun h => hik h.1), if_neg (fun h => hjk h.2)]
            norm_num
          rw [hz]
          refine prod_eq_zero (mem_univ j) ?_
          simp [hjk, (Ne.symm hij : j ≠ i), m1]
      · have hz : (if i = j ∧ k = l then (1 : ℝ) else 0) + (if i = k ∧ j = l then 1 else 0) + (if i = l ∧ j = k then 1 else 0) = 0 := by
          rw [if_neg (fun h => hij h.1), if_neg (fun h => hik h.1), if_neg (fun h => hil h.1)]
          norm_num
        rw [hz]
        refine prod_eq_zero (mem_univ i) ?_
        simp [hij, hik, hil, m1]

theorem two_integrable {n : ℕ} (i j : Fin n) : Integrable (fun x : Fin n → ℝ => x i * x j) (normalDraws n) := by
  have h : ∀ x : Fin n → ℝ, x i * x j = ∏ m, x m ^ ((if m = i then 1 else 0) + (if m = j then 1 else 0)) := by
    intro x
    have h : ∀ i : Fin n, x i = ∏ m, x m ^ (if m = i then 1 else 0) := by
      intro i
      simp [pow_ite, Finset.prod_ite_eq']
    simp only [pow_add, prod_mul_distrib, ← h]
  simp only [h]
  exact Integrable.fintype_prod (f := fun m (y : ℝ) => y ^ ((if m = i then 1 else 0) + (if m = j then 1 else 0)))
    fun m => gauss_pow_integrable _

theorem two_moment {n : ℕ} (i j : Fin n) : ∫ x, x i * x j ∂normalDraws n = if i = j then 1 else 0 := by
  have h : ∀ x : Fin n → ℝ, x i * x j = ∏ m, x m ^ ((if m = i then 1 else 0) + (if m = j then 1 else 0)) := by
    intro x
    have h : ∀ i : Fin n, x i = ∏ m, x m ^ (if m = i then 1 else 0) := by
      intro i
      simp [pow_ite, Finset.prod_ite_eq']
    simp only [pow_add, prod_mul_distrib, ← h]
  simp only [h]
  rw [integral_fintype_prod_eq_prod (fun m (y : ℝ) => y ^ ((if m = i then 1 else 0) + (if m = j then 1 else 0)))]
  have m0 : ∫ x : ℝ, x ^ 0 ∂gaussianReal 0 1 = 1 := by simp
  have m1 : ∫ x : ℝ, x ^ 1 ∂gaussianReal 0 1 = 0 := by simp
  have m2 := gauss_two.1
  obtain ⟨M, hM⟩ : ∃ M : ℕ → ℝ, ∀ k, M k = ∫ x : ℝ, x ^ k ∂gaussianReal 0 1 := ⟨_, fun _ => rfl⟩
  simp only [← hM] at m0 m1 m2 ⊢
  by_cases hij : i = j
  · subst hij
    rw [if_pos rfl, prod_eq_one]
    intro m _
    by_cases h1 : m = i
    · simp [h1, m2]
    · simp [h1, m0]
  · rw [if_neg hij]
    refine prod_eq_zero (mem_univ i) ?_
    simp [hij, m1]

/-- mean of a quadratic form of independent standard normal variables -/
theorem quad_mean {n : ℕ} (a : Fin n → Fin n → ℝ) :
    Integrable (fun x : Fin n → ℝ => ∑ i, ∑ j, a i j * (x i * x j)) (normalDraws n) ∧
      ∫ x, ∑ i, ∑ j, a i j * (x i * x j) ∂normalDraws n = ∑ i, a i i := by
  have hint : ∀ i j, Integrable (fun x : Fin n → ℝ => a i j * (x i * x j)) (normalDraws n) :=
    fun i j => (two_integrable i j).const_mul _
  refine ⟨integrable_finset_sum _ fun i _ => integrable_finset_sum _ fun j _ => hint i j, ?_⟩
  rw [integral_finset_sum _ fun i _ => integrable_finset_sum _ fun j _ => hint i j]
  refine sum_congr rfl fun i _ => ?_
  rw [integral_finset_sum _ fun j _ => hint i j]
  simp only [integral_const_mul, two_moment, mul_ite, mul_one, mul_zero]
  rw [sum_ite_eq univ i (fun j => a i j), if_pos (mem_univ _)]

/-- second moment of a quadratic form of independent standard normal variables -/
theorem quad_second {n : ℕ} (a : Fin n → Fin n → ℝ) (hs : ∀ i j, a i j = a j i) :
    Integrable (fun x : Fin n → ℝ => (∑ i, ∑ j, a i j * (x i * x j)) ^ 2) (normalDraws n) ∧
      ∫ x, (∑ i, ∑ j, a i j * (x i * x j)) ^ 2 ∂normalDraws n = (∑ i, a i i) ^ 2 + 2 * ∑ i, ∑ j, a i j ^ 2 := by
  have hexp : ∀ x : Fin n → ℝ, (∑ i, ∑ j, a i j * (x i * x j)) ^ 2
      = ∑ i, ∑ j, ∑ k, ∑ l, (a i j * a k l) * (x i * x j * x k * x l) := by
    intro x
    rw [sq, sum_mul]
    refine sum_congr rfl fun i _ => ?_
    rw [sum_mul]
    refine sum_congr rfl fun j _ => ?_
    rw [mul_sum]
    refine sum_congr rfl fun k _ => ?_
    rw [mul_sum]
    exact sum_congr rfl fun l _ => by ring
  have hint : ∀ i j k l, Integrable (fun x : Fin n → ℝ => (a i j * a k l) * (x i * x j * x k * x l)) (normalDraws n) :=
    fun i j k l => (four_integrable i j k l).const_mul _
  simp only [hexp]
  refine ⟨integrable_finset_sum _ fun i _ => integrable_finset_sum _ fun j _ => integrable_finset_sum _ fun k _ =>
    integrable_finset_sum _ fun l _ => hint i j k l, ?_⟩
  have hI : ∫ x : Fin n → ℝ, ∑ i, ∑ j, ∑ k, ∑ l, (a i j * a k l) * (x i * x j * x k * x l) ∂normalDraws n
      = ∑ i, ∑ j, ∑ k, ∑ l, (a i j * a k l) * ((if i = j ∧ k = l then 1 else 0) + (if i = k ∧ j = l then 1 else 0)
        + (if i = l ∧ j = k then 1 else 0)) := by
    rw [integral_finset_sum _ fun i _ => integrable_finset_sum _ fun j _ => integrable_finset_sum _ fun k _ =>
      integrable_finset_sum _ fun l _ => hint i j k l]
    refine sum_congr rfl fun i _ => ?_
    rw [integral_finset_sum _ fun j _ => integrable_finset_sum _ fun k _ => integrable_finset_sum _ fun l _ => hint i j k l]
    refine sum_congr rfl fun j _ => ?_
    rw [integral_finset_sum _ fun k _ => integrable_finset_sum _ fun l _ => hint i j k l]
    refine sum_congr rfl fun k _ => ?_
    rw [integral_finset_sum _ fun l _ => hint i j k l]
    refine sum_congr rfl fun l _ => ?_
    rw [integral_const_mul, four_moment]
  rw [hI]
  simp only [mul_add, sum_add_distrib, ite_and, mul_ite, mul_one, mul_zero]
  have e1 : ∑ i, ∑ j, ∑ k, ∑ l, (if i = j then (if k = l then a i j * a k l else 0) else 0) = (∑ i, a i i) ^ 2 := by
    rw [sq, sum_mul]
    refine sum_congr rfl fun i _ => ?_
    rw [sum_eq_single i (fun j _ hj => by simp [Ne.symm hj]) (fun h => absurd (mem_univ _) h), mul_sum]
    refine sum_congr rfl fun k _ => ?_
    simp
  have e2 : ∑ i, ∑ j, ∑ k, ∑ l, (if i = k then (if j = l then a i j * a k l else 0) else 0) = ∑ i, ∑ j, a i j ^ 2 := by
    refine sum_congr rfl fun i _ => sum_congr rfl fun j _ => ?_
    rw [sum_eq_single i (fun k _ hk => by simp [Ne.symm hk]) (fun h => absurd (mem_univ _) h)]
    simp [sq]
  have e3 : ∑ i, ∑ j, ∑ k, ∑ l, (if i = l then (if j = k then a i j * a k l else 0) else 0) = ∑ i, ∑ j, a i j ^ 2 := by
    refine sum_congr rfl fun i _ => sum_congr rfl fun j _ => ?_
    rw [sum_eq_single j (fun k _ hk => by simp [Ne.symm hk]) (fun h => absurd (mem_univ _) h)]
    simp [sq, hs j i]
  rw [e1, e2, e3]
  ring

end Verif
