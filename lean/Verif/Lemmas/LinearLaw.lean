import Verif.Lemmas.GaussTail
import Mathlib.Probability.Independence.Basic

/-! Law of a weighted sum of independent standard normal variables, and first and second moments. -/

open MeasureTheory ProbabilityTheory Finset

namespace Verif

theorem linear_law {n : ℕ} (c : Fin n → ℝ) :
    (normalDraws n).map (fun x => ∑ i, c i * x i) = gaussianReal 0 (∑ i, c i ^ 2).toNNReal := by
  have hind : iIndepFun (fun (i : Fin n) (x : Fin n → ℝ) => c i * x i) (normalDraws n) :=
    iIndepFun_pi (X := fun i v => c i * v) (μ := fun _ => gaussianReal 0 1) (fun i => by fun_prop)
  have hmeas : ∀ i : Fin n, Measurable (fun x : Fin n → ℝ => c i * x i) := fun i => by fun_prop
  have hone : ∀ i : Fin n, (normalDraws n).map (fun x : Fin n → ℝ => c i * x i) = gaussianReal 0 (c i ^ 2).toNNReal := by
    intro i
    have h1 : (normalDraws n).map (fun x : Fin n → ℝ => x i) = gaussianReal 0 1 :=
      (measurePreserving_eval (fun _ : Fin n => gaussianReal 0 1) i).map_eq
    have h2 : (normalDraws n).map (fun x : Fin n → ℝ => c i * x i)
        = ((normalDraws n).map (fun x : Fin n → ℝ => x i)).map (fun v => c i * v) := by
      rw [Measure.map_map (by fun_prop) (by fun_prop)]
      rfl
    rw [h2, h1, gaussianReal_map_const_mul]
    congr 1
    · ring
    · ext
      simp [Real.coe_toNNReal _ (sq_nonneg _)]
  have key : ∀ S : Finset (Fin n), (normalDraws n).map (∑ i ∈ S, fun x : Fin n → ℝ => c i * x i)
      = gaussianReal 0 (∑ i ∈ S, c i ^ 2).toNNReal := by
    intro S
    induction S using Finset.induction_on with
    | empty =>
      rw [sum_empty, sum_empty, Real.toNNReal_zero, gaussianReal_zero_var]
      show (normalDraws n).map (fun _ => (0 : ℝ)) = _
      rw [Measure.map_const]
      simp
    | insert a S ha ih =>
      rw [sum_insert ha, sum_insert ha, add_comm, gaussianReal_add_gaussianReal_of_indepFun
        (hind.indepFun_finsetSum_of_notMem hmeas ha) ih (hone a), add_zero, add_comm (c a ^ 2),
        Real.toNNReal_add (sum_nonneg fun _ _ => sq_nonneg _) (sq_nonneg _)]
  have := key univ
  rw [← this]
  congr 1
  funext x
  simp

/-- a weighted sum over its standard deviation is standard normal -/
theorem unit_law {n : ℕ} (c : Fin n → ℝ) (s : ℝ) (hs : 0 < s) (h : s ^ 2 = ∑ i, c i ^ 2) :
    (normalDraws n).map (fun x => (∑ i, c i * x i) / s) = gaussianReal 0 1 := by
  have h2 : (normalDraws n).map (fun x => (∑ i, c i * x i) / s)
      = ((normalDraws n).map (fun x => ∑ i, c i * x i)).map (fun v => v / s) := by
    rw [Measure.map_map (by fun_prop) (by fun_prop)]
    rfl
  rw [h2, linear_law, gaussianReal_map_div_const]
  congr 1
  · simp
  · rw [← h]
    ext
    rw [NNReal.coe_div, Real.coe_toNNReal _ (sq_nonneg s)]
    show s ^ 2 / s ^ 2 = 1
    exact div_self (by positivity)

/-- probability that a weighted sum falls in a set -/
theorem unit_prob {n : ℕ} (c : Fin n → ℝ) (s : ℝ) (hs : 0 < s) (h : s ^ 2 = ∑ i, c i ^ 2) (B : Set ℝ)
    (hB : NullMeasurableSet B (gaussianReal 0 1)) :
    (normalDraws n).real {x | (∑ i, c i * x i) / s ∈ B} = (gaussianReal 0 1).real B := by
  have hl := unit_law c s hs h
  have := Measure.map_apply₀ (μ := normalDraws n) (f := fun x => (∑ i, c i * x i) / s) (s := B)
    (Measurable.aemeasurable (by fun_prop)) (by rw [hl]; exact hB)
  rw [hl] at this
  rw [measureReal_def, measureReal_def, this]
  rfl

theorem one_integrable {n : ℕ} (i : Fin n) : Integrable (fun x : Fin n → ℝ => x i) (normalDraws n) :=
  (measurePreserving_eval (fun _ : Fin n => gaussianReal 0 1) i).integrable_comp_of_integrable (g := id)
    ((memLp_id_gaussianReal 1).integrable (by simp))

theorem one_moment {n : ℕ} (i : Fin n) : ∫ x, x i ∂normalDraws n = 0 := by
  have h1 := (measurePreserving_eval (fun _ : Fin n => gaussianReal 0 1) i).map_eq
  have : ∫ v, v ∂((normalDraws n).map (Function.eval i)) = ∫ x, x i ∂normalDraws n :=
    integral_map (measurable_pi_apply i).aemeasurable (by fun_prop)
  rw [← this, h1, integral_id_gaussianReal]

/-- mean of the product of two noisy samples -/
theorem noisy_pair {n : ℕ} (p q : Fin n) (a b s : ℝ) :
    Integrable (fun x : Fin n → ℝ => (a + s * x p) * (b + s * x q)) (normalDraws n) ∧
      ∫ x, (a + s * x p) * (b + s * x q) ∂normalDraws n = a * b + if p = q then s ^ 2 else 0 := by
  have e : (fun x : Fin n → ℝ => (a + s * x p) * (b + s * x q))
      = fun x => a * b + (a * s * x q + (b * s * x p + s ^ 2 * (x p * x q))) := by
    funext x; ring
  have i1 : Integrable (fun x : Fin n → ℝ => a * s * x q) (normalDraws n) := (one_integrable q).const_mul _
  have i2 : Integrable (fun x : Fin n → ℝ => b * s * x p) (normalDraws n) := (one_integrable p).const_mul _
  have i3 : Integrable (fun x : Fin n → ℝ => s ^ 2 * (x p * x q)) (normalDraws n) := (two_integrable p q).const_mul _
  have i4 : Integrable (fun x : Fin n → ℝ => b * s * x p + s ^ 2 * (x p * x q)) (normalDraws n) := i2.add i3
  have i5 : Integrable (fun x : Fin n → ℝ => a * s * x q + (b * s * x p + s ^ 2 * (x p * x q))) (normalDraws n) := i1.add i4
  rw [e]
  refine ⟨(integrable_const _).add i5, ?_⟩
  rw [integral_add (integrable_const _) i5, integral_add i1 i4, integral_add i2 i3,
    integral_const_mul, integral_const_mul, integral_const_mul, integral_const_mul, one_moment, one_moment, two_moment]
  simp

theorem noisy_one {n : ℕ} (p : Fin n) (a s : ℝ) :
    Integrable (fun x : Fin n → ℝ => a + s * x p) (normalDraws n) ∧ ∫ x, a + s * x p ∂normalDraws n = a := by
  have i1 : Integrable (fun x : Fin n → ℝ => s * x p) (normalDraws n) := (one_integrable p).const_mul _
  refine ⟨(integrable_const _).add i1, ?_⟩
  rw [integral_add (integrable_const _) i1, integral_const_mul, one_moment]
  simp

end Verif
