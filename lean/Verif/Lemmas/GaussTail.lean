import Verif.Spec.GaussTail
import Verif.Lemmas.GaussMoments

/-! Probabilities of intervals and of boxes under independent standard normal draws. -/

open MeasureTheory ProbabilityTheory Set

namespace Verif
open Spec (qFunc)

local notation "γ" => gaussianReal 0 1

local instance : NullSingletonClass (gaussianReal 0 1) := nullSingletonClass_gaussianReal one_ne_zero

theorem gauss_Iio (t : ℝ) : (γ).real (Iio (-t)) = qFunc t := by
  have h : (γ).map (fun x => -x) = γ := by rw [gaussianReal_map_neg, neg_zero]
  rw [qFunc, measureReal_def, measureReal_def]
  conv_rhs => rw [← h]
  rw [Measure.map_apply (by fun_prop) measurableSet_Ioi]
  congr 2
  ext x
  simp [lt_neg]

theorem qFunc_pos (t : ℝ) : 0 < qFunc t := by
  rw [qFunc, measureReal_def, ENNReal.toReal_pos_iff]
  refine ⟨?_, measure_lt_top _ _⟩
  rw [pos_iff_ne_zero]
  intro h
  have := gaussianReal_absolutelyContinuous' (0 : ℝ) (v := 1) one_ne_zero h
  simp at this

theorem qFunc_anti {a b : ℝ} (h : a ≤ b) : qFunc b ≤ qFunc a :=
  measureReal_mono (Ioi_subset_Ioi h) (measure_ne_top _ _)

theorem gauss_Ioo {a b : ℝ} (h : a ≤ b) : (γ).real (Ioo a b) = qFunc a - qFunc b := by
  have e : Ioi a = Ioc a b ∪ Ioi b := (Ioc_union_Ioi_eq_Ioi h).symm
  have h1 : qFunc a = (γ).real (Ioc a b) + qFunc b := by
    rw [qFunc, e, measureReal_union (by
      rw [Set.disjoint_left]; intro x hx hy; exact absurd hx.2 (not_le.2 hy)) measurableSet_Ioi, qFunc]
  have h2 : (γ).real (Ioo a b) = (γ).real (Ioc a b) := by
    rw [measureReal_def, measureReal_def, measure_congr Ioo_ae_eq_Ioc]
  rw [h2, h1]; ring

theorem gauss_Icc {a b : ℝ} (h : a ≤ b) : (γ).real (Icc a b) = qFunc a - qFunc b := by
  rw [← gauss_Ioo h, measureReal_def, measureReal_def, measure_congr Ioo_ae_eq_Icc]

theorem qFunc_strictAnti {a b : ℝ} (h : a < b) : qFunc b < qFunc a := by
  have h1 := gauss_Ioo h.le
  have : 0 < (γ).real (Ioo a b) := by
    rw [measureReal_def, ENNReal.toReal_pos_iff]
    refine ⟨?_, measure_lt_top _ _⟩
    rw [pos_iff_ne_zero]
    intro h0
    have := gaussianReal_absolutelyContinuous' (0 : ℝ) (v := 1) one_ne_zero h0
    simp at this
    linarith
  linarith

theorem qFunc_neg (t : ℝ) : qFunc (-t) = 1 - qFunc t := by
  have h : (γ).real (Iio (-t)) + (γ).real (Ici (-t)) = 1 := by
    rw [← measureReal_union (by
      rw [Set.disjoint_left]; intro x hx hy; rw [mem_Iio] at hx; rw [mem_Ici] at hy; linarith) measurableSet_Ici, Iio_union_Ici]
    simp
  have h2 : (γ).real (Ici (-t)) = qFunc (-t) := by
    rw [qFunc, measureReal_def, measureReal_def, measure_congr Ioi_ae_eq_Ici]
  rw [gauss_Iio, h2] at h
  linarith

theorem qFunc_zero : qFunc 0 = 1 / 2 := by
  have := qFunc_neg 0
  rw [neg_zero] at this
  linarith

theorem qFunc_lt_half {t : ℝ} (h : 0 < t) : qFunc t < 1 / 2 := by
  rw [← qFunc_zero]; exact qFunc_strictAnti h

/-- the exponential bound -/
theorem qFunc_le_exp {t : ℝ} (h : 0 ≤ t) : qFunc t ≤ Real.exp (-(t ^ 2 / 2)) := by
  have h1 := measure_ge_le_exp_mul_mgf (μ := γ) (X := fun x => x) (t := t) t h (by
    have := integrable_exp_mul_gaussianReal (μ := 0) (v := 1) t
    simpa using this)
  rw [mgf_fun_id_gaussianReal] at h1
  have h2 : qFunc t ≤ (γ).real {x | t ≤ x} := measureReal_mono (fun x hx => by rw [mem_Ioi] at hx; exact hx.le) (measure_ne_top _ _)
  refine h2.trans (h1.trans (le_of_eq ?_))
  rw [← Real.exp_add]
  congr 1
  norm_num
  ring

/-- a set that is an interval up to its end points -/
theorem gauss_between {a b : ℝ} (h : a ≤ b) {B : Set ℝ} (h1 : Ioo a b ⊆ B) (h2 : B ⊆ Icc a b) :
    (γ).real B = qFunc a - qFunc b :=
  le_antisymm ((measureReal_mono h2 (measure_ne_top _ _)).trans (gauss_Icc h).le)
    ((gauss_Ioo h).ge.trans (measureReal_mono h1 (measure_ne_top _ _)))

theorem gauss_above {a : ℝ} {B : Set ℝ} (h1 : Ioi a ⊆ B) (h2 : B ⊆ Ici a) : (γ).real B = qFunc a := by
  have h3 : (γ).real (Ici a) = qFunc a := by
    rw [qFunc, measureReal_def, measureReal_def, measure_congr Ioi_ae_eq_Ici]
  exact le_antisymm ((measureReal_mono h2 (measure_ne_top _ _)).trans h3.le) (measureReal_mono h1 (measure_ne_top _ _))

theorem gauss_below {a : ℝ} {B : Set ℝ} (h1 : Iio (-a) ⊆ B) (h2 : B ⊆ Iic (-a)) : (γ).real B = qFunc a := by
  have h3 : (γ).real (Iic (-a)) = qFunc a := by
    rw [← gauss_Iio, measureReal_def, measureReal_def, measure_congr Iio_ae_eq_Iic]
  exact le_antisymm ((measureReal_mono h2 (measure_ne_top _ _)).trans h3.le)
    ((gauss_Iio a).ge.trans (measureReal_mono h1 (measure_ne_top _ _)))

/-- two pieces that are intervals up to their end points -/
theorem gauss_between2 {a b c d : ℝ} (h : a ≤ b) (hbc : b < c) (hcd : c ≤ d) {B : Set ℝ} (h1 : Ioo a b ∪ Ioo c d ⊆ B)
    (h2 : B ⊆ Icc a b ∪ Icc c d) : (γ).real B = (qFunc a - qFunc b) + (qFunc c - qFunc d) := by
  rw [← gauss_Ioo h, ← gauss_Ioo hcd]
  refine le_antisymm ?_ ?_
  · refine (measureReal_mono h2 (measure_ne_top _ _)).trans ((measureReal_union_le _ _).trans (le_of_eq ?_))
    rw [gauss_Icc h, gauss_Icc hcd, gauss_Ioo h, gauss_Ioo hcd]
  · rw [← measureReal_union (by
      rw [Set.disjoint_left]; intro x hx hy; exact absurd (hx.2.trans hbc) (not_lt.2 hy.1.le)) measurableSet_Ioo]
    exact measureReal_mono h1 (measure_ne_top _ _)

/-- complements of sets that are known up to end points -/
theorem gauss_compl {A B C : Set ℝ} (hA : MeasurableSet A) (h1 : A ⊆ B) (h2 : B ⊆ C) (hac : A =ᵐ[γ] C) :
    (γ).real Bᶜ = 1 - (γ).real B := by
  have hB : B =ᵐ[γ] A := (h2.eventuallyLE.trans hac.symm.le).antisymm h1.eventuallyLE
  have := prob_compl_eq_one_sub₀ (μ := γ) (s := B) (hA.nullMeasurableSet.congr hB.symm)
  rw [measureReal_def, this, ENNReal.toReal_sub_of_le prob_le_one ENNReal.one_ne_top, ENNReal.toReal_one, measureReal_def]

theorem gauss_between_compl {a b : ℝ} {B : Set ℝ} (h1 : Ioo a b ⊆ B) (h2 : B ⊆ Icc a b) : (γ).real Bᶜ = 1 - (γ).real B :=
  gauss_compl measurableSet_Ioo h1 h2 Ioo_ae_eq_Icc

theorem gauss_above_compl {a : ℝ} {B : Set ℝ} (h1 : Ioi a ⊆ B) (h2 : B ⊆ Ici a) : (γ).real Bᶜ = 1 - (γ).real B :=
  gauss_compl measurableSet_Ioi h1 h2 Ioi_ae_eq_Ici

theorem gauss_below_compl {a : ℝ} {B : Set ℝ} (h1 : Iio a ⊆ B) (h2 : B ⊆ Iic a) : (γ).real Bᶜ = 1 - (γ).real B :=
  gauss_compl measurableSet_Iio h1 h2 Iio_ae_eq_Iic

/-- complement of a half line -/
theorem gauss_compl_above {a : ℝ} {B : Set ℝ} (h1 : Iio a ⊆ B) (h2 : B ⊆ Iic a) : (γ).real B = 1 - qFunc a := by
  rw [← qFunc_neg]
  exact gauss_below (by rwa [neg_neg]) (by rwa [neg_neg])

/-- boxes -/
theorem draws_box {n : ℕ} (B : Fin n → Set ℝ) : (normalDraws n).real {x | ∀ i, x i ∈ B i} = ∏ i, (γ).real (B i) := by
  have : {x : Fin n → ℝ | ∀ i, x i ∈ B i} = univ.pi B := by ext x; simp
  rw [this, measureReal_def, Measure.pi_pi, ENNReal.toReal_prod]
  rfl

theorem draws_single {n : ℕ} (i : Fin n) (B : Set ℝ) : (normalDraws n).real {x | x i ∈ B} = (γ).real B := by
  have h := draws_box (n := n) (fun j => if j = i then B else univ)
  have e : {x : Fin n → ℝ | ∀ j, x j ∈ (if j = i then B else univ)} = {x | x i ∈ B} := by
    ext x
    constructor
    · intro hx; simpa using hx i
    · intro hx j
      by_cases hj : j = i
      · subst hj; simpa using hx
      · simp [hj]
  rw [e] at h
  rw [h, Finset.prod_eq_single i]
  · simp
  · intro j _ hj; simp [hj]
  · intro hi; exact absurd (Finset.mem_univ i) hi

end Verif
