import Verif.Lemmas.ErrorRate
import Verif.Lemmas.BitErrors

/-! Decision probabilities of the slicer and the Gaussian tail inequalities behind C98. -/

open MeasureTheory ProbabilityTheory Set

namespace Verif
open Spec (qFunc mismatches stream)

local notation "γ" => gaussianReal 0 1

/-- probability that level `j` of `M` is nearest when level `k` was sent; `t` is half the level distance over `σ` -/
noncomputable def cellProb (M : ℕ) (t : ℝ) (k j : ℕ) : ℝ :=
  (if j = 0 then 1 else qFunc ((2 * ((j : ℝ) - k) - 1) * t)) - (if j = M - 1 then 0 else qFunc ((2 * ((j : ℝ) - k) + 1) * t))

theorem near_measurable {A B C : Set ℝ} (hA : MeasurableSet A) (h1 : A ⊆ B) (h2 : B ⊆ C) (hf : (C \ A).Finite) : MeasurableSet B := by
  have : B = A ∪ (B \ A) := by rw [union_sdiff_self, union_eq_right.2 h1]
  rw [this]
  exact hA.union ((hf.subset (sdiff_subset_sdiff_left h2)).measurableSet)

theorem slice_cell (lv : List ℝ) (M : ℕ) (hM : lv.length = M) (L d : ℝ) (hd : 0 < d) (hg : ∀ j < M, lv.getD j 0 = L + j * d)
    (h2 : 2 ≤ M) (k : ℕ) (hk : k < M) (j : ℕ) (hj : j < M) (s : ℝ) (hs : 0 < s) :
    MeasurableSet {z | sliceOne lv (lv.getD k 0 + s * z) = lv.getD j 0} ∧
    (γ).real {z | sliceOne lv (lv.getD k 0 + s * z) = lv.getD j 0} = cellProb M (d / (2 * s)) k j := by
  obtain ⟨t, ht⟩ : ∃ t, t = d / (2 * s) := ⟨_, rfl⟩
  rw [← ht]
  have htp : 0 < t := by rw [ht]; positivity
  have hdt : d = 2 * (s * t) := by rw [ht]; field_simp
  obtain ⟨a, ha⟩ : ∃ a, a = (2 * ((j : ℝ) - k) - 1) * t := ⟨_, rfl⟩
  obtain ⟨b, hb⟩ : ∃ b, b = (2 * ((j : ℝ) - k) + 1) * t := ⟨_, rfl⟩
  have hab : a ≤ b := by rw [ha, hb]; nlinarith
  have e0 : ∀ z, lv.getD k 0 + s * z = lv.getD j 0 + (((k : ℝ) - j) * d + s * z) := fun z => by rw [hg k hk, hg j hj]; ring
  have e1 : ∀ z, z < b ↔ ((k : ℝ) - j) * d + s * z < d / 2 := fun z => by
    rw [← mul_lt_mul_iff_right₀ hs, hb, hdt]
    constructor <;> intro h <;> nlinarith
  have e2 : ∀ z, a < z ↔ -(d / 2) < ((k : ℝ) - j) * d + s * z := fun z => by
    rw [← mul_lt_mul_iff_right₀ hs, ha, hdt]
    constructor <;> intro h <;> nlinarith
  have e3 : ∀ z, z ≤ b ↔ ((k : ℝ) - j) * d + s * z ≤ d / 2 := fun z => by
    rw [← mul_le_mul_iff_right₀ hs, hb, hdt]
    constructor <;> intro h <;> nlinarith
  have e4 : ∀ z, a ≤ z ↔ -(d / 2) ≤ ((k : ℝ) - j) * d + s * z := fun z => by
    rw [← mul_le_mul_iff_right₀ hs, ha, hdt]
    constructor <;> intro h <;> nlinarith
  have hB := fun z => slice_grid lv M hM L d hd hg j hj (((k : ℝ) - j) * d + s * z)
  obtain ⟨B, hBdef⟩ : ∃ B, B = {z | sliceOne lv (lv.getD k 0 + s * z) = lv.getD j 0} := ⟨_, rfl⟩
  have hmem : ∀ z, z ∈ B ↔ sliceOne lv (lv.getD j 0 + (((k : ℝ) - j) * d + s * z)) = lv.getD j 0 := fun z => by
    rw [hBdef, ← e0]; rfl
  rw [← hBdef, cellProb, ← ha, ← hb]
  by_cases h0 : j = 0
  · have hlast : ¬ (j = M - 1) := by omega
    have b1 : Iio b ⊆ B := fun z hz => (hmem z).2 ((hB z).1 (Or.inl h0) (Or.inr ((e1 z).1 hz)))
    have b2 : B ⊆ Iic b := fun z hz => (e3 z).2 (((hB z).2 ((hmem z).1 hz)).2.resolve_left hlast)
    refine ⟨near_measurable measurableSet_Iio b1 b2 ((finite_singleton b).subset ?_), ?_⟩
    · rintro z ⟨h3, h4⟩
      exact le_antisymm h3 (not_lt.1 h4)
    · rw [if_pos h0, if_neg hlast, gauss_compl_above b1 b2]
  · by_cases hlast : j = M - 1
    · have b1 : Ioi a ⊆ B := fun z hz => (hmem z).2 ((hB z).1 (Or.inr ((e2 z).1 hz)) (Or.inl hlast))
      have b2 : B ⊆ Ici a := fun z hz => (e4 z).2 (((hB z).2 ((hmem z).1 hz)).1.resolve_left h0)
      refine ⟨near_measurable measurableSet_Ioi b1 b2 ((finite_singleton a).subset ?_), ?_⟩
      · rintro z ⟨h3, h4⟩
        exact le_antisymm (not_lt.1 h4) h3
      · rw [if_neg h0, if_pos hlast, gauss_above b1 b2, sub_zero]
    · have b1 : Ioo a b ⊆ B := fun z hz => (hmem z).2 ((hB z).1 (Or.inr ((e2 z).1 hz.1)) (Or.inr ((e1 z).1 hz.2)))
      have b2 : B ⊆ Icc a b := fun z hz => ⟨(e4 z).2 (((hB z).2 ((hmem z).1 hz)).1.resolve_left h0),
        (e3 z).2 (((hB z).2 ((hmem z).1 hz)).2.resolve_left hlast)⟩
      refine ⟨near_measurable measurableSet_Ioo b1 b2 (((finite_singleton b).insert a).subset ?_), ?_⟩
      · rintro z ⟨⟨h3, h4⟩, h5⟩
        by_cases h6 : a < z
        · exact Or.inr (le_antisymm h4 (not_lt.1 fun h7 => h5 ⟨h6, h7⟩))
        · exact Or.inl (le_antisymm (not_lt.1 h6) h3)
      · rw [if_neg h0, if_neg hlast, gauss_between hab b1 b2]

/-- probability that the decision falls on a level with property `p` -/
theorem slice_cells (lv : List ℝ) (M : ℕ) (hM : lv.length = M) (L d : ℝ) (hd : 0 < d) (hg : ∀ j < M, lv.getD j 0 = L + j * d)
    (h2 : 2 ≤ M) (k : ℕ) (hk : k < M) (s : ℝ) (hs : 0 < s) (p : ℕ → Prop) [DecidablePred p] :
    (γ).real {z | ∃ j < M, p j ∧ sliceOne lv (lv.getD k 0 + s * z) = lv.getD j 0}
      = ∑ j ∈ Finset.range M, if p j then cellProb M (d / (2 * s)) k j else 0 := by
  have hset : {z | ∃ j < M, p j ∧ sliceOne lv (lv.getD k 0 + s * z) = lv.getD j 0}
      = ⋃ j ∈ (Finset.range M).filter p, {z | sliceOne lv (lv.getD k 0 + s * z) = lv.getD j 0} := by
    ext z
    simp [and_assoc]
  rw [hset, measureReal_biUnion_finset, Finset.sum_filter]
  · refine Finset.sum_congr rfl fun j hj => ?_
    rw [(slice_cell lv M hM L d hd hg h2 k hk j (Finset.mem_range.1 hj) s hs).2]
  · intro a ha b hb hab
    rw [Function.onFun, disjoint_left]
    intro z h3 h4
    rw [Finset.coe_filter] at ha hb
    have ha' := Finset.mem_range.1 ha.1
    have hb' := Finset.mem_range.1 hb.1
    have h5 : lv.getD a 0 = lv.getD b 0 := Eq.trans (Eq.symm h3) h4
    rw [hg a ha', hg b hb'] at h5
    have h6 : ((a : ℝ) - b) * d = 0 := by linarith
    have h7 : (a : ℝ) = b := by
      rcases mul_eq_zero.1 h6 with h | h
      · linarith
      · exact absurd h hd.ne'
    exact hab (by exact_mod_cast h7)
  · intro j hj
    rw [Finset.mem_filter, Finset.mem_range] at hj
    exact (slice_cell lv M hM L d hd hg h2 k hk j hj.1 s hs).1

/-! ### bounds on the tail over an interval -/

theorem qFunc_sub_integral {a b : ℝ} (h : a ≤ b) : qFunc a - qFunc b = ∫ x in Ioo a b, gaussianPDFReal 0 1 x := by
  rw [← gauss_Ioo h, measureReal_def, gaussianReal_apply_eq_integral 0 one_ne_zero, ENNReal.toReal_ofReal]
  exact setIntegral_nonneg measurableSet_Ioo fun x _ => gaussianPDFReal_nonneg 0 1 x

theorem pdf_eq (x : ℝ) : gaussianPDFReal 0 1 x = (Real.sqrt (2 * Real.pi))⁻¹ * Real.exp (-(x ^ 2 / 2)) := by
  simp only [gaussianPDFReal, NNReal.coe_one, mul_one, sub_zero, neg_div]

theorem pdf_pos (x : ℝ) : 0 < gaussianPDFReal 0 1 x := gaussianPDFReal_pos 0 1 x one_ne_zero

theorem pdf_anti {x y : ℝ} (h0 : 0 ≤ x) (h : x ≤ y) : gaussianPDFReal 0 1 y ≤ gaussianPDFReal 0 1 x := by
  rw [pdf_eq, pdf_eq]
  refine mul_le_mul_of_nonneg_left (Real.exp_le_exp.2 ?_) (by positivity)
  nlinarith

theorem qFunc_sub_le {a b : ℝ} (h0 : 0 ≤ a) (h : a ≤ b) : qFunc a - qFunc b ≤ (b - a) * gaussianPDFReal 0 1 a := by
  rw [qFunc_sub_integral h]
  refine (setIntegral_mono_on (integrable_gaussianPDFReal 0 1).integrableOn (integrableOn_const (by simp)) measurableSet_Ioo
    (fun x hx => pdf_anti h0 hx.1.le)).trans (le_of_eq ?_)
  rw [setIntegral_const, smul_eq_mul, measureReal_def, Real.volume_Ioo, ENNReal.toReal_ofReal (by linarith)]

theorem qFunc_sub_ge {a b : ℝ} (h0 : 0 ≤ a) (h : a ≤ b) : (b - a) * gaussianPDFReal 0 1 b ≤ qFunc a - qFunc b := by
  rw [qFunc_sub_integral h]
  refine (le_of_eq ?_).trans (setIntegral_mono_on (integrableOn_const (by simp)) (integrable_gaussianPDFReal 0 1).integrableOn measurableSet_Ioo
    (fun x hx => pdf_anti (h0.trans hx.1.le) hx.2.le))
  rw [setIntegral_const, smul_eq_mul, measureReal_def, Real.volume_Ioo, ENNReal.toReal_ofReal (by linarith)]

/-- for little noise the first tail difference dominates -/
theorem qFunc_high {t : ℝ} (h : 3 / 4 ≤ t) : 2 * (qFunc (3 * t) - qFunc (5 * t)) < qFunc t - qFunc (3 * t) := by
  have h1 := qFunc_sub_ge (a := t) (b := 2 * t) (by linarith) (by linarith)
  have h2 := qFunc_strictAnti (a := 2 * t) (b := 3 * t) (by linarith)
  have h3 := qFunc_sub_le (a := 3 * t) (b := 5 * t) (by linarith) (by linarith)
  have h4 : 4 * gaussianPDFReal 0 1 (3 * t) ≤ gaussianPDFReal 0 1 (2 * t) := by
    rw [pdf_eq, pdf_eq]
    have e : Real.exp (-((2 * t) ^ 2 / 2)) = Real.exp (5 / 2 * t ^ 2) * Real.exp (-((3 * t) ^ 2 / 2)) := by
      rw [← Real.exp_add]; congr 1; ring
    have h5 : 4 ≤ Real.exp (5 / 2 * t ^ 2) := by
      have h6 : (45 : ℝ) / 32 ≤ 5 / 2 * t ^ 2 := by nlinarith
      have h7 : (4 : ℝ) ≤ Real.exp (45 / 32) := by
        have h8 : (45 : ℝ) / 32 = 45 / 64 + 45 / 64 := by norm_num
        have h9 : (2 : ℝ) ≤ Real.exp (45 / 64) := by
          have h11 := Real.quadratic_le_exp_of_nonneg (x := 45 / 256) (by norm_num)
          have h10 : Real.exp (45 / 64) = (Real.exp (45 / 256) * Real.exp (45 / 256)) * (Real.exp (45 / 256) * Real.exp (45 / 256)) := by
            rw [← Real.exp_add, ← Real.exp_add]; norm_num
          have h12 : 1.418 ≤ Real.exp (45 / 256) * Real.exp (45 / 256) := by
            have : 1.191 ≤ Real.exp (45 / 256) := by refine le_trans ?_ h11; norm_num
            nlinarith
          rw [h10]; nlinarith
        rw [h8, Real.exp_add]; nlinarith
      exact h7.trans (Real.exp_le_exp.2 h6)
    rw [e]
    have h7 : 0 < (Real.sqrt (2 * Real.pi))⁻¹ * Real.exp (-((3 * t) ^ 2 / 2)) := by positivity
    nlinarith
  nlinarith [pdf_pos (3 * t)]

/-- for much noise it does not -/
theorem qFunc_low {t : ℝ} (h0 : 0 < t) (h : t ≤ 1 / 5) : qFunc t - qFunc (3 * t) < 2 * (qFunc (3 * t) - qFunc (5 * t)) := by
  have h1 := qFunc_sub_le (a := t) (b := 3 * t) h0.le (by linarith)
  have h3 := qFunc_sub_ge (a := 3 * t) (b := 5 * t) (by linarith) (by linarith)
  have h4 : gaussianPDFReal 0 1 t < 2 * gaussianPDFReal 0 1 (5 * t) := by
    rw [pdf_eq, pdf_eq]
    have e : Real.exp (-(t ^ 2 / 2)) = Real.exp (12 * t ^ 2) * Real.exp (-((5 * t) ^ 2 / 2)) := by
      rw [← Real.exp_add]; congr 1; ring
    have h5 : Real.exp (12 * t ^ 2) < 2 := by
      have h6 : 12 * t ^ 2 ≤ 12 / 25 := by nlinarith
      refine (Real.exp_le_exp.2 h6).trans_lt ?_
      have h7 : Real.exp (12 / 25) * Real.exp (-(12 / 25)) = 1 := by rw [← Real.exp_add]; norm_num
      have h8 := Real.add_one_le_exp (-(12 / 25 : ℝ))
      have h9 := Real.exp_pos (12 / 25)
      nlinarith
    rw [e]
    have h7 : 0 < (Real.sqrt (2 * Real.pi))⁻¹ * Real.exp (-((5 * t) ^ 2 / 2)) := by positivity
    nlinarith
  nlinarith

end Verif
