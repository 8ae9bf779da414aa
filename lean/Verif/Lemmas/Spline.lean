import Verif.Spec.Spline
import Verif.Spec.Jitter
import Mathlib.Analysis.Calculus.Deriv.Polynomial
import Mathlib.Analysis.Calculus.Deriv.Pow
import Mathlib.Analysis.Calculus.ContDiff.Basic
import Mathlib.Analysis.Calculus.ContDiff.Operations
import Mathlib.Analysis.Calculus.ContDiff.Polynomial
import Mathlib.Analysis.Calculus.IteratedDeriv.Lemmas
import Mathlib.LinearAlgebra.FiniteDimensional.Basic
import Mathlib.Algebra.Polynomial.BigOperators
import Mathlib.Algebra.Polynomial.Roots
import Mathlib.Analysis.Calculus.Deriv.Slope
import Mathlib.Tactic.Linarith
import Mathlib.Tactic.FieldSimp
import Mathlib.Tactic.LinearCombination

/-! Existence and uniqueness of the cubic not-a-knot spline. -/

namespace Verif
open Spec Polynomial

theorem cubic_form (q : ℝ[X]) (hq : q.natDegree ≤ 3) :
    ∃ a b c d : ℝ, q = C a + C b * X + C c * X ^ 2 + C d * X ^ 3 := by
  refine ⟨q.coeff 0, q.coeff 1, q.coeff 2, q.coeff 3, ?_⟩
  conv_lhs => rw [q.as_sum_range_C_mul_X_pow' (show q.natDegree < 4 by omega)]
  simp [Finset.sum_range_succ]

/-- a function that equals a polynomial on an interval has its derivative there -/
theorem agree_deriv (f : ℝ → ℝ) (hf : Differentiable ℝ f) (q : ℝ[X]) (a b : ℝ) (hab : a < b)
    (h : ∀ x ∈ Set.Icc a b, f x = q.eval x) : ∀ x ∈ Set.Icc a b, deriv f x = q.derivative.eval x := by
  intro x hx
  have h1 : HasDerivWithinAt f (deriv f x) (Set.Icc a b) x := (hf x).hasDerivAt.hasDerivWithinAt
  have h2 : HasDerivWithinAt f (q.derivative.eval x) (Set.Icc a b) x :=
    ((q.hasDerivAt x).hasDerivWithinAt).congr h (h x hx)
  exact (uniqueDiffOn_Icc hab x hx).eq_deriv _ h1 h2

/-- values and derivatives of a twice differentiable function that is a cubic between `a` and `b` and vanishes at both -/
theorem cubic_piece (f : ℝ → ℝ) (hf : ContDiff ℝ 2 f) (q : ℝ[X]) (hq : q.natDegree ≤ 3) (a b : ℝ) (hab : a < b)
    (h : ∀ x ∈ Set.Icc a b, f x = q.eval x) (u v : ℝ) (hu : u ∈ Set.Icc a b) (hv : v ∈ Set.Icc a b) (huv : u < v)
    (fu : f u = 0) (fv : f v = 0) :
    deriv f u = -((v - u) / 6 * (2 * deriv (deriv f) u + deriv (deriv f) v)) ∧
    deriv f v = (v - u) / 6 * (deriv (deriv f) u + 2 * deriv (deriv f) v) ∧
    (deriv (deriv f) u = 0 → deriv (deriv f) v = 0 → q = 0) := by
  have hd1 : Differentiable ℝ f := hf.differentiable (by norm_num)
  have hd2 : Differentiable ℝ (deriv f) := by
    have : ContDiff ℝ 1 (deriv f) := ((contDiff_succ_iff_deriv (n := 1)).1 (by rw [one_add_one_eq_two]; exact hf)).2.2
    exact this.differentiable (by norm_num)
  have h1 := agree_deriv f hd1 q a b hab h
  have h2 := agree_deriv (deriv f) hd2 q.derivative a b hab h1
  have hlen : 0 < v - u := by linarith
  obtain ⟨p0, p1, p2, p3, rfl⟩ := cubic_form q hq
  have e1 := h u hu
  have e2 := h v hv
  rw [fu] at e1
  rw [fv] at e2
  rw [h1 u hu, h1 v hv, h2 u hu, h2 v hv]
  simp at e1 e2 ⊢
  have key : p1 + p2 * (u + v) + p3 * (u ^ 2 + u * v + v ^ 2) = 0 := by
    have : (p1 + p2 * (u + v) + p3 * (u ^ 2 + u * v + v ^ 2)) * (v - u) = 0 := by linear_combination e1 - e2
    rcases mul_eq_zero.1 this with h | h
    · exact h
    · exact absurd h hlen.ne'
  refine ⟨by linear_combination key, by linear_combination key, fun a1 a2 => ?_⟩
  have h3 : p3 = 0 := by
    have : p3 * (v - u) = 0 := by linear_combination (a2 - a1) / 6
    rcases mul_eq_zero.1 this with h | h
    · exact h
    · exact absurd h hlen.ne'
  have h2' : p2 = 0 := by rw [h3] at a1; linarith
  have h1' : p1 = 0 := by rw [h3, h2'] at key; linarith
  have h0' : p0 = 0 := by rw [h3, h2', h1'] at e1; linarith
  rw [h0', h1', h2', h3]
  simp

/-- the second derivative of a cubic is linear -/
theorem cubic_linear (f : ℝ → ℝ) (hf : ContDiff ℝ 2 f) (q : ℝ[X]) (hq : q.natDegree ≤ 3) (a b : ℝ) (hab : a < b)
    (h : ∀ x ∈ Set.Icc a b, f x = q.eval x) (u v w : ℝ) (hu : u ∈ Set.Icc a b) (hv : v ∈ Set.Icc a b)
    (hw : w ∈ Set.Icc a b) :
    (deriv (deriv f) v - deriv (deriv f) u) * (w - v) = (deriv (deriv f) w - deriv (deriv f) v) * (v - u) := by
  have hd1 : Differentiable ℝ f := hf.differentiable (by norm_num)
  have hd2 : Differentiable ℝ (deriv f) := by
    have : ContDiff ℝ 1 (deriv f) := ((contDiff_succ_iff_deriv (n := 1)).1 (by rw [one_add_one_eq_two]; exact hf)).2.2
    exact this.differentiable (by norm_num)
  have h1 := agree_deriv f hd1 q a b hab h
  have h2 := agree_deriv (deriv f) hd2 q.derivative a b hab h1
  obtain ⟨p0, p1, p2, p3, rfl⟩ := cubic_form q hq
  rw [h2 u hu, h2 v hv, h2 w hw]
  simp
  ring

theorem dominant_mid (h k a b c : ℝ) (hh : 0 < h) (hk : 0 < k) (ha : |a| ≤ |b|) (hc : |c| ≤ |b|)
    (e : h * (a + 2 * b) + k * (2 * b + c) = 0) : b = 0 := by
  rcases le_total 0 b with hb | hb
  · rw [abs_of_nonneg hb, abs_le] at ha hc
    nlinarith
  · rw [abs_of_nonpos hb, abs_le] at ha hc
    nlinarith

theorem dominant_end (h k a b c : ℝ) (hh : 0 < h) (hk : 0 < k) (hc : |c| ≤ |b|)
    (e : h * (a + 2 * b) + k * (2 * b + c) = 0) (e' : (b - a) * k = (c - b) * h) : b = 0 := by
  have e2 : b * (3 * h * k + h ^ 2 + 2 * k ^ 2) = c * (h ^ 2 - k ^ 2) := by linear_combination k * e + h * e'
  have hhk := mul_pos hh hk
  have hk2 : 0 < k ^ 2 := by positivity
  have hh2 : 0 < h ^ 2 := by positivity
  have hs : 0 < 3 * h * k + k ^ 2 := by nlinarith
  rcases le_total 0 b with hb | hb
  · rw [abs_of_nonneg hb, abs_le] at hc
    have h1 : c * (h ^ 2 - k ^ 2) ≤ b * (h ^ 2 + k ^ 2) := by nlinarith
    have h2 : b * (3 * h * k + k ^ 2) ≤ 0 := by nlinarith
    by_contra hne
    have : 0 < b := lt_of_le_of_ne hb (Ne.symm hne)
    have := mul_pos this hs
    linarith
  · rw [abs_of_nonpos hb, abs_le] at hc
    have h1 : b * (h ^ 2 + k ^ 2) ≤ c * (h ^ 2 - k ^ 2) := by nlinarith
    have h2 : 0 ≤ b * (3 * h * k + k ^ 2) := by nlinarith
    by_contra hne
    have : b < 0 := lt_of_le_of_ne hb hne
    have := mul_neg_of_neg_of_pos this hs
    linarith

/-- a not-a-knot spline through zeros is zero -/
theorem spline_zero (t y : List ℝ) (ht : t.Pairwise (· < ·)) (hn : 4 ≤ t.length) (f : ℝ → ℝ) (hf : IsNotAKnot t y f)
    (hy : ∀ i < t.length, y.getD i 0 = 0) : ∀ x, f x = 0 := by
  set n := t.length with hnd
  set T : ℕ → ℝ := fun i => t.getD i 0 with hT
  have hmono : ∀ i j, i < j → j < n → T i < T j := by
    intro i j hij hj
    have := List.pairwise_iff_getElem.1 ht i j (by omega) hj hij
    simp only [hT]
    rw [List.getD_eq_getElem?_getD, List.getD_eq_getElem?_getD, List.getElem?_eq_getElem (by omega),
      List.getElem?_eq_getElem (by omega)]
    exact this
  have hmono' : ∀ i j, i ≤ j → j < n → T i ≤ T j := by
    intro i j hij hj
    rcases Nat.eq_or_lt_of_le hij with rfl | h
    · exact le_rfl
    · exact (hmono i j h hj).le
  have hz : ∀ i, i < n → f (T i) = 0 := fun i hi => by
    have := hf.nodes i hi
    rw [hy i hi] at this
    exact this
  set M : ℕ → ℝ := fun i => deriv (deriv f) (T i) with hM
  -- pieces between neighbouring nodes, at the start and at the end
  have hmid : ∀ i, i + 1 < n → ∃ q : ℝ[X], q.natDegree ≤ 3 ∧ ∀ x ∈ Set.Icc (T i) (T (i + 1)), f x = q.eval x := by
    intro i hi
    refine hf.pieces _ _ (hmono i (i + 1) (by omega) hi) fun j _ hj ⟨a1, a2⟩ => ?_
    rcases Nat.lt_or_ge i j with h | h
    · have := hmono' (i + 1) j (by omega) (by omega)
      simp only [hT] at this
      linarith
    · have := hmono' j i h (by omega)
      simp only [hT] at this
      linarith
  have hstart : ∀ a, a ≤ T 0 → ∃ q : ℝ[X], q.natDegree ≤ 3 ∧ ∀ x ∈ Set.Icc a (T 2), f x = q.eval x := by
    intro a ha
    have h02 := hmono 0 2 (by omega) (by omega)
    refine hf.pieces _ _ (by linarith) fun j hj2 hj ⟨a1, a2⟩ => ?_
    have := hmono' 2 j hj2 (by omega)
    simp only [hT] at this
    linarith
  have hend : ∀ b, T (n - 1) ≤ b → ∃ q : ℝ[X], q.natDegree ≤ 3 ∧ ∀ x ∈ Set.Icc (T (n - 3)) b, f x = q.eval x := by
    intro b hb
    have h02 := hmono (n - 3) (n - 1) (by omega) (by omega)
    refine hf.pieces _ _ (by linarith) fun j hj2 hj ⟨a1, a2⟩ => ?_
    have := hmono' j (n - 3) (by omega) (by omega)
    simp only [hT] at this
    linarith
  -- the equations of the second derivatives
  have hrow : ∀ i, 1 ≤ i → i + 1 < n →
      (T i - T (i - 1)) * (M (i - 1) + 2 * M i) + (T (i + 1) - T i) * (2 * M i + M (i + 1)) = 0 := by
    intro i h1 h2
    obtain ⟨q, hq, hqe⟩ := hmid (i - 1) (by omega)
    rw [Nat.sub_add_cancel h1] at hqe
    obtain ⟨r, hr, hre⟩ := hmid i h2
    have l1 := hmono (i - 1) i (by omega) (by omega)
    have l2 := hmono i (i + 1) (by omega) h2
    have e1 := (cubic_piece f hf.smooth q hq _ _ l1 hqe (T (i - 1)) (T i) ⟨le_rfl, l1.le⟩ ⟨l1.le, le_rfl⟩ l1
      (hz _ (by omega)) (hz _ (by omega))).2.1
    have e2 := (cubic_piece f hf.smooth r hr _ _ l2 hre (T i) (T (i + 1)) ⟨le_rfl, l2.le⟩ ⟨l2.le, le_rfl⟩ l2
      (hz _ (by omega)) (hz _ h2)).1
    simp only [hM]
    linear_combination 6 * (e2 - e1)
  have hfirst : (M 1 - M 0) * (T 2 - T 1) = (M 2 - M 1) * (T 1 - T 0) := by
    obtain ⟨q, hq, hqe⟩ := hstart (T 0) le_rfl
    have l1 := hmono 0 1 (by omega) (by omega)
    have l2 := hmono 1 2 (by omega) (by omega)
    exact cubic_linear f hf.smooth q hq _ _ (l1.trans l2) hqe _ _ _ ⟨le_rfl, (l1.trans l2).le⟩ ⟨l1.le, l2.le⟩
      ⟨(l1.trans l2).le, le_rfl⟩
  have hlast : (M (n - 2) - M (n - 3)) * (T (n - 1) - T (n - 2)) = (M (n - 1) - M (n - 2)) * (T (n - 2) - T (n - 3)) := by
    obtain ⟨q, hq, hqe⟩ := hend (T (n - 1)) le_rfl
    have l1 := hmono (n - 3) (n - 2) (by omega) (by omega)
    have l2 := hmono (n - 2) (n - 1) (by omega) (by omega)
    exact cubic_linear f hf.smooth q hq _ _ (l1.trans l2) hqe _ _ _ ⟨le_rfl, (l1.trans l2).le⟩ ⟨l1.le, l2.le⟩
      ⟨(l1.trans l2).le, le_rfl⟩
  -- the largest second derivative vanishes
  obtain ⟨i, hi, hmax⟩ := Finset.exists_max_image (Finset.Icc 1 (n - 2)) (fun i => |M i|)
    ⟨1, Finset.mem_Icc.2 ⟨le_rfl, by omega⟩⟩
  rw [Finset.mem_Icc] at hi
  have hle : ∀ j, 1 ≤ j → j ≤ n - 2 → |M j| ≤ |M i| := fun j h1 h2 => hmax j (Finset.mem_Icc.2 ⟨h1, h2⟩)
  have hMi : |M i| = 0 := by
    rw [abs_eq_zero]
    have r := hrow i hi.1 (by omega)
    have d1 : 0 < T i - T (i - 1) := sub_pos.2 (hmono _ _ (by omega) (by omega))
    have d2 : 0 < T (i + 1) - T i := sub_pos.2 (hmono _ _ (by omega) (by omega))
    rcases Nat.lt_or_ge 1 i with h1 | h1
    · rcases Nat.lt_or_ge i (n - 2) with h2 | h2
      · exact dominant_mid _ _ _ _ _ d1 d2 (hle (i - 1) (by omega) (by omega)) (hle (i + 1) (by omega) (by omega)) r
      · obtain rfl : i = n - 2 := by omega
        rw [show n - 2 - 1 = n - 3 by omega, show n - 2 + 1 = n - 1 by omega] at r
        rw [show n - 2 - 1 = n - 3 by omega] at d1
        rw [show n - 2 + 1 = n - 1 by omega] at d2
        exact dominant_end _ _ (M (n - 1)) _ (M (n - 3)) d2 d1 (hle (n - 3) (by omega) (by omega))
          (by linear_combination r) (by linear_combination hlast)
    · obtain rfl : i = 1 := by omega
      exact dominant_end _ _ (M 0) _ (M 2) d1 d2 (hle 2 (by omega) (by omega)) r hfirst
  have hM0 : ∀ j, 1 ≤ j → j ≤ n - 2 → M j = 0 := by
    intro j h1 h2
    have := hle j h1 h2
    rw [hMi] at this
    exact abs_eq_zero.1 (le_antisymm this (abs_nonneg _))
  have hpiece : ∀ (q : ℝ[X]) (a b : ℝ) (j : ℕ), q.natDegree ≤ 3 → a < b → (∀ x ∈ Set.Icc a b, f x = q.eval x) → 1 ≤ j →
      j + 1 ≤ n - 2 → a ≤ T j → T (j + 1) ≤ b → ∀ x ∈ Set.Icc a b, f x = 0 := by
    intro q a b j hq hab hqe h1 h2 ha hb x hx
    have l1 := hmono j (j + 1) (by omega) (by omega)
    have := (cubic_piece f hf.smooth q hq a b hab hqe (T j) (T (j + 1)) ⟨ha, by linarith⟩ ⟨by linarith, hb⟩ l1
      (hz _ (by omega)) (hz _ (by omega))).2.2 (hM0 j h1 (by omega)) (hM0 (j + 1) (by omega) h2)
    rw [hqe x hx, this, eval_zero]
  have hleft : ∀ j, 2 ≤ j → j ≤ n - 2 → ∀ x, x ≤ T j → f x = 0 := by
    intro j hj
    induction j, hj using Nat.le_induction with
    | base =>
      intro _ x hx
      obtain ⟨q, hq, hqe⟩ := hstart (min x (T 0)) (min_le_right _ _)
      have l1 := hmono 0 1 (by omega) (by omega)
      have l2 := hmono 1 2 (by omega) (by omega)
      have l3 := min_le_right x (T 0)
      exact hpiece q _ _ 1 hq (by linarith) hqe le_rfl (by omega) (by linarith) le_rfl x ⟨min_le_left _ _, hx⟩
    | succ j hj ih =>
      intro hjn x hx
      rcases le_total x (T j) with h | h
      · exact ih (by omega) x h
      · obtain ⟨q, hq, hqe⟩ := hmid j (by omega)
        exact hpiece q _ _ j hq (hmono j (j + 1) (by omega) (by omega)) hqe (by omega) hjn le_rfl le_rfl x ⟨h, hx⟩
  intro x
  rcases le_total x (T (n - 2)) with h | h
  · exact hleft (n - 2) (by omega) le_rfl x h
  · obtain ⟨q, hq, hqe⟩ := hend (max x (T (n - 1))) (le_max_right _ _)
    have l1 := hmono (n - 3) (n - 2) (by omega) (by omega)
    have l2 := hmono (n - 2) (n - 1) (by omega) (by omega)
    have l3 := le_max_right x (T (n - 1))
    refine hpiece q _ _ (n - 3) hq (by linarith) hqe (by omega) (by omega) le_rfl ?_ x ⟨by linarith, le_max_left _ _⟩
    rw [show n - 3 + 1 = n - 2 by omega]
    linarith

/-- linear combinations of splines -/
theorem spline_lin (t y z : List ℝ) (f g : ℝ → ℝ) (hf : IsNotAKnot t y f) (hg : IsNotAKnot t z g) (α β : ℝ) (w : List ℝ)
    (hw : ∀ i < t.length, w.getD i 0 = α * y.getD i 0 + β * z.getD i 0) :
    IsNotAKnot t w (fun x => α * f x + β * g x) := by
  refine ⟨(contDiff_const.mul hf.smooth).add (contDiff_const.mul hg.smooth), fun i hi => ?_, fun a b hab hk => ?_⟩
  · rw [hf.nodes i hi, hg.nodes i hi, hw i hi]
  · obtain ⟨q, hq, hqe⟩ := hf.pieces a b hab hk
    obtain ⟨r, hr, hre⟩ := hg.pieces a b hab hk
    refine ⟨C α * q + C β * r, ?_, fun x hx => ?_⟩
    · refine (natDegree_add_le _ _).trans (max_le ?_ ?_)
      · exact (natDegree_C_mul_le _ _).trans hq
      · exact (natDegree_C_mul_le _ _).trans hr
    · simp only [eval_add, eval_mul, eval_C]
      rw [hqe x hx, hre x hx]

theorem spline_unique (t y : List ℝ) (ht : t.Pairwise (· < ·)) (hn : 4 ≤ t.length) (f g : ℝ → ℝ) (hf : IsNotAKnot t y f)
    (hg : IsNotAKnot t y g) : f = g := by
  have h := spline_lin t y y f g hf hg 1 (-1) (List.replicate t.length 0) (by
    intro i hi
    rw [List.getD_eq_getElem?_getD, List.getElem?_replicate, if_pos hi]
    simp)
  have h0 := spline_zero t _ ht hn _ h (by
    intro i hi
    rw [List.getD_eq_getElem?_getD, List.getElem?_replicate, if_pos hi]
    rfl)
  funext x
  have := h0 x
  linarith

/-! ### Existence -/

/-- the truncated power `(x - a)₊³` -/
noncomputable def cubePlus (a x : ℝ) : ℝ := max (x - a) 0 ^ 3

theorem cubePlus_of_le {a x : ℝ} (h : x ≤ a) : cubePlus a x = 0 := by
  unfold cubePlus
  rw [max_eq_right (by linarith)]
  norm_num

theorem cubePlus_of_ge {a x : ℝ} (h : a ≤ x) : cubePlus a x = (x - a) ^ 3 := by
  unfold cubePlus
  rw [max_eq_left (by linarith)]

theorem hasDerivAt_maxpow (k : ℕ) (a x : ℝ) :
    HasDerivAt (fun x => max (x - a) 0 ^ (k + 2)) ((k + 2 : ℝ) * max (x - a) 0 ^ (k + 1)) x := by
  rcases lt_trichotomy x a with h | h | h
  · have h1 : (fun x => max (x - a) 0 ^ (k + 2)) =ᶠ[nhds x] fun _ => (0 : ℝ) := by
      filter_upwards [Iio_mem_nhds h] with y hy
      rw [max_eq_right (by simp at hy; linarith), zero_pow (by omega)]
    rw [max_eq_right (by linarith), zero_pow (by omega), mul_zero]
    exact (hasDerivAt_const x (0 : ℝ)).congr_of_eventuallyEq h1
  · subst h
    rw [sub_self, max_self, zero_pow (by omega), mul_zero, hasDerivAt_iff_tendsto_slope]
    have h1 : (fun y : ℝ => max (y - x) 0 ^ (k + 1)) =ᶠ[nhdsWithin x {x}ᶜ] slope (fun z => max (z - x) 0 ^ (k + 2)) x := by
      filter_upwards [self_mem_nhdsWithin] with y hy
      have hne : y - x ≠ 0 := sub_ne_zero.2 hy
      rw [slope_def_field, sub_self, max_self, zero_pow (show k + 2 ≠ 0 by omega), sub_zero, eq_div_iff hne]
      rcases le_total y x with h | h
      · rw [max_eq_right (by linarith)]; simp
      · rw [max_eq_left (by linarith)]; ring
    refine Filter.Tendsto.congr' h1 ?_
    have h2 : Continuous (fun y : ℝ => max (y - x) 0 ^ (k + 1)) := by fun_prop
    have h3 := (h2.tendsto x).mono_left (nhdsWithin_le_nhds (s := {x}ᶜ))
    simpa using h3
  · have h1 : (fun x => max (x - a) 0 ^ (k + 2)) =ᶠ[nhds x] fun x => (x - a) ^ (k + 2) := by
      filter_upwards [Ioi_mem_nhds h] with y hy
      rw [max_eq_left (by simp at hy; linarith)]
    rw [max_eq_left (by linarith)]
    have h2 : HasDerivAt (fun x => (x - a) ^ (k + 2)) ((k + 2 : ℝ) * (x - a) ^ (k + 1)) x := by
      have := ((hasDerivAt_id x).sub_const a).fun_pow (k + 2)
      simpa using this
    exact h2.congr_of_eventuallyEq h1

theorem cubePlus_smooth (a : ℝ) : ContDiff ℝ 2 (cubePlus a) := by
  have h1 : ∀ x, HasDerivAt (cubePlus a) (3 * max (x - a) 0 ^ 2) x := by
    intro x
    have := hasDerivAt_maxpow 1 a x
    norm_num at this
    exact this
  have h2 : ∀ x, HasDerivAt (fun x => 3 * max (x - a) 0 ^ 2) (6 * max (x - a) 0) x := by
    intro x
    have := (hasDerivAt_maxpow 0 a x).const_mul 3
    norm_num at this
    rwa [show 3 * (2 * max (x - a) 0) = 6 * max (x - a) 0 by ring] at this
  have d1 : deriv (cubePlus a) = fun x => 3 * max (x - a) 0 ^ 2 := funext fun x => (h1 x).deriv
  have d2 : deriv (fun x => 3 * max (x - a) 0 ^ 2) = fun x => 6 * max (x - a) 0 := funext fun x => (h2 x).deriv
  rw [← one_add_one_eq_two, contDiff_succ_iff_deriv]
  refine ⟨fun x => (h1 x).differentiableAt, by simp, ?_⟩
  rw [d1, contDiff_one_iff_deriv, d2]
  refine ⟨fun x => (h2 x).differentiableAt, ?_⟩
  fun_prop

/-- the functions of the spline space: a cubic plus truncated powers at the knots -/
noncomputable def splineFn (t : List ℝ) (c : Fin t.length → ℝ) (x : ℝ) : ℝ :=
  ∑ k, c k * if (k : ℕ) < 4 then x ^ (k : ℕ) else cubePlus (t.getD (k - 2) 0) x

theorem splineFn_smooth (t : List ℝ) (c : Fin t.length → ℝ) : ContDiff ℝ 2 (splineFn t c) := by
  unfold splineFn
  apply ContDiff.sum
  intro k _
  apply contDiff_const.mul
  split_ifs
  · exact contDiff_id.pow _
  · exact cubePlus_smooth _

theorem splineFn_pieces (t : List ℝ) (c : Fin t.length → ℝ) (a b : ℝ) (_hab : a < b)
    (hk : ∀ i, 2 ≤ i → i + 3 ≤ t.length → t.getD i 0 ∉ Set.Ioo a b) :
    ∃ q : ℝ[X], q.natDegree ≤ 3 ∧ ∀ x ∈ Set.Icc a b, splineFn t c x = q.eval x := by
  have h1 : ∀ k : Fin t.length, ∃ q : ℝ[X], q.natDegree ≤ 3 ∧ ∀ x ∈ Set.Icc a b,
      (c k * if (k : ℕ) < 4 then x ^ (k : ℕ) else cubePlus (t.getD (k - 2) 0) x) = q.eval x := by
    intro k
    have hkl := k.2
    by_cases h : (k : ℕ) < 4
    · refine ⟨C (c k) * X ^ (k : ℕ), (natDegree_C_mul_X_pow_le _ _).trans (by omega), fun x _ => ?_⟩
      rw [if_pos h]
      simp
    · have h2 := hk (k - 2) (by omega) (by omega)
      rw [Set.mem_Ioo, not_and_or, not_lt, not_lt] at h2
      rcases h2 with h2 | h2
      · refine ⟨C (c k) * (X - C (t.getD (k - 2) 0)) ^ 3, ?_, fun x hx => ?_⟩
        · refine (natDegree_C_mul_le _ _).trans ?_
          rw [natDegree_pow, natDegree_X_sub_C]
        · rw [if_neg h, cubePlus_of_ge (by linarith [hx.1])]
          simp
      · refine ⟨0, by simp, fun x hx => ?_⟩
        rw [if_neg h, cubePlus_of_le (by linarith [hx.2])]
        simp
  choose q hq hqe using h1
  refine ⟨∑ k, q k, natDegree_sum_le_of_forall_le _ _ (fun k _ => hq k), fun x hx => ?_⟩
  unfold splineFn
  rw [eval_finsetSum]
  exact Finset.sum_congr rfl fun k _ => hqe k x hx

theorem splineFn_zero (t : List ℝ) (ht : t.Pairwise (· < ·)) (c : Fin t.length → ℝ) (h : ∀ x, splineFn t c x = 0) : c = 0 := by
  have hmono : ∀ i j, i < j → j < t.length → t.getD i 0 < t.getD j 0 := by
    intro i j hij hj
    have := List.pairwise_iff_getElem.1 ht i j (by omega) hj hij
    rw [List.getD_eq_getElem?_getD, List.getD_eq_getElem?_getD, List.getElem?_eq_getElem (by omega),
      List.getElem?_eq_getElem (by omega)]
    exact this
  have hmono' : ∀ i j, i ≤ j → j < t.length → t.getD i 0 ≤ t.getD j 0 := by
    intro i j hij hj
    rcases Nat.eq_or_lt_of_le hij with rfl | h
    · exact le_rfl
    · exact (hmono i j h hj).le
  have hp : (∑ k : Fin t.length, if (k : ℕ) < 4 then C (c k) * X ^ (k : ℕ) else 0 : ℝ[X]) = 0 := by
    apply eq_zero_of_infinite_isRoot
    refine (Set.Iic_infinite (t.getD 2 0)).mono fun x hx => ?_
    show eval x _ = 0
    rw [← h x, eval_finsetSum]
    unfold splineFn
    apply Finset.sum_congr rfl
    intro k _
    split_ifs with hk
    · simp
    · rw [cubePlus_of_le (le_trans hx (hmono' 2 _ (by omega) (by omega)))]
      simp
  have key : ∀ j (hj : j < t.length), c ⟨j, hj⟩ = 0 := by
    intro j
    induction j using Nat.strong_induction_on with
    | _ j ih =>
      intro hj
      by_cases h4 : j < 4
      · have h1 := congrArg (fun p : ℝ[X] => p.coeff j) hp
        simp only [finsetSum_coeff, coeff_zero] at h1
        rw [Finset.sum_eq_single (⟨j, hj⟩ : Fin t.length)] at h1
        · rw [if_pos h4] at h1
          simpa using h1
        · intro k _ hk
          split_ifs
          · rw [coeff_C_mul, coeff_X_pow, if_neg, mul_zero]
            intro he
            exact hk (Fin.ext he.symm)
          · simp
        · intro hh
          exact absurd (Finset.mem_univ _) hh
      · have h1 := h (t.getD (j - 1) 0)
        unfold splineFn at h1
        rw [Finset.sum_eq_single (⟨j, hj⟩ : Fin t.length)] at h1
        · simp only [h4, if_false] at h1
          have l := hmono (j - 2) (j - 1) (by omega) (by omega)
          rw [cubePlus_of_ge l.le] at h1
          rcases mul_eq_zero.1 h1 with h1 | h1
          · exact h1
          · exact absurd h1 (pow_ne_zero _ (by linarith))
        · intro k _ hk
          rcases Nat.lt_or_ge (k : ℕ) j with hlt | hge
          · rw [ih k hlt k.2, zero_mul]
          · have hne : (k : ℕ) ≠ j := fun he => hk (Fin.ext he)
            rw [if_neg (by omega), cubePlus_of_le (hmono' (j - 1) (k - 2) (by omega) (by omega)), mul_zero]
        · intro hh
          exact absurd (Finset.mem_univ _) hh
  funext k
  exact key k k.2

theorem spline_exists (t y : List ℝ) (ht : t.Pairwise (· < ·)) (hn : 4 ≤ t.length) : ∃ f, IsNotAKnot t y f := by
  let E : (Fin t.length → ℝ) →ₗ[ℝ] (Fin t.length → ℝ) :=
    { toFun := fun c i => splineFn t c (t.getD i 0)
      map_add' := by
        intro c d
        funext i
        simp only [splineFn, Pi.add_apply, add_mul, Finset.sum_add_distrib]
      map_smul' := by
        intro r c
        funext i
        simp only [splineFn, Pi.smul_apply, smul_eq_mul, RingHom.id_apply, Finset.mul_sum, mul_assoc] }
  have hinj : Function.Injective E := by
    rw [← LinearMap.ker_eq_bot, LinearMap.ker_eq_bot']
    intro c hc
    apply splineFn_zero t ht c
    apply spline_zero t (List.replicate t.length 0) ht hn _ ⟨splineFn_smooth t c, fun i hi => ?_, splineFn_pieces t c⟩
    · intro i hi
      rw [List.getD_eq_getElem?_getD, List.getElem?_replicate, if_pos hi]
      rfl
    · rw [List.getD_eq_getElem?_getD (l := List.replicate _ _), List.getElem?_replicate, if_pos hi]
      exact congrFun hc ⟨i, hi⟩
  obtain ⟨c, hc⟩ := (LinearMap.injective_iff_surjective.1 hinj) (fun i => y.getD i 0)
  exact ⟨splineFn t c, splineFn_smooth t c, fun i hi => congrFun hc ⟨i, hi⟩, splineFn_pieces t c⟩

end Verif
