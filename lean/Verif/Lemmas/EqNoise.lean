import Verif.Lemmas.LinearLaw
import Verif.Lemmas.ErrorRate
import Verif.Spec.EqNoise

open MeasureTheory ProbabilityTheory Set

namespace Verif
open Spec (qFunc decisionError)

local notation "γ" => gaussianReal 0 1

local instance : NullSingletonClass (gaussianReal 0 1) := nullSingletonClass_gaussianReal one_ne_zero

/-- probability of the right and of a wrong decision of the slicer when the noise-free input is off by `δ` -/
theorem slice_prob_off (lv : List ℝ) (M : ℕ) (hM : lv.length = M) (L d : ℝ) (hd : 0 < d) (hg : ∀ j < M, lv.getD j 0 = L + j * d)
    (h2 : 2 ≤ M) (k : ℕ) (hk : k < M) (δ s : ℝ) (hs : 0 < s) :
    NullMeasurableSet {z | sliceOne lv (lv.getD k 0 + (δ + s * z)) = lv.getD k 0} γ ∧
    (γ).real {z | sliceOne lv (lv.getD k 0 + (δ + s * z)) = lv.getD k 0} = 1 - decisionError M k d δ s ∧
    (γ).real {z | sliceOne lv (lv.getD k 0 + (δ + s * z)) = lv.getD k 0}ᶜ = decisionError M k d δ s := by
  obtain ⟨u, hu⟩ : ∃ u, u = (d / 2 - δ) / s := ⟨_, rfl⟩
  obtain ⟨l, hl⟩ : ∃ l, l = (d / 2 + δ) / s := ⟨_, rfl⟩
  have hsu : s * u = d / 2 - δ := by rw [hu]; field_simp
  have hsl : s * l = d / 2 + δ := by rw [hl]; field_simp
  have hlu : -l < u := by
    have : 0 < s * (u + l) := by rw [mul_add, hsu, hsl]; linarith
    have := (mul_pos_iff_of_pos_left hs).1 this
    linarith
  have e1 : ∀ z, z < u ↔ δ + s * z < d / 2 := fun z => by
    rw [← mul_lt_mul_iff_right₀ hs, hsu]; constructor <;> intro h <;> linarith
  have e2 : ∀ z, -l < z ↔ -(d / 2) < δ + s * z := fun z => by
    rw [← mul_lt_mul_iff_right₀ hs, mul_neg, hsl]; constructor <;> intro h <;> linarith
  have e3 : ∀ z, z ≤ u ↔ δ + s * z ≤ d / 2 := fun z => by
    rw [← mul_le_mul_iff_right₀ hs, hsu]; constructor <;> intro h <;> linarith
  have e4 : ∀ z, -l ≤ z ↔ -(d / 2) ≤ δ + s * z := fun z => by
    rw [← mul_le_mul_iff_right₀ hs, mul_neg, hsl]; constructor <;> intro h <;> linarith
  have hB := fun z => slice_grid lv M hM L d hd hg k hk (δ + s * z)
  obtain ⟨B, hBdef⟩ : ∃ B, B = {z | sliceOne lv (lv.getD k 0 + (δ + s * z)) = lv.getD k 0} := ⟨_, rfl⟩
  have hmem : ∀ z, z ∈ B ↔ sliceOne lv (lv.getD k 0 + (δ + s * z)) = lv.getD k 0 := fun z => by rw [hBdef]; rfl
  have hsand : ∀ A C : Set ℝ, MeasurableSet A → A ⊆ B → B ⊆ C → A =ᵐ[γ] C → NullMeasurableSet B γ := by
    intro A C hA h1 h2 hac
    have : A =ᵐ[γ] B := by
      refine Filter.EventuallyLE.antisymm (LE.le.eventuallyLE h1) ?_
      exact (LE.le.eventuallyLE h2).trans hac.symm.le
    exact hA.nullMeasurableSet.congr this
  rw [← hBdef]
  unfold decisionError
  rw [← hu, ← hl]
  by_cases h0 : k = 0
  · have hlast : ¬ (k = M - 1) := by omega
    rw [if_pos h0, if_neg hlast]
    have b1 : Iio u ⊆ B := fun z hz => (hmem z).2 ((hB z).1 (Or.inl h0) (Or.inr ((e1 z).1 hz)))
    have b2 : B ⊆ Iic u := fun z hz => (e3 z).2 (((hB z).2 ((hmem z).1 hz)).2.resolve_left hlast)
    have h := gauss_compl_above b1 b2
    rw [gauss_below_compl b1 b2, h]
    refine ⟨hsand _ _ measurableSet_Iio b1 b2 Iio_ae_eq_Iic, ?_, ?_⟩ <;> ring
  · rw [if_neg h0]
    by_cases hlast : k = M - 1
    · rw [if_pos hlast]
      have b1 : Ioi (-l) ⊆ B := fun z hz => (hmem z).2 ((hB z).1 (Or.inr ((e2 z).1 hz)) (Or.inl hlast))
      have b2 : B ⊆ Ici (-l) := fun z hz => (e4 z).2 (((hB z).2 ((hmem z).1 hz)).1.resolve_left h0)
      have h := gauss_above b1 b2
      rw [qFunc_neg] at h
      rw [gauss_above_compl b1 b2, h]
      refine ⟨hsand _ _ measurableSet_Ioi b1 b2 Ioi_ae_eq_Ici, ?_, ?_⟩ <;> ring
    · rw [if_neg hlast]
      have b1 : Ioo (-l) u ⊆ B := fun z hz => (hmem z).2 ((hB z).1 (Or.inr ((e2 z).1 hz.1)) (Or.inr ((e1 z).1 hz.2)))
      have b2 : B ⊆ Icc (-l) u := fun z hz => ⟨(e4 z).2 (((hB z).2 ((hmem z).1 hz)).1.resolve_left h0),
        (e3 z).2 (((hB z).2 ((hmem z).1 hz)).2.resolve_left hlast)⟩
      have h := gauss_between hlu.le b1 b2
      rw [qFunc_neg] at h
      rw [gauss_between_compl b1 b2, h]
      refine ⟨hsand _ _ measurableSet_Ioo b1 b2 Ioo_ae_eq_Icc, ?_, ?_⟩ <;> ring

open Finset (range sum_congr) in
/-- the taps that see the record, by tap and by sample -/
theorem taps_by_sample (t : List ℝ) (N n : ℕ) (hn : n < N) (F : ℝ → ℕ → ℝ) (h0 : ∀ m, F 0 m = 0) :
    ∑ m ∈ range N, (if m ≤ n then F (t.getD (n - m) 0) m else 0)
      = ∑ k ∈ range t.length, if k ≤ n then F (t.getD k 0) (n - k) else 0 := by
  have h1 : ∑ m ∈ range N, (if m ≤ n then F (t.getD (n - m) 0) m else 0)
      = ∑ k ∈ range (n + 1), F (t.getD k 0) (n - k) := by
    rw [← Finset.sum_filter, ← Finset.sum_range_reflect]
    have : (range N).filter (fun m => m ≤ n) = range (n + 1) := by
      ext m; simp only [Finset.mem_filter, Finset.mem_range]; omega
    rw [this]
    refine sum_congr rfl fun m hm => ?_
    have := Finset.mem_range.1 hm
    rw [show n + 1 - 1 - m = n - m by omega, show n - (n - m) = m by omega]
  have h2 : ∑ k ∈ range t.length, (if k ≤ n then F (t.getD k 0) (n - k) else 0)
      = ∑ k ∈ range (max t.length (n + 1)), if k ≤ n then F (t.getD k 0) (n - k) else 0 := by
    refine Finset.sum_subset (Finset.range_mono (le_max_left _ _)) fun k _ hk => ?_
    rw [Finset.mem_range, not_lt] at hk
    rw [List.getD_eq_default _ _ hk, h0, ite_self]
  have h3 : ∑ k ∈ range (n + 1), F (t.getD k 0) (n - k)
      = ∑ k ∈ range (max t.length (n + 1)), if k ≤ n then F (t.getD k 0) (n - k) else 0 := by
    rw [← Finset.sum_filter]
    congr 1
    ext k
    simp only [Finset.mem_filter, Finset.mem_range, lt_max_iff]
    omega
  rw [h1, h2, h3]

open Spec (pastSample tapOut tapGain) in
open Finset (range sum_congr) in
/-- the equalized noisy record: the equalized record plus a weighted sum of the noise -/
theorem tapOut_noisy (x y t : List ℝ) (s : ℝ) (z : Fin x.length → ℝ) (hy : ∀ m : Fin x.length, y.getD m 0 = x.getD m 0 + s * z m)
    (n : ℕ) (hn : n < x.length) :
    tapOut y t n = tapOut x t n + ∑ m : Fin x.length, (s * if (m : ℕ) ≤ n then t.getD (n - m) 0 else 0) * z m := by
  obtain ⟨z', hz'⟩ : ∃ z' : ℕ → ℝ, ∀ m : Fin x.length, z' m = z m :=
    ⟨fun m => if h : m < x.length then z ⟨m, h⟩ else 0, fun m => by simp⟩
  have e : ∑ m : Fin x.length, (s * if (m : ℕ) ≤ n then t.getD (n - m) 0 else 0) * z m
      = ∑ m ∈ range x.length, if m ≤ n then s * t.getD (n - m) 0 * z' m else 0 := by
    rw [← Fin.sum_univ_eq_sum_range (fun m => if m ≤ n then s * t.getD (n - m) 0 * z' m else 0)]
    refine sum_congr rfl fun m _ => ?_
    rw [hz' m]
    split <;> ring
  rw [e, taps_by_sample t x.length n hn (fun c m => s * c * z' m) (by simp)]
  unfold tapOut
  rw [← Finset.sum_add_distrib]
  refine sum_congr rfl fun k _ => ?_
  unfold pastSample
  split
  · rename_i hk
    have := hy ⟨n - k, by omega⟩
    rw [← hz'] at this
    simp only at this
    rw [this]
    ring
  · ring

open Spec (tapGain) in
open Finset (range sum_congr) in
theorem tapGain_by_sample (t : List ℝ) (N n : ℕ) (hn : n < N) (s : ℝ) :
    ∑ m : Fin N, (s * if (m : ℕ) ≤ n then t.getD (n - m) 0 else 0) ^ 2 = s ^ 2 * tapGain t n := by
  rw [Fin.sum_univ_eq_sum_range (fun m => (s * if m ≤ n then t.getD (n - m) 0 else 0) ^ 2), tapGain, Finset.mul_sum]
  have := taps_by_sample t N n hn (fun c _ => s ^ 2 * c ^ 2) (by simp)
  simp only [mul_ite, mul_zero]
  rw [← this]
  refine sum_congr rfl fun m _ => ?_
  split <;> ring

end Verif
