import Verif.Lemmas.GaussTail
import Verif.Lemmas.Ffe
import Verif.Props.Total
import Verif.Props.Noise

/-! Decisions of the slicer and the demapper on the level grid as sets of noise values. -/

open MeasureTheory ProbabilityTheory Set

namespace Verif
open Spec (qFunc gridNeighbours NearestFirst)

local notation "γ" => gaussianReal 0 1

theorem levels_grid (c : Constellation) (fs : Bool) :
    0 < (getLevels c fs).getD 1 0 - (getLevels c fs).getD 0 0 ∧
    ∀ k < numLevels c, (getLevels c fs).getD k 0 = (getLevels c fs).getD 0 0 + k * ((getLevels c fs).getD 1 0 - (getLevels c fs).getD 0 0) := by
  obtain ⟨g, hg, e, -⟩ := getLevels_eq c fs
  obtain ⟨i1, i2, i3, i4, -, -, -, -, i9⟩ := intLevels_facts c
  have hg' : ∀ k < (intLevels c).length, (getLevels c fs).getD k 0 = ((intLevels c).getD k 0 : ℝ) * g := by
    intro k hk
    rw [e, getD_map_zero _ 0 0 _ _ hk]
  have h4 : (1 : ℝ) ≤ levelStep c := by exact_mod_cast i4
  rw [hg' 1 i3, hg' 0 (by omega), i1, i2]
  constructor
  · push_cast; nlinarith
  · intro k hk
    rw [← numLevels_eq] at hk
    rw [hg' k hk, (i9 k hk).1]
    push_cast
    ring

/-- the slicer on an equally spaced grid -/
theorem slice_grid (lv : List ℝ) (M : ℕ) (hM : lv.length = M) (L d : ℝ) (hd : 0 < d) (hg : ∀ j < M, lv.getD j 0 = L + j * d)
    (k : ℕ) (hk : k < M) (e : ℝ) :
    ((k = 0 ∨ -(d / 2) < e) → (k = M - 1 ∨ e < d / 2) → sliceOne lv (lv.getD k 0 + e) = lv.getD k 0) ∧
    (sliceOne lv (lv.getD k 0 + e) = lv.getD k 0 → (k = 0 ∨ -(d / 2) ≤ e) ∧ (k = M - 1 ∨ e ≤ d / 2)) := by
  have hne : lv ≠ [] := by rintro rfl; simp at hM; omega
  obtain ⟨j, hj, hjy, hmin, -⟩ := sliceOne_spec lv hne (lv.getD k 0 + e)
  rw [← List.getD_eq_getElem lv 0 hj] at hjy
  rw [hM] at hj
  have hmem : ∀ i, i < M → lv.getD i 0 ∈ lv := fun i hi => by
    rw [List.getD_eq_getElem lv 0 (by omega)]; exact List.getElem_mem _
  constructor
  · intro h1 h2
    rw [hjy]
    have h3 := hmin _ (hmem k hk)
    rw [hjy, add_sub_cancel_left, hg k hk, hg j hj, show L + k * d + e - (L + j * d) = e - ((j : ℝ) - k) * d by ring] at h3
    rcases Nat.lt_trichotomy j k with h | h | h
    · have he := h1.resolve_left (by omega)
      have hjk : (j : ℝ) - k ≤ -1 := by
        have : (j : ℝ) + 1 ≤ k := by exact_mod_cast h
        linarith
      have h5 : ((j : ℝ) - k) * d ≤ -d := by nlinarith
      have h6 := le_abs_self (e - ((j : ℝ) - k) * d)
      have h7 : |e| < e + d := by rw [abs_lt]; constructor <;> linarith
      linarith
    · rw [h]
    · have he := h2.resolve_left (by omega)
      have hjk : 1 ≤ (j : ℝ) - k := by
        have : (k : ℝ) + 1 ≤ j := by exact_mod_cast h
        linarith
      have h5 : d ≤ ((j : ℝ) - k) * d := by nlinarith
      have h6 := neg_abs_le (e - ((j : ℝ) - k) * d)
      have h7 : |e| < d - e := by rw [abs_lt]; constructor <;> linarith
      linarith
  · intro h
    rw [h, add_sub_cancel_left] at hmin
    constructor
    · by_cases hk0 : k = 0
      · exact Or.inl hk0
      · right
        have h3 := hmin _ (hmem (k - 1) (by omega))
        rw [hg k hk, hg (k - 1) (by omega), Nat.cast_sub (by omega : 1 ≤ k)] at h3
        rw [show L + (k : ℝ) * d + e - (L + ((k : ℝ) - (1 : ℕ)) * d) = e + d by push_cast; ring] at h3
        by_contra hc
        rw [not_le] at hc
        have h4 := neg_abs_le e
        have h5 : |e + d| < -e := by rw [abs_lt]; constructor <;> linarith
        have h6 : -e ≤ |e| := neg_le_abs e
        linarith
    · by_cases hk0 : k = M - 1
      · exact Or.inl hk0
      · right
        have h3 := hmin _ (hmem (k + 1) (by omega))
        rw [hg k hk, hg (k + 1) (by omega)] at h3
        rw [show L + (k : ℝ) * d + e - (L + ((k + 1 : ℕ) : ℝ) * d) = e - d by push_cast; ring] at h3
        by_contra hc
        rw [not_le] at hc
        have h5 : |e - d| < e := by rw [abs_lt]; constructor <;> linarith
        have h6 : e ≤ |e| := le_abs_self e
        linarith

/-- probability of the right and of a wrong decision of the slicer -/
theorem slice_prob (lv : List ℝ) (M : ℕ) (hM : lv.length = M) (L d : ℝ) (hd : 0 < d) (hg : ∀ j < M, lv.getD j 0 = L + j * d)
    (h2 : 2 ≤ M) (k : ℕ) (hk : k < M) (s : ℝ) (hs : 0 < s) :
    (γ).real {z | sliceOne lv (lv.getD k 0 + s * z) = lv.getD k 0} = 1 - gridNeighbours M k * qFunc (d / (2 * s)) ∧
    (γ).real {z | sliceOne lv (lv.getD k 0 + s * z) = lv.getD k 0}ᶜ = gridNeighbours M k * qFunc (d / (2 * s)) := by
  obtain ⟨t, ht⟩ : ∃ t, t = d / (2 * s) := ⟨_, rfl⟩
  rw [← ht]
  have htp : 0 < t := by rw [ht]; positivity
  have hst : s * t = d / 2 := by rw [ht]; field_simp
  have e1 : ∀ z, z < t ↔ s * z < d / 2 := fun z => by rw [← hst]; exact (mul_lt_mul_iff_right₀ hs).symm
  have e2 : ∀ z, -t < z ↔ -(d / 2) < s * z := fun z => by rw [← hst, ← mul_neg]; exact (mul_lt_mul_iff_right₀ hs).symm
  have e3 : ∀ z, z ≤ t ↔ s * z ≤ d / 2 := fun z => by rw [← hst]; exact (mul_le_mul_iff_right₀ hs).symm
  have e4 : ∀ z, -t ≤ z ↔ -(d / 2) ≤ s * z := fun z => by rw [← hst, ← mul_neg]; exact (mul_le_mul_iff_right₀ hs).symm
  have hB := fun z => slice_grid lv M hM L d hd hg k hk (s * z)
  obtain ⟨B, hBdef⟩ : ∃ B, B = {z | sliceOne lv (lv.getD k 0 + s * z) = lv.getD k 0} := ⟨_, rfl⟩
  have hmem : ∀ z, z ∈ B ↔ sliceOne lv (lv.getD k 0 + s * z) = lv.getD k 0 := fun z => by rw [hBdef]; rfl
  rw [← hBdef]
  by_cases h0 : k = 0
  · have hlast : ¬ (k = M - 1) := by omega
    have hn : gridNeighbours M k = 1 := by
      rw [gridNeighbours, if_pos (by exact_mod_cast h0), if_neg (by omega)]
    have b1 : Iio t ⊆ B := fun z hz => (hmem z).2 ((hB z).1 (Or.inl h0) (Or.inr ((e1 z).1 hz)))
    have b2 : B ⊆ Iic t := fun z hz => (e3 z).2 (((hB z).2 ((hmem z).1 hz)).2.resolve_left hlast)
    have h := gauss_compl_above b1 b2
    rw [gauss_below_compl b1 b2, h, hn]
    constructor <;> push_cast <;> ring
  · by_cases hlast : k = M - 1
    · have hn : gridNeighbours M k = 1 := by
        rw [gridNeighbours, if_neg (by exact_mod_cast h0), if_pos (by omega)]
      have b1 : Ioi (-t) ⊆ B := fun z hz => (hmem z).2 ((hB z).1 (Or.inr ((e2 z).1 hz)) (Or.inl hlast))
      have b2 : B ⊆ Ici (-t) := fun z hz => (e4 z).2 (((hB z).2 ((hmem z).1 hz)).1.resolve_left h0)
      have h := gauss_above b1 b2
      rw [qFunc_neg] at h
      rw [gauss_above_compl b1 b2, h, hn]
      constructor <;> push_cast <;> ring
    · have hn : gridNeighbours M k = 2 := by
        rw [gridNeighbours, if_neg (by exact_mod_cast h0), if_neg (by omega)]
      have b1 : Ioo (-t) t ⊆ B := fun z hz => (hmem z).2 ((hB z).1 (Or.inr ((e2 z).1 hz.1)) (Or.inr ((e1 z).1 hz.2)))
      have b2 : B ⊆ Icc (-t) t := fun z hz => ⟨(e4 z).2 (((hB z).2 ((hmem z).1 hz)).1.resolve_left h0),
        (e3 z).2 (((hB z).2 ((hmem z).1 hz)).2.resolve_left hlast)⟩
      have h := gauss_between (by linarith) b1 b2
      rw [qFunc_neg] at h
      rw [gauss_between_compl b1 b2, h, hn]
      constructor <;> push_cast <;> ring

/-! ### rounding of the position on the grid -/

theorem round_between (x : ℝ) (a b : ℤ) :
    ((a : ℝ) - 1 / 2 < x → x < b + 1 / 2 → a ≤ Spec.roundHalfEven x ∧ Spec.roundHalfEven x ≤ b) ∧
    (a ≤ Spec.roundHalfEven x → Spec.roundHalfEven x ≤ b → (a : ℝ) - 1 / 2 ≤ x ∧ x ≤ b + 1 / 2) := by
  have h := abs_le.1 (roundHalfEven_error x)
  constructor
  · intro h1 h2
    constructor
    · have : (a : ℝ) < Spec.roundHalfEven x + 1 := by linarith [h.1]
      have : a < Spec.roundHalfEven x + 1 := by exact_mod_cast this
      omega
    · have : (Spec.roundHalfEven x : ℝ) < b + 1 := by linarith [h.2]
      have : Spec.roundHalfEven x < b + 1 := by exact_mod_cast this
      omega
  · intro h1 h2
    have h3 : (a : ℝ) ≤ Spec.roundHalfEven x := by exact_mod_cast h1
    have h4 : (Spec.roundHalfEven x : ℝ) ≤ b := by exact_mod_cast h2
    constructor <;> linarith [h.1, h.2]

/-- probability that the rounded position of a noisy symbol lies in `[a, b]` -/
theorem round_prob (t : ℝ) (ht : 0 < t) (k a b : ℤ) (hab : a ≤ b) :
    (γ).real {z | a ≤ Spec.roundHalfEven (k + z / (2 * t)) ∧ Spec.roundHalfEven (k + z / (2 * t)) ≤ b}
      = qFunc ((2 * (a - k) - 1) * t) - qFunc ((2 * (b - k) + 1) * t) := by
  have hab' : (a : ℝ) ≤ b := by exact_mod_cast hab
  have hz : ∀ z : ℝ, z / (2 * t) * (2 * t) = z := fun z => by field_simp
  refine gauss_between (by nlinarith) (fun z hz' => ?_) (fun z hz' => ?_)
  · obtain ⟨h1, h2⟩ := hz'
    refine (round_between _ a b).1 ?_ ?_
    · have : ((a : ℝ) - k - 1 / 2) < z / (2 * t) := by
        rw [lt_div_iff₀ (by positivity)]; linarith
      linarith
    · have : z / (2 * t) < (b : ℝ) - k + 1 / 2 := by
        rw [div_lt_iff₀ (by positivity)]; linarith
      linarith
  · obtain ⟨h1, h2⟩ := (round_between _ a b).2 hz'.1 hz'.2
    constructor
    · have : ((a : ℝ) - k - 1 / 2) ≤ z / (2 * t) := by linarith
      rw [le_div_iff₀ (by positivity)] at this
      linarith
    · have : z / (2 * t) ≤ (b : ℝ) - k + 1 / 2 := by linarith
      rw [div_le_iff₀ (by positivity)] at this
      linarith

end Verif
