import Verif.Model.Slicer
import Verif.Lemmas.Lock
import Mathlib.Algebra.Order.Round
import Mathlib.Tactic.Linarith
import Mathlib.Tactic.Positivity

/-! Lemmas for the slicer and the quantizer. -/

set_option linter.unusedSectionVars false

namespace Verif

variable {K : Type} [Field K] [LinearOrder K] [IsStrictOrderedRing K]

theorem sliceOne_spec (levels : List K) (h : levels ≠ []) (x : K) :
    ∃ i, ∃ hi : i < levels.length, sliceOne levels x = levels[i] ∧
      (∀ l ∈ levels, |x - sliceOne levels x| ≤ |x - l|) ∧
      ∀ j (hj : j < i), |x - sliceOne levels x| < |x - levels[j]'(by omega)| := by
  have hne : levels.map (fun l => |x - l|) ≠ [] := by simpa using h
  have h1 := argmin_lt _ hne
  have h2 := argmin_spec _ hne
  have h3 := argmin_first (levels.map (fun l => |x - l|))
  rw [List.length_map] at h1
  unfold sliceOne
  have he : levels.getD (argmin (levels.map (fun l => |x - l|))) 0
      = levels[argmin (levels.map (fun l => |x - l|))] := by simp [h1]
  rw [he]
  refine ⟨_, h1, rfl, ?_, ?_⟩
  · intro l hl
    have := h2 (|x - l|) (List.mem_map.2 ⟨l, hl, rfl⟩)
    simpa using this
  · intro j hj
    obtain ⟨y, hy, hlt⟩ := h3 j hj (by simp; omega)
    have := h2 y hy
    simp only [List.getElem_map] at this hlt
    exact lt_of_le_of_lt this hlt

theorem sliceOne_mem (levels : List K) (h : levels ≠ []) (x : K) : sliceOne levels x ∈ levels := by
  obtain ⟨i, hi, he, -⟩ := sliceOne_spec levels h x
  rw [he]; exact List.getElem_mem _

theorem sliceOne_le (levels : List K) (h : levels ≠ []) (x : K) :
    ∀ l ∈ levels, |x - sliceOne levels x| ≤ |x - l| := by
  obtain ⟨i, hi, he, h2, -⟩ := sliceOne_spec levels h x
  exact h2

theorem sliceOne_level (levels : List K) (l : K) (hl : l ∈ levels) : sliceOne levels l = l := by
  have h := sliceOne_le levels (List.ne_nil_of_mem hl) l l hl
  rw [sub_self, abs_zero] at h
  have := abs_eq_zero.1 (le_antisymm h (abs_nonneg _))
  linarith [sub_eq_zero.1 this]

theorem sliceOne_mono (levels : List K) (h : levels ≠ []) {x y : K} (hxy : x ≤ y) :
    sliceOne levels x ≤ sliceOne levels y := by
  rcases hxy.lt_or_eq with hlt | rfl
  · by_contra hcon
    push Not at hcon
    have h1 := sliceOne_le levels h x _ (sliceOne_mem levels h y)
    have h2 := sliceOne_le levels h y _ (sliceOne_mem levels h x)
    generalize sliceOne levels x = a at *
    generalize sliceOne levels y = b at *
    rw [abs_sub_comm x a, abs_sub_comm x b] at h1
    -- b < a, a nearest to x, b nearest to y, x < y
    have h1' : (a - x) ^ 2 ≤ (b - x) ^ 2 := sq_le_sq.2 h1
    have h2' : (y - b) ^ 2 ≤ (y - a) ^ 2 := sq_le_sq.2 h2
    have h3 : (a - b) * (a + b - 2 * x) ≤ 0 := by nlinarith
    have h4 : (a - b) * (2 * y - a - b) ≤ 0 := by nlinarith
    have hpos : 0 < a - b := by linarith
    have h5 : a + b - 2 * x ≤ 0 := by
      by_contra hc; push Not at hc
      have := mul_pos hpos hc; linarith
    have h6 : 2 * y - a - b ≤ 0 := by
      by_contra hc; push Not at hc
      have := mul_pos hpos hc; linarith
    linarith
  · exact le_rfl

theorem reshape2_flatten {α : Type} (x : Nat) (r : List (List α)) (h : ∀ l ∈ r, l.length = x) :
    reshape2 r.length x r.flatten = r := by
  induction r with
  | nil => rfl
  | cons a r ih =>
    unfold reshape2 at *
    rw [List.length_cons, List.range_succ_eq_map, List.map_cons, List.map_map]
    have ha := h a (by simp)
    congr 1
    · simp [← ha]
    · rw [← ih (fun l hl => h l (by simp [hl]))]
      simp only [List.length_map, List.length_range]
      apply List.map_congr_left
      intro i _
      simp only [Function.comp, Nat.succ_mul, List.flatten_cons]
      rw [List.drop_append, ha]
      have : a.drop (i * x + x) = [] := by simp [ha]
      rw [this, List.nil_append]
      have e : i * x + x - x = i * x := by omega
      rw [e]
      congr 3
      exact ih (fun l hl => h l (by simp [hl]))

/-- nearest grid point: for levels `lo, lo+1, .., hi` (integers) times a positive step -/
theorem grid_slice (levels : List K) (q : K) (hq : 0 < q) (lo hi : Int) (hlh : lo ≤ hi)
    (hmem : ∀ y, y ∈ levels ↔ ∃ k : Int, lo ≤ k ∧ k ≤ hi ∧ y = k * q) (x : K) :
    (∃ k : Int, lo ≤ k ∧ k ≤ hi ∧ sliceOne levels x = k * q) ∧
    (x ≤ lo * q → sliceOne levels x = lo * q) ∧ (hi * q ≤ x → sliceOne levels x = hi * q) := by
  have hlo : (lo : K) * q ∈ levels := (hmem _).2 ⟨lo, le_rfl, hlh, rfl⟩
  have hhi : (hi : K) * q ∈ levels := (hmem _).2 ⟨hi, hlh, le_rfl, rfl⟩
  have hne : levels ≠ [] := List.ne_nil_of_mem hlo
  obtain ⟨k, hk1, hk2, hk⟩ := (hmem _).1 (sliceOne_mem levels hne x)
  refine ⟨⟨k, hk1, hk2, hk⟩, fun h => ?_, fun h => ?_⟩
  · have := sliceOne_le levels hne x _ hlo
    have h1 : (lo : K) * q ≤ sliceOne levels x := by
      rw [hk]; exact mul_le_mul_of_nonneg_right (by exact_mod_cast hk1) hq.le
    rw [abs_of_nonpos (by linarith), abs_of_nonpos (by linarith)] at this
    linarith
  · have := sliceOne_le levels hne x _ hhi
    have h1 : sliceOne levels x ≤ (hi : K) * q := by
      rw [hk]; exact mul_le_mul_of_nonneg_right (by exact_mod_cast hk2) hq.le
    rw [abs_of_nonneg (by linarith), abs_of_nonneg (by linarith)] at this
    linarith

theorem grid_error [FloorRing K] (levels : List K) (q : K) (hq : 0 < q) (lo hi : Int) (hlh : lo ≤ hi)
    (hmem : ∀ y, y ∈ levels ↔ ∃ k : Int, lo ≤ k ∧ k ≤ hi ∧ y = k * q) (x : K)
    (h1 : lo * q - q / 2 ≤ x) (h2 : x ≤ hi * q + q / 2) : |x - sliceOne levels x| ≤ q / 2 := by
  have hlo : (lo : K) * q ∈ levels := (hmem _).2 ⟨lo, le_rfl, hlh, rfl⟩
  have hhi : (hi : K) * q ∈ levels := (hmem _).2 ⟨hi, hlh, le_rfl, rfl⟩
  have hne : levels ≠ [] := List.ne_nil_of_mem hlo
  by_cases hl : x ≤ lo * q
  · refine (sliceOne_le levels hne x _ hlo).trans ?_
    rw [abs_of_nonpos (by linarith)]; linarith
  by_cases hh : (hi : K) * q ≤ x
  · refine (sliceOne_le levels hne x _ hhi).trans ?_
    rw [abs_of_nonneg (by linarith)]; linarith
  push Not at hl hh
  have hr := abs_sub_round (x / q)
  have hb : |x - (round (x / q) : Int) * q| ≤ q / 2 := by
    have : x - (round (x / q) : Int) * q = (x / q - round (x / q)) * q := by
      field_simp
    rw [this, abs_mul, abs_of_pos hq]
    calc |x / q - round (x / q)| * q ≤ 1 / 2 * q := mul_le_mul_of_nonneg_right hr hq.le
      _ = q / 2 := by ring
  have hxq1 : (lo : K) < x / q := by rw [lt_div_iff₀ hq]; exact hl
  have hxq2 : x / q < hi := by rw [div_lt_iff₀ hq]; exact hh
  have hr1 := abs_le.1 hr
  have hk1 : lo ≤ round (x / q) := by
    have h3 : (lo : K) - 1 < (round (x / q) : Int) := by linarith [hr1.2]
    have : lo - 1 < round (x / q) := by exact_mod_cast h3
    omega
  have hk2 : round (x / q) ≤ hi := by
    have h3 : ((round (x / q) : Int) : K) < hi + 1 := by linarith [hr1.1]
    have : round (x / q) < hi + 1 := by exact_mod_cast h3
    omega
  exact (sliceOne_le levels hne x _ ((hmem _).2 ⟨_, hk1, hk2, rfl⟩)).trans hb

end Verif
