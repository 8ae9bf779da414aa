import Verif.Model.Mapping
import Verif.Lemmas.ListAux
import Mathlib.Tactic.Linarith
import Mathlib.Tactic.NormNum
import Mathlib.Tactic.FieldSimp
import Mathlib.Tactic.Positivity
import Mathlib.Tactic.IntervalCases

/-! Lemmas for get_levels, mapping and demapping. -/

namespace Verif

/-- `np.round` rounds to the nearest integer when it is unique. -/
theorem roundHalfEven_of_abs (x : ℝ) (k : Int) (h : |x - k| < 1 / 2) : roundHalfEven x = k := by
  rw [abs_lt] at h
  obtain ⟨h1, h2⟩ := h
  unfold roundHalfEven
  simp only []
  have hf1 := Int.floor_le x
  have hf2 := Int.lt_floor_add_one x
  rcases le_or_gt (k:ℝ) x with hk | hk
  · have hfl : ⌊x⌋ = k := by
      rw [Int.floor_eq_iff]; constructor <;> linarith
    rw [hfl, if_pos (by linarith)]
  · have hfl : ⌊x⌋ = k - 1 := by
      rw [Int.floor_eq_iff]; push_cast; constructor <;> linarith
    rw [hfl]
    push_cast
    rw [if_neg (by linarith), if_pos (by linarith)]
    ring

/-- the levels are the integer levels times a positive gain, which is 1 without `full_scale` and
normalises the mean power to 1 with it -/
theorem getLevels_eq (c : Constellation) (fs : Bool) :
    ∃ g : ℝ, 0 < g ∧ getLevels c fs = (intLevels c).map (fun (z : Int) => (z:ℝ) * g) ∧
      (fs = false → g = 1) ∧
      (fs = true → (((getLevels c fs).map (fun l : ℝ => (l ^ 2 : ℝ))).sum / (getLevels c fs).length = 1)) := by
  cases fs with
  | false => refine ⟨1, one_pos, by simp [getLevels], by simp, by simp⟩
  | true =>
    have hpos : (0:ℝ) < (((intLevels c).map (fun (z : Int) => (z:ℝ))).map (fun l : ℝ => (l ^ 2 : ℝ))).sum /
        ((intLevels c).map (fun (z : Int) => (z:ℝ))).length := by
      cases c <;> simp [intLevels] <;> norm_num
    have hl : 0 < ((intLevels c).length : ℝ) := by cases c <;> simp [intLevels]
    refine ⟨1 / Real.sqrt ((((intLevels c).map (fun (z : Int) => (z:ℝ))).map (fun l : ℝ => (l ^ 2 : ℝ))).sum /
        ((intLevels c).map (fun (z : Int) => (z:ℝ))).length), ?_, ?_, by simp, ?_⟩
    · exact one_div_pos.2 (Real.sqrt_pos.2 hpos)
    · simp only [getLevels, if_true, List.map_map]
      apply List.map_congr_left
      intro z _
      simp only [Function.comp_apply]
      ring
    · intro _
      simp only [getLevels, if_true]
      set P := (((intLevels c).map (fun (z : Int) => (z:ℝ))).map (fun l : ℝ => (l ^ 2 : ℝ))).sum /
        ((intLevels c).map (fun (z : Int) => (z:ℝ))).length with hP
      have e : (((intLevels c).map (fun (z : Int) => (z:ℝ))).map (fun l => l / Real.sqrt P)).map
          (fun l : ℝ => (l ^ 2 : ℝ)) = (((intLevels c).map (fun (z : Int) => (z:ℝ))).map (fun l : ℝ => (l ^ 2 : ℝ))).map
            (fun v => v * (1 / P)) := by
        simp only [List.map_map]
        apply List.map_congr_left
        intro z _
        simp only [Function.comp_apply]
        rw [div_pow, Real.sq_sqrt hpos.le]; ring
      rw [e, List.sum_map_mul_right]
      simp only [List.length_map, List.map_id']
      rw [hP]
      simp only [List.length_map]
      rw [hP] at hpos
      simp only [List.length_map] at hpos
      have h1 : (List.map (fun l : ℝ => (l ^ 2 : ℝ)) (List.map (fun (z : Int) => (z:ℝ)) (intLevels c))).sum ≠ 0 := by
        intro h0; rw [h0] at hpos; simp at hpos
      field_simp

/-- number of levels -/
theorem getLevels_length (c : Constellation) (fs : Bool) :
    (getLevels c fs).length = (intLevels c).length := by
  obtain ⟨g, _, h, _⟩ := getLevels_eq c fs
  rw [h, List.length_map]

theorem foldl_min_le (a : ℝ) (l : List ℝ) (h : ∀ x ∈ l, a ≤ x) : l.foldl min a = a := by
  induction l with
  | nil => rfl
  | cons x t ih =>
    rw [List.foldl_cons, min_eq_left (h x (by simp))]
    exact ih (fun y hy => h y (by simp [hy]))

/-- samples strictly within half a spacing of level `i` get index `i` -/
theorem demapIdx_near (c : Constellation) (fs : Bool) (i : ℕ) (l : ℝ)
    (hl : (getLevels c fs)[i]? = some l) (s : ℝ)
    (h : |s - l| < ((getLevels c fs).getD 1 0 - (getLevels c fs).getD 0 0) / 2) :
    demapIdx (getLevels c fs) s = i := by
  obtain ⟨g, hg, e, _⟩ := getLevels_eq c fs
  rw [e] at hl h ⊢
  have hi : i < (intLevels c).length := by
    by_contra hc
    rw [List.getElem?_eq_none (by rw [List.length_map]; omega)] at hl
    simp at hl
  unfold demapIdx
  rw [foldl_min_le _ _ (by
    intro x hx
    cases c <;> simp [intLevels] at hx ⊢ <;> rcases hx with rfl | rfl | rfl | rfl <;> linarith)]
  apply roundHalfEven_of_abs
  rw [abs_lt] at h ⊢
  cases c <;>
    (simp only [intLevels, List.map_cons, List.map_nil, List.length_cons, List.length_nil,
      List.getD_cons_zero, List.getD_cons_succ] at h hl hi ⊢) <;>
    interval_cases i <;>
    simp only [List.getElem?_cons_zero, List.getElem?_cons_succ, Option.some.injEq] at hl <;>
    subst hl <;> push_cast at h ⊢ <;>
    (constructor
     · rw [lt_sub_iff_add_lt, lt_div_iff₀ (by linarith)]; linarith [h.1]
     · rw [sub_lt_iff_lt_add, div_lt_iff₀ (by linarith)]; linarith [h.2])

theorem npGet_large {α : Type} (l : List α) (n : ℕ) (h : l.length ≤ n) :
    npGet l (n : Int) = .error .indexError := by
  simp [npGet, h]

/-- NumPy indexing at a valid symbol -/
theorem npGet_valid {α : Type} (l : List α) (d : α) (x : Int) (h0 : 0 ≤ x) (h1 : x < l.length) :
    npGet l x = .ok (l.getD x.toNat d) := by
  obtain ⟨n, rfl⟩ := Int.eq_ofNat_of_zero_le h0
  have hn : n < l.length := by exact_mod_cast h1
  rw [npGet_nat l n hn]
  simp [hn]

/-- NumPy indexing of `arange` -/
theorem npGet_arange (m n : ℕ) (h : n < m) :
    npGet ((List.range m).map (fun (i : Nat) => (i : Int))) (n : Int) = .ok (n : Int) := by
  rw [npGet_nat _ n (by simpa using h)]
  simp

end Verif
