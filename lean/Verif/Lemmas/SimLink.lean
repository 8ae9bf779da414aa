import Verif.Model.SimLink
import Verif.Lemmas.Slicer
import Verif.Props.Slicer
import Verif.Props.Mapping

/-! Helper lemmas about the blocks of the example simulation. -/

namespace Verif
open Spec

theorem foldl_max_spec (l : List ℝ) (a : ℝ) : a ≤ l.foldl max a ∧ (∀ x ∈ l, x ≤ l.foldl max a) ∧
    (l.foldl max a = a ∨ l.foldl max a ∈ l) := by
  induction l generalizing a with
  | nil => simp
  | cons b l ih =>
    obtain ⟨h1, h2, h3⟩ := ih (max a b)
    simp only [List.foldl_cons]
    refine ⟨le_trans (le_max_left _ _) h1, ?_, ?_⟩
    · intro x hx
      rcases List.mem_cons.1 hx with rfl | hx
      · exact le_trans (le_max_right _ _) h1
      · exact h2 x hx
    · rcases h3 with h | h
      · rw [h]
        rcases max_choice a b with e | e
        · left; exact e
        · right; rw [e]; exact List.mem_cons_self
      · right; exact List.mem_cons_of_mem _ h

/-- the normaliser of `MappingData` -/
noncomputable def maxAbs (l : List ℝ) : ℝ := (l.map (fun w => |w|)).foldl max 0

theorem abs_le_maxAbs (l : List ℝ) (x : ℝ) (h : x ∈ l) : |x| ≤ maxAbs l :=
  (foldl_max_spec _ 0).2.1 _ (List.mem_map_of_mem h)

theorem maxAbs_pos (l : List ℝ) (h : ∃ x ∈ l, x ≠ 0) : 0 < maxAbs l := by
  obtain ⟨x, hx, h0⟩ := h
  exact lt_of_lt_of_le (abs_pos.2 h0) (abs_le_maxAbs l x hx)

theorem maxAbs_eq (l : List ℝ) (m : ℝ) (h0 : 0 ≤ m) (h1 : ∀ x ∈ l, |x| ≤ m) (h2 : ∃ x ∈ l, |x| = m) : maxAbs l = m := by
  obtain ⟨x, hx, e⟩ := h2
  apply le_antisymm
  · rcases (foldl_max_spec (l.map (fun w => |w|)) 0).2.2 with h | h
    · unfold maxAbs; rw [h]; exact h0
    · obtain ⟨y, hy, e'⟩ := List.mem_map.1 h
      unfold maxAbs; rw [← e']; exact h1 y hy
  · rw [← e]; exact abs_le_maxAbs l x hx

theorem mappingDataLevels_some (c : Constellation) (l : List ℝ) (amp : ℝ) (h : l ≠ []) :
    mappingDataLevels c (some l) amp = .ok (l.map (fun v => v / maxAbs l * amp / 2)) := by
  simp only [mappingDataLevels]
  rw [if_neg (by simpa using h)]
  rfl

theorem receiverLevels_of (l : List ℝ) (amp rx : ℝ) (ha : amp ≠ 0) :
    receiverLevels (l.map (fun v => v / maxAbs l * amp / 2)) amp rx = l.map (fun v => v / maxAbs l * rx) := by
  unfold receiverLevels
  rw [List.map_map]
  apply List.map_congr_left
  intro v _
  simp only [Function.comp]
  field_simp

theorem recoverSymbols_eq (x : List ℝ) (c : Constellation) (lv : List ℝ) (h : lv ≠ []) :
    recoverSymbols x c lv = (demapping (x.map (sliceOne lv)) c false false).1 := by
  unfold recoverSymbols slicer
  simp only [Option.getD_some]
  rw [if_neg (by simpa using h)]
  rfl

theorem levels_spaced (c : Constellation) (a b : ℝ) (ha : a ∈ getLevels c false) (hb : b ∈ getLevels c false)
    (h : |a - b| < (getLevels c false).getD 1 0 - (getLevels c false).getD 0 0) : a = b := by
  cases c <;> simp [getLevels, intLevels] at ha hb h
  all_goals
    rcases ha with rfl | rfl | rfl | rfl <;> rcases hb with rfl | rfl | rfl | rfl <;>
      first | rfl | (exfalso; norm_num [abs_lt] at h)

theorem demapIdx_pam4_inner (s : ℝ) (h : |s| < 2) : demapIdx [-3, -1, 1, 3] s = 1 ∨ demapIdx [-3, -1, 1, 3] s = 2 := by
  rw [abs_lt] at h
  rcases lt_trichotomy s 0 with hs | hs | hs
  · left; apply demapIdx_pam4; rw [abs_lt]; constructor <;> norm_num <;> linarith
  · right
    subst hs
    unfold demapIdx
    rw [foldl_min_le _ _ (by
      intro x hx
      simp at hx ⊢
      rcases hx with rfl | rfl | rfl | rfl <;> norm_num)]
    simp only [List.getD_cons_zero, List.getD_cons_succ]
    unfold roundHalfEven
    have : ⌊((0:ℝ) - -3) / (-1 - -3)⌋ = 1 := by rw [Int.floor_eq_iff]; norm_num
    simp only [this]
    norm_num
  · right; apply demapIdx_pam4; rw [abs_lt]; constructor <;> norm_num <;> linarith

end Verif
