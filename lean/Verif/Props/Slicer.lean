import Verif.Lemmas.Quantize
import Mathlib.Algebra.Order.Field.Rat
import Mathlib.Data.Rat.Floor

/-!
# Slicer and quantizer (C20, C21)

Stated over an arbitrary ordered field `K` (in particular the reals).
-/

set_option linter.unusedSectionVars false

namespace Verif
open Spec

variable {K : Type} [Field K] [LinearOrder K] [IsStrictOrderedRing K]

/-- **C20.** 1-D arrays: one output per sample, each the nearest level (first one on ties). -/
theorem C20_slicer_vec (l levels : List K) (hlv : levels ≠ []) :
    ∃ out : List K, slicer (.vec l) (some levels) = .ok (.vec out) ∧ out.length = l.length ∧
      ∀ (i : ℕ) (x : K), l[i]? = some x → ∃ y, out[i]? = some y ∧ NearestFirst levels x y := by
  have h0 : levels.length ≠ 0 := by simpa using hlv
  refine ⟨l.map (sliceOne levels), by simp [slicer, hlv], by simp, fun i x hx => ?_⟩
  refine ⟨sliceOne levels x, by simp [hx], ?_⟩
  exact sliceOne_spec levels hlv x

/-- **C20.** 2-D arrays: same shape, each entry the nearest level. -/
theorem C20_slicer_mat (x : ℕ) (r : List (List K)) (hr : ∀ l ∈ r, l.length = x) (hy : r ≠ [])
    (levels : List K) (hlv : levels ≠ []) :
    ∃ out : List (List K), slicer (.mat x r) (some levels) = .ok (.mat x out) ∧ out.length = r.length ∧
      ∀ (i : ℕ) (l : List K), r[i]? = some l → ∃ o : List K, out[i]? = some o ∧ o.length = x ∧
        ∀ (j : ℕ) (v : K), l[j]? = some v → ∃ y, o[j]? = some y ∧ NearestFirst levels v y := by
  refine ⟨r.map (List.map (sliceOne levels)), ?_, by simp, ?_⟩
  · have h1 : r.length > 0 := List.length_pos_iff.2 hy
    simp only [slicer, Option.getD_some, List.length_eq_zero_iff, hlv, if_false, h1, if_true]
    congr 2
    have := reshape2_flatten x (r.map (List.map (sliceOne levels))) (by
      intro l hl
      rw [List.mem_map] at hl
      obtain ⟨a, ha, rfl⟩ := hl
      rw [List.length_map, hr a ha])
    rw [List.length_map] at this
    rw [List.map_flatten]
    exact this
  · intro i l hl
    refine ⟨l.map (sliceOne levels), by simp [hl], ?_, fun j v hv => ?_⟩
    · rw [List.length_map]; exact hr l (List.mem_of_getElem? hl)
    · exact ⟨sliceOne levels v, by simp [hv], sliceOne_spec levels hlv v⟩

/-- **C20.** With `levels=None` the levels are -3, -1, 1, 3. -/
theorem C20_slicer_default (a : SlicerArg K) : slicer a none = slicer a (some [-3, -1, 1, 3]) := rfl

/-- **C20.** Slicing twice equals slicing once, and samples that already are levels are unchanged. -/
theorem C20_slicer_idempotent (l levels : List K) (hlv : levels ≠ []) :
    ∃ out : List K, slicer (.vec l) (some levels) = .ok (.vec out) ∧
      slicer (.vec out) (some levels) = .ok (.vec out) ∧
      ∀ (i : ℕ) (x : K), l[i]? = some x → x ∈ levels → out[i]? = some x := by
  refine ⟨l.map (sliceOne levels), by simp [slicer, hlv], ?_, ?_⟩
  · simp only [slicer, Option.getD_some, List.length_eq_zero_iff, hlv, if_false, List.map_map]
    congr 2
    apply List.map_congr_left
    intro x _
    exact sliceOne_level levels _ (sliceOne_mem levels hlv x)
  · intro i x hx hm
    rw [List.getElem?_map, hx, Option.map_some, sliceOne_level levels x hm]

/-- **C20.** Slicing is monotone in the sample (for any list of levels). -/
theorem C20_slicer_monotone (l levels : List K) (hlv : levels ≠ []) :
    ∃ out : List K, slicer (.vec l) (some levels) = .ok (.vec out) ∧
      ∀ (i j : ℕ) (x y a b : K), l[i]? = some x → l[j]? = some y → out[i]? = some a → out[j]? = some b →
        x ≤ y → a ≤ b := by
  refine ⟨l.map (sliceOne levels), by simp [slicer, hlv], ?_⟩
  intro i j x y a b hx hy ha hb hxy
  rw [List.getElem?_map, hx] at ha
  rw [List.getElem?_map, hy] at hb
  simp only [Option.map_some, Option.some.injEq] at ha hb
  rw [← ha, ← hb]
  exact sliceOne_mono levels hlv hxy

/-- **C20**, error branches: an empty level vector raises ValueError, a plain Python list raises
AttributeError (although lines 15-20 of slicer.py try to support it). -/
theorem C20_slicer_errors (l levels : List K) :
    slicer (.vec l) (some ([] : List K)) = .error .valueError ∧
    slicer (.pyList l) (some levels) = .error .attributeError := ⟨rfl, rfl⟩

example : slicer (.vec [2, -5, (1:ℚ)/4]) (some [-3, -1, 1, 3]) = .ok (.vec [1, -3, 1]) := by
  have : ∀ x y : List ℚ, x = y → (Except.ok (SlicerArg.vec x) : Py (SlicerArg ℚ)) = .ok (.vec y) := by
    rintro x y rfl; rfl
  exact this _ _ (by decide +kernel)

/-! ### quantizer -/

/-- **C21** (partial: documented types with `frac_bits ≥ 0`). Let `q = 2^-frac_bits` and let
`lo..hi` be the code range of the documented type. Every output is an integer code in `lo..hi`
times `q`; inside the range (half an LSB beyond included) the error is at most `q/2`; outside it
saturates. -/
theorem C21_quantize_partial [FloorRing K] (signal : List K) (t : ℕ) (ht : 1 ≤ t) (fb : ℕ)
    (ty : FixType) (r : ℤ × ℤ) (hr : codeRange t ty = some r) :
    ∃ out : List K, quantize signal t fb ty = .ok out ∧ out.length = signal.length ∧
      ∀ (i : ℕ) (x y : K), signal[i]? = some x → out[i]? = some y →
        (∃ k : ℤ, r.1 ≤ k ∧ k ≤ r.2 ∧ y = k * (1 / 2 ^ fb)) ∧
        (r.1 * (1 / 2 ^ fb) - (1 / 2 ^ fb) / 2 ≤ x → x ≤ r.2 * (1 / 2 ^ fb) + (1 / 2 ^ fb) / 2 →
          |x - y| ≤ (1 / 2 ^ fb) / 2) ∧
        (x ≤ r.1 * (1 / 2 ^ fb) → y = r.1 * (1 / 2 ^ fb)) ∧
        (r.2 * (1 / 2 ^ fb) ≤ x → y = r.2 * (1 / 2 ^ fb)) := by
  obtain ⟨levels, hlv, hle, hmem⟩ := quantLevels_mem (K := K) t ht fb ty r hr
  have hq : (0:K) < 1 / 2 ^ fb := by positivity
  have hne : levels ≠ [] := List.ne_nil_of_mem ((hmem _).2 ⟨r.1, le_rfl, hle, rfl⟩)
  refine ⟨signal.map (sliceOne levels), ?_, by simp, ?_⟩
  · simp only [quantize, hlv, bind, Except.bind, List.length_eq_zero_iff, hne, if_false]; rfl
  · intro i x y hx hy
    rw [List.getElem?_map, hx, Option.map_some, Option.some.injEq] at hy
    subst hy
    obtain ⟨h1, h2, h3⟩ := grid_slice levels _ hq r.1 r.2 hle hmem x
    exact ⟨h1, fun ha hb => grid_error levels _ hq r.1 r.2 hle hmem x ha hb, h2, h3⟩

/-- **C21** (same scope): quantization is monotone and idempotent. -/
theorem C21_quantize_mono_idem_partial (signal : List K) (t : ℕ) (ht : 1 ≤ t) (fb : ℕ)
    (ty : FixType) (r : ℤ × ℤ) (hr : codeRange t ty = some r) :
    ∃ out : List K, quantize signal t fb ty = .ok out ∧ quantize out t fb ty = .ok out ∧
      ∀ (i j : ℕ) (x y a b : K), signal[i]? = some x → signal[j]? = some y → out[i]? = some a →
        out[j]? = some b → x ≤ y → a ≤ b := by
  obtain ⟨levels, hlv, hle, hmem⟩ := quantLevels_mem (K := K) t ht fb ty r hr
  have hne : levels ≠ [] := List.ne_nil_of_mem ((hmem _).2 ⟨r.1, le_rfl, hle, rfl⟩)
  refine ⟨signal.map (sliceOne levels), ?_, ?_, ?_⟩
  · simp only [quantize, hlv, bind, Except.bind, List.length_eq_zero_iff, hne, if_false]; rfl
  · simp only [quantize, hlv, bind, Except.bind, List.length_eq_zero_iff, hne, if_false, List.map_map]
    show Except.ok _ = Except.ok _
    congr 1
    apply List.map_congr_left
    intro x _
    exact sliceOne_level levels _ (sliceOne_mem levels hne x)
  · intro i j x y a b hx hy ha hb hxy
    rw [List.getElem?_map, hx] at ha
    rw [List.getElem?_map, hy] at hb
    simp only [Option.map_some, Option.some.injEq] at ha hb
    rw [← ha, ← hb]
    exact sliceOne_mono levels hne hxy

/-- **C21** *violated* for the default `fix_point_type`: every call raises ValueError. -/
theorem C21_negative_default (signal : List K) (t : ℕ) (fb : ℤ) :
    quantize signal t fb .other = .error .valueError := rfl

/-- **C21** *violated* for negative `frac_bits`: the value is ignored, so the documented grid
(multiples of `2^-frac_bits`, e.g. {0,2,4,6} for "2.-1U") is not used. -/
theorem C21_negative_negfrac (signal : List K) (t : ℕ) (fb : ℤ) (hfb : fb ≤ 0) (ty : FixType) :
    quantize signal t fb ty = quantize signal t 0 ty := by
  unfold quantize quantLevels
  simp only [show ¬ fb > 0 by omega, if_false, gt_iff_lt, lt_irrefl]

/-- concrete witness of the previous violation: "2.-1U" must map 6 to 6, the code returns 3 -/
theorem C21_negative_negfrac_witness : quantize [(6 : ℚ)] 2 (-1) .u = .ok [3] := by decide +kernel

example : quantize [(-9 : ℚ)/4, 3/10, 100] 3 1 .s = .ok [-2, 1/2, 3/2] := by decide +kernel
example : codeRange 3 .ss = some (-3, 3) := by decide

end Verif
