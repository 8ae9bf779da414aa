import Verif.Lemmas.RoundedLevels
import Verif.Props.Mapping
import Verif.Props.Slicer

/-!
# Mapping, demapping, slicer and quantizer in floating-point arithmetic (C89)

`fl p` rounds to `p` significant bits, ties to even; `fl 53` is double precision (no overflow, no
subnormal numbers). `u = 2^-p`.
-/

namespace Verif
open Spec

theorem unit_nonneg (p : ℕ) : (0 : ℝ) ≤ 2 ^ (-(p : ℤ)) := (zpow_pos (by norm_num) _).le

theorem unit_small (p : ℕ) (hp : 8 ≤ p) : (2 : ℝ) ^ (-(p : ℤ)) ≤ 1 / 256 := by
  have h : (2 : ℝ) ^ (-(p : ℤ)) ≤ 2 ^ (-(8 : ℤ)) := zpow_le_zpow_right₀ (by norm_num) (by omega)
  refine h.trans (le_of_eq ?_)
  rw [zpow_neg]; norm_num

theorem unit_lt_one (p : ℕ) (hp : 1 ≤ p) : (2 : ℝ) ^ (-(p : ℤ)) < 1 := by
  refine zpow_lt_one_of_neg₀ (by norm_num) (by omega)

/-! ### levels, mapping, demapping -/

/-- **C89.** Levels in `p`-bit arithmetic: without `full_scale` they are the exact ones; with it each level is
within `4 u` (relative) of the exact level, the levels are strictly increasing, and their mean power is
within `9 u` of one. -/
theorem C89_levels (p : ℕ) (hp : 8 ≤ p) (c : Constellation) :
    getLevelsR (fl p) c false = getLevels c false ∧
    (getLevelsR (fl p) c true).length = numLevels c ∧
    (∀ i < numLevels c, |(getLevelsR (fl p) c true).getD i 0 - (getLevels c true).getD i 0|
      ≤ 4 * 2 ^ (-(p : ℤ)) * |(getLevels c true).getD i 0|) ∧
    (∀ i, i + 1 < numLevels c → (getLevelsR (fl p) c true).getD i 0 < (getLevelsR (fl p) c true).getD (i + 1) 0) ∧
    |((getLevelsR (fl p) c true).map (fun l : ℝ => (l ^ 2 : ℝ))).sum / (numLevels c : ℝ) - 1| ≤ 9 * (2 : ℝ) ^ (-(p : ℤ)) := by
  have hu0 := unit_nonneg p
  have hu := unit_small p hp
  obtain ⟨g, f, hg, e, eR, hf⟩ := getLevelsR_eq hu0 hu (fl_error p) c true
  have hlen := numLevels_eq c
  obtain ⟨u, hud⟩ : ∃ u : ℝ, u = 2 ^ (-(p : ℤ)) := ⟨_, rfl⟩
  rw [← hud] at hu0 hu hf ⊢
  have hug : 0 ≤ u * g := mul_nonneg hu0 hg.le
  obtain ⟨i1, i2, i3, i4, i5, i6, i7, i8, i9⟩ := intLevels_facts c
  refine ⟨by simp [getLevelsR, getLevels], by rw [eR, List.length_map, hlen], fun i hi => ?_, fun i hi => ?_, ?_⟩
  · rw [e, eR, getD_map_zero f 0 0 _ i (by omega), getD_map_zero _ 0 0 _ i (by omega), abs_mul, abs_of_pos hg]
    exact hf _
  · rw [eR, getD_map_zero f 0 0 _ i (by omega), getD_map_zero _ 0 0 _ (i + 1) (by omega)]
    have h0 := abs_le.1 (hf ((intLevels c).getD i 0))
    have h1 := abs_le.1 (hf ((intLevels c).getD (i + 1) 0))
    have z3 : ∀ j < (intLevels c).length, |(((intLevels c).getD j 0 : ℤ) : ℝ)| ≤ 3 := by
      intro j hj
      have := i8 ((intLevels c).getD j 0) (mem_of_getD 0 _ hj)
      rw [← Int.cast_abs]; exact_mod_cast this
    have a0 := z3 i (by omega)
    have a1 := z3 (i + 1) (by omega)
    have q : (intLevels c).getD i 0 + 1 ≤ (intLevels c).getD (i + 1) 0 := by
      rw [(i9 i (by omega)).1, (i9 (i + 1) (by omega)).1]
      push_cast
      linarith
    have q' : (((intLevels c).getD i 0 : ℤ) : ℝ) + 1 ≤ ((intLevels c).getD (i + 1) 0 : ℤ) := by exact_mod_cast q
    have m1 : 4 * u * (|(((intLevels c).getD i 0 : ℤ) : ℝ)| * g) ≤ 12 * (u * g) := by nlinarith
    have m2 : 4 * u * (|(((intLevels c).getD (i + 1) 0 : ℤ) : ℝ)| * g) ≤ 12 * (u * g) := by nlinarith
    have m3 : u * g ≤ 1 / 256 * g := mul_le_mul_of_nonneg_right hu hg.le
    have m4 := mul_le_mul_of_nonneg_right q' hg.le
    linarith
  · have hpow := (C19_levels c true).2.2.2 rfl
    rw [getLevels_length, hlen, e] at hpow
    rw [eR]
    have hsq : ∀ z : ℤ, |f z ^ 2 - ((z : ℝ) * g) ^ 2| ≤ 9 * u * ((z : ℝ) * g) ^ 2 := by
      intro z
      have h1 := hf z
      have hz : |(z : ℝ)| * g = |(z : ℝ) * g| := by rw [abs_mul, abs_of_pos hg]
      rw [hz] at h1
      obtain ⟨y, hy⟩ : ∃ y, y = (z : ℝ) * g := ⟨_, rfl⟩
      rw [← hy] at h1 ⊢
      have h2 : |f z + y| ≤ 2 * |y| + 4 * u * |y| := by
        have := abs_add_le (f z - y) (2 * y)
        rw [show f z - y + 2 * y = f z + y by ring, abs_mul, abs_two] at this
        linarith
      rw [show f z ^ 2 - y ^ 2 = (f z - y) * (f z + y) by ring, abs_mul]
      have h3 : |f z - y| * |f z + y| ≤ (4 * u * |y|) * (2 * |y| + 4 * u * |y|) :=
        mul_le_mul h1 h2 (abs_nonneg _) (by positivity)
      refine h3.trans ?_
      have h4 : |y| * |y| = y ^ 2 := by rw [← abs_mul, ← pow_two, abs_of_nonneg (sq_nonneg y)]
      have h5 : (4 * u * |y|) * (2 * |y| + 4 * u * |y|) = (8 * u + 16 * (u * u)) * (|y| * |y|) := by ring
      rw [h5, h4]
      exact mul_le_mul_of_nonneg_right (by nlinarith) (sq_nonneg y)
    have hsum : ∀ l : List ℤ, |((l.map f).map (fun v => v ^ 2)).sum - ((l.map (fun z : ℤ => (z : ℝ) * g)).map (fun v => v ^ 2)).sum|
        ≤ 9 * u * ((l.map (fun z : ℤ => (z : ℝ) * g)).map (fun v => v ^ 2)).sum := by
      intro l
      induction l with
      | nil => simp
      | cons z l ih =>
        simp only [List.map_cons, List.sum_cons]
        have h1 := hsq z
        have := abs_add_le (f z ^ 2 - ((z : ℝ) * g) ^ 2)
          (((l.map f).map (fun v => v ^ 2)).sum - ((l.map (fun z : ℤ => (z : ℝ) * g)).map (fun v => v ^ 2)).sum)
        rw [show f z ^ 2 - ((z : ℝ) * g) ^ 2 + (((l.map f).map (fun v => v ^ 2)).sum
            - ((l.map (fun z : ℤ => (z : ℝ) * g)).map (fun v => v ^ 2)).sum)
          = f z ^ 2 + ((l.map f).map (fun v => v ^ 2)).sum
            - (((z : ℝ) * g) ^ 2 + ((l.map (fun z : ℤ => (z : ℝ) * g)).map (fun v => v ^ 2)).sum) by ring] at this
        linarith
    have h1 := hsum (intLevels c)
    have hn : (0 : ℝ) < numLevels c := by rw [← hlen]; exact_mod_cast (show 0 < (intLevels c).length by omega)
    rw [div_eq_iff hn.ne', one_mul] at hpow
    rw [hpow] at h1
    rw [div_sub_one hn.ne', abs_div, abs_of_pos hn, div_le_iff₀ hn]
    exact h1

/-- **C89.** Demapping in `p`-bit arithmetic returns what it returns in exact arithmetic (including the errors
and wrap-arounds of C18) whenever each sample, in units of the level distance, keeps a distance of
`16 u (|k| + 1)` from the decision thresholds of the cell `k` it lies in. -/
theorem C89_demapping_agrees (p : ℕ) (hp : 8 ≤ p) (c : Constellation) (fs pn : Bool) (sig : List ℝ)
    (h : ∀ s ∈ sig, ∃ k : ℤ,
      |((if pn then -s else s) - (getLevels c fs).getD 0 0) / ((getLevels c fs).getD 1 0 - (getLevels c fs).getD 0 0) - k|
        + 16 * 2 ^ (-(p : ℤ)) * (|(k : ℝ)| + 1) < 1 / 2) :
    demappingR (fl p) sig c fs pn = demapping sig c fs pn := by
  have hu0 := unit_nonneg p
  have hu := unit_small p hp
  obtain ⟨g, f, hg, e, eR, hf⟩ := getLevelsR_eq hu0 hu (fl_error p) c fs
  have hl : (getLevelsR (fl p) c fs).length = (getLevels c fs).length := by rw [e, eR]; simp
  unfold demappingR demapping
  simp only [hl]
  congr 2
  refine List.map_congr_left fun x hx => ?_
  have hx' : ∃ s ∈ sig, x = if pn then -s else s := by
    cases pn with
    | false => exact ⟨x, by simpa using hx, by simp⟩
    | true =>
      simp only [if_true, List.mem_map] at hx
      obtain ⟨s, hs, rfl⟩ := hx
      exact ⟨s, hs, by simp⟩
  obtain ⟨s, hs, rfl⟩ := hx'
  obtain ⟨k, hk⟩ := h s hs
  obtain ⟨h1, h2⟩ := demapIdxR_near hu0 hu (fl_error p) c fs _ k hk
  rw [h1, h2]

/-- **C89.** Noise margin in `p`-bit arithmetic: samples within `1/2 - 64 u` level distances of the exact level of
symbol `k` are demapped to `k`. -/
theorem C89_demapping_margin (p : ℕ) (hp : 8 ≤ p) (c : Constellation) (fs pn : Bool) (sig : List ℝ) (sym : List ℕ)
    (hlen : sym.length = sig.length)
    (h : ∀ (i : ℕ) (s : ℝ) (k : ℕ), sig[i]? = some s → sym[i]? = some k → k < numLevels c ∧
      |(if pn then -s else s) - (getLevels c fs).getD k 0|
        < (1 / 2 - 64 * 2 ^ (-(p : ℤ))) * ((getLevels c fs).getD 1 0 - (getLevels c fs).getD 0 0)) :
    (demappingR (fl p) sig c fs pn).1 = .ok (sym.map (fun (k : ℕ) => (k : Int))) := by
  have hu0 := unit_nonneg p
  obtain ⟨g, hg, e, -⟩ := getLevels_eq c fs
  obtain ⟨i1, i2, i3, i4, i5, i6, i7, i8, i9⟩ := intLevels_facts c
  have hnl := numLevels_eq c
  have j4 : (1 : ℝ) ≤ levelStep c := by exact_mod_cast i4
  have hlv : ∀ k < numLevels c, (getLevels c fs).getD k 0 = (levelFirst c + k * levelStep c : ℝ) * g := by
    intro k hk
    rw [e, getD_map_zero _ 0 0 _ k (by omega), (i9 k (by omega)).1]
    push_cast; ring
  have hn2 : 1 < numLevels c := by omega
  have hn4 : numLevels c ≤ 4 := by cases c <;> decide
  have hd : (getLevels c fs).getD 1 0 - (getLevels c fs).getD 0 0 = levelStep c * g := by
    rw [hlv 1 hn2, hlv 0 (by omega)]; push_cast; ring
  have hD : 0 < levelStep c * g := mul_pos (by linarith) hg
  rw [C89_demapping_agrees p hp c fs pn sig]
  · refine (C18_demapping_nearest_partial c fs pn sig sym hlen ?_).1
    intro i s k hs hk
    obtain ⟨h1, h2⟩ := h i s k hs hk
    have hk' : k < (getLevels c fs).length := by rw [getLevels_length]; omega
    refine ⟨(getLevels c fs).getD k 0, by simp [hk'], lt_of_lt_of_le h2 ?_⟩
    rw [hd]
    nlinarith [mul_nonneg hu0 hD.le]
  · intro s hs
    obtain ⟨i, hi, rfl⟩ := List.getElem_of_mem hs
    obtain ⟨h1, h2⟩ := h i _ (sym[i]'(by omega)) (List.getElem?_eq_getElem hi) (List.getElem?_eq_getElem (by omega))
    obtain ⟨k, hk⟩ : ∃ k, k = sym[i]'(by omega) := ⟨_, rfl⟩
    rw [← hk] at h1 h2
    refine ⟨k, ?_⟩
    rw [hd] at h2 ⊢
    rw [hlv k h1] at h2
    have hq : ((if pn then -sig[i] else sig[i]) - (getLevels c fs).getD 0 0) / (levelStep c * g) - ((k : ℤ) : ℝ)
        = ((if pn then -sig[i] else sig[i]) - (levelFirst c + k * levelStep c : ℝ) * g) / (levelStep c * g) := by
      rw [hlv 0 (by omega)]
      rw [eq_div_iff hD.ne', sub_mul, div_mul_cancel₀ _ hD.ne']
      push_cast; ring
    rw [hq, abs_div, abs_of_pos hD]
    have h3 : |(if pn then -sig[i] else sig[i]) - (levelFirst c + k * levelStep c : ℝ) * g| / (levelStep c * g)
        < 1 / 2 - 64 * 2 ^ (-(p : ℤ)) := by
      rw [div_lt_iff₀ hD]; exact h2
    have h4 : |((k : ℤ) : ℝ)| ≤ 3 := by
      have h5 : k ≤ 3 := by omega
      rw [Int.cast_natCast, Nat.abs_cast]
      exact_mod_cast h5
    have h6 : 16 * (2 : ℝ) ^ (-(p : ℤ)) * (|((k : ℤ) : ℝ)| + 1) ≤ 16 * (2 : ℝ) ^ (-(p : ℤ)) * 4 :=
      mul_le_mul_of_nonneg_left (by linarith) (by positivity)
    linarith

theorem npGet_map_getD (l : List ℝ) (f : ℝ → ℝ) (x : ℤ) (h0 : 0 ≤ x) (h1 : x < l.length) :
    npGet (l.map f) x = .ok (f (l.getD x.toNat 0)) := by
  rw [npGet_valid _ (f 0) x h0 (by rw [List.length_map]; exact h1)]
  simp only [List.getD_eq_getElem?_getD, List.getElem?_map]
  cases l[x.toNat]? <;> simp

/-- **C89.** Round trip in `p`-bit arithmetic: every symbol sequence comes back from mapping and demapping. -/
theorem C89_mapping_roundtrip (p : ℕ) (hp : 8 ≤ p) (c : Constellation) (fs pn : Bool) (sym : List ℕ)
    (hs : ∀ x ∈ sym, x < numLevels c) :
    ∃ lv, mappingR (fl p) (sym.map (fun (k : ℕ) => (k : Int))) c fs pn = .ok lv ∧ lv.length = sym.length ∧
      (demappingR (fl p) lv c fs pn).1 = .ok (sym.map (fun (k : ℕ) => (k : Int))) := by
  have hu0 := unit_nonneg p
  have hu := unit_small p hp
  obtain ⟨g, f, hg, e, eR, hf⟩ := getLevelsR_eq hu0 hu (fl_error p) c fs
  obtain ⟨i1, i2, i3, i4, i5, i6, i7, i8, i9⟩ := intLevels_facts c
  have hnl := numLevels_eq c
  have hlen : (getLevelsR (fl p) c fs).length = numLevels c := by rw [eR, List.length_map, hnl]
  have j4 : (1 : ℝ) ≤ levelStep c := by exact_mod_cast i4
  obtain ⟨u, hud⟩ : ∃ u : ℝ, u = 2 ^ (-(p : ℤ)) := ⟨_, rfl⟩
  have key : ∀ k < numLevels c, |(getLevelsR (fl p) c fs).getD k 0 - (getLevels c fs).getD k 0|
      < (1 / 2 - 64 * 2 ^ (-(p : ℤ))) * ((getLevels c fs).getD 1 0 - (getLevels c fs).getD 0 0) := by
    intro k hk
    rw [e, eR, getD_map_zero f 0 0 _ k (by omega), getD_map_zero _ 0 0 _ k (by omega), getD_map_zero _ 0 0 _ 0 (by omega),
      getD_map_zero _ 0 0 _ 1 (by omega), i1, i2]
    refine lt_of_le_of_lt (hf _) ?_
    have h1 := (i9 k (by omega)).2
    have h2 : 2 * |(((intLevels c).getD k 0 : ℤ) : ℝ)| ≤ 3 * levelStep c := by
      rw [← Int.cast_abs]; exact_mod_cast h1
    rw [← hud] at hu0 hu ⊢
    have hD : 0 < levelStep c * g := mul_pos (by linarith) hg
    rw [show (((levelFirst c + levelStep c : ℤ) : ℝ) * g - levelFirst c * g) = levelStep c * g by push_cast; ring]
    have h3 : 4 * u * (|(((intLevels c).getD k 0 : ℤ) : ℝ)| * g) ≤ 6 * u * (levelStep c * g) := by
      have := mul_le_mul_of_nonneg_right h2 (mul_nonneg hu0 hg.le)
      nlinarith
    refine lt_of_le_of_lt h3 (mul_lt_mul_of_pos_right ?_ hD)
    linarith
  refine ⟨sym.map (fun k => if pn then -1 * (getLevelsR (fl p) c fs).getD k 0 else (getLevelsR (fl p) c fs).getD k 0), ?_,
    by simp, ?_⟩
  · have : sym.map (fun k => if pn then -1 * (getLevelsR (fl p) c fs).getD k 0 else (getLevelsR (fl p) c fs).getD k 0)
        = (sym.map (fun (k : ℕ) => (k : Int))).map
          (fun x => if pn then -1 * (getLevelsR (fl p) c fs).getD x.toNat 0 else (getLevelsR (fl p) c fs).getD x.toNat 0) := by
      rw [List.map_map]; rfl
    rw [this]
    unfold mappingR
    refine npTake_ok _ _ _ fun x hx => ?_
    rw [List.mem_map] at hx
    obtain ⟨k, hk, rfl⟩ := hx
    have hkl := hs k hk
    cases pn with
    | false =>
      simp only [Bool.false_eq_true, if_false]
      exact npGet_valid _ 0 _ (by omega) (by rw [hlen]; exact_mod_cast hkl)
    | true =>
      simp only [if_true]
      exact npGet_map_getD _ (fun x => -1 * x) _ (by omega) (by rw [hlen]; exact_mod_cast hkl)
  · refine C89_demapping_margin p hp c fs pn _ sym (by simp) ?_
    intro i s k hi hk
    rw [List.getElem?_map, hk, Option.map_some, Option.some.injEq] at hi
    have hkl := hs k (List.mem_of_getElem? hk)
    refine ⟨hkl, ?_⟩
    have : (if pn then -s else s) = (getLevelsR (fl p) c fs).getD k 0 := by
      rw [← hi]; cases pn <;> simp
    rw [this]
    exact key k hkl

/-! ### slicer and quantizer -/

/-- **C89.** The slicer in `p`-bit arithmetic returns one level per sample, at a distance at most `(1+u)/(1-u)`
times that of the nearest level; samples that are levels are unchanged and slicing twice is slicing
once. -/
theorem C89_slicer (p : ℕ) (hp : 1 ≤ p) (l levels : List ℝ) (hlv : levels ≠ []) :
    ∃ out, slicerR (fl p) l (some levels) = .ok out ∧ out.length = l.length ∧
      (∀ i < l.length, out.getD i 0 ∈ levels ∧
        (∀ v ∈ levels, (1 - 2 ^ (-(p : ℤ))) * |l.getD i 0 - out.getD i 0| ≤ (1 + 2 ^ (-(p : ℤ))) * |l.getD i 0 - v|) ∧
        (l.getD i 0 ∈ levels → out.getD i 0 = l.getD i 0)) ∧
      slicerR (fl p) out (some levels) = .ok out := by
  have h0 : ¬ levels.length = 0 := by simpa using hlv
  refine ⟨l.map (sliceOneR (fl p) levels), by simp [slicerR, hlv], by simp, fun i hi => ?_, ?_⟩
  · rw [getD_map_zero _ 0 0 _ i hi]
    exact ⟨sliceOneR_mem _ _ hlv _, sliceOneR_near_opt (fl_error p) _ hlv _,
      fun h => sliceOneR_level (unit_lt_one p hp) (fl_error p) _ _ h⟩
  · simp only [slicerR, Option.getD_some, h0, if_false, List.map_map]
    congr 1
    refine List.map_congr_left fun x _ => ?_
    exact sliceOneR_level (unit_lt_one p hp) (fl_error p) _ _ (sliceOneR_mem _ _ hlv x)

/-- **C89.** On a common grid of step `2^e` (fixed-point or integer samples) with all distances below `2^p` steps
the slicer in `p`-bit arithmetic is the exact slicer. -/
theorem C89_slicer_grid (p : ℕ) (e : ℤ) (l levels : List ℝ) (hlv : levels ≠ [])
    (hl : ∀ x ∈ l, ∃ m : ℤ, x = m * 2 ^ e) (hg : ∀ v ∈ levels, ∃ m : ℤ, v = m * 2 ^ e)
    (hd : ∀ x ∈ l, ∀ v ∈ levels, |x - v| < 2 ^ p * 2 ^ e) :
    ∃ out, slicerR (fl p) l (some levels) = .ok out ∧ slicer (.vec l) (some levels) = .ok (.vec out) := by
  have h0 : ¬ levels.length = 0 := by simpa using hlv
  refine ⟨l.map (sliceOne levels), ?_, by simp [slicer, hlv]⟩
  simp only [slicerR, Option.getD_some, h0, if_false]
  congr 1
  refine List.map_congr_left fun x hx => ?_
  refine sliceOneR_congr _ _ _ fun v hv => ?_
  obtain ⟨m, rfl⟩ := hl x hx
  obtain ⟨n, rfl⟩ := hg v hv
  have h1 := hd _ hx _ hv
  rw [← sub_mul, abs_mul, abs_of_pos (show (0 : ℝ) < 2 ^ e from zpow_pos (by norm_num) _)] at h1
  have h2 := lt_of_mul_lt_mul_right h1 (zpow_pos (by norm_num : (0 : ℝ) < 2) e).le
  rw [← sub_mul, ← Int.cast_sub]
  refine fl_exact p (m - n) e ?_
  rw [← Int.cast_sub, ← Int.cast_abs] at h2
  exact_mod_cast h2

/-- the rounded quantizer levels are the exact ones -/
theorem quantLevelsR_eq (p t : ℕ) (htp : t ≤ p) (ht : 1 ≤ t) (fb : ℕ) (ty : FixType) (r : ℤ × ℤ)
    (hr : codeRange t ty = some r) : quantLevelsR (fl p) t fb ty = quantLevels t fb ty := by
  obtain ⟨lv, h1, h2, h3⟩ := quantLevels_mem (K := ℝ) t ht 0 ty r hr
  have hb : ∀ x ∈ lv, ∃ k : ℤ, |k| < 2 ^ p ∧ x = k := by
    intro x hx
    obtain ⟨k, k1, k2, k3⟩ := (h3 x).1 hx
    refine ⟨k, ?_, by simpa using k3⟩
    have q1 : (2 : ℤ) ^ t ≤ 2 ^ p := pow_le_pow_right₀ (by norm_num) htp
    have q2 : (2 : ℤ) ^ t = 2 * 2 ^ (t - 1) := by rw [← pow_succ']; congr 1; omega
    have q3 : (1 : ℤ) ≤ 2 ^ (t - 1) := one_le_pow₀ (by norm_num)
    rw [abs_lt]
    cases ty <;> simp only [codeRange, Option.some.injEq, reduceCtorEq] at hr <;> subst hr <;>
      simp only [unsignedRange, signedRange, symmetricRange] at k1 k2 <;> constructor <;> omega
  have hsplit : quantLevels (K := ℝ) t fb ty = (quantLevels t 0 ty).map
      (fun l => if (fb : ℤ) > 0 then l.map (fun x => x / 2 ^ (fb : ℤ).toNat) else l) := by
    unfold quantLevels
    cases ty <;> simp only [Except.map] <;> try simp
    rw [if_neg (by omega)]
  rw [hsplit]
  unfold quantLevelsR
  have h1' : quantLevels (K := ℝ) t 0 ty = .ok lv := h1
  rw [h1']
  simp only [Except.map]
  congr 1
  split
  · refine List.map_congr_left fun x hx => ?_
    obtain ⟨k, hk, rfl⟩ := hb x hx
    rw [show (k : ℝ) / 2 ^ (fb : ℤ).toNat = k * 2 ^ (-(fb : ℤ)) by
      rw [zpow_neg, zpow_natCast, Int.toNat_natCast]; rfl]
    exact fl_exact p k _ hk
  · rfl

/-- **C89.** The quantizer in `p`-bit arithmetic (`total_bits ≤ p`, documented types, `frac_bits ≥ 0`): every
output is a code of the documented range times `q = 2^-frac_bits`, at a distance at most `(1+u)/(1-u)` times
that of any other code; inside the range the error is at most half a step times that factor; codes are
unchanged. -/
theorem C89_quantize (p : ℕ) (signal : List ℝ) (t : ℕ) (ht : 1 ≤ t) (htp : t ≤ p) (fb : ℕ) (ty : FixType) (r : ℤ × ℤ)
    (hr : codeRange t ty = some r) :
    ∃ out, quantizeR (fl p) signal t fb ty = .ok out ∧ out.length = signal.length ∧
      (∀ i < signal.length, (∃ k : ℤ, r.1 ≤ k ∧ k ≤ r.2 ∧ out.getD i 0 = k * (1 / 2 ^ fb)) ∧
        (∀ k : ℤ, r.1 ≤ k → k ≤ r.2 → (1 - 2 ^ (-(p : ℤ))) * |signal.getD i 0 - out.getD i 0|
          ≤ (1 + 2 ^ (-(p : ℤ))) * |signal.getD i 0 - k * (1 / 2 ^ fb)|) ∧
        (r.1 * (1 / 2 ^ fb) - (1 / 2 ^ fb) / 2 ≤ signal.getD i 0 → signal.getD i 0 ≤ r.2 * (1 / 2 ^ fb) + (1 / 2 ^ fb) / 2 →
          (1 - 2 ^ (-(p : ℤ))) * |signal.getD i 0 - out.getD i 0| ≤ (1 + 2 ^ (-(p : ℤ))) * ((1 / 2 ^ fb) / 2)) ∧
        ((∃ k : ℤ, r.1 ≤ k ∧ k ≤ r.2 ∧ signal.getD i 0 = k * (1 / 2 ^ fb)) → out.getD i 0 = signal.getD i 0)) ∧
      quantizeR (fl p) out t fb ty = .ok out := by
  obtain ⟨levels, hlv, hle, hmem⟩ := quantLevels_mem (K := ℝ) t ht fb ty r hr
  have hne : levels ≠ [] := List.ne_nil_of_mem ((hmem _).2 ⟨r.1, le_rfl, hle, rfl⟩)
  have hq : ∀ s : List ℝ, quantizeR (fl p) s t fb ty = .ok (s.map (sliceOneR (fl p) levels)) := by
    intro s
    unfold quantizeR
    simp only [quantLevelsR_eq p t htp ht fb ty r hr, hlv, bind, Except.bind, List.length_eq_zero_iff, hne, if_false]
    rfl
  have hu1 := unit_lt_one p (by omega)
  have hu0 := unit_nonneg p
  refine ⟨signal.map (sliceOneR (fl p) levels), hq _, by simp, fun i hi => ?_, ?_⟩
  · rw [getD_map_zero _ 0 0 _ i hi]
    obtain ⟨x, hx⟩ : ∃ x, x = signal.getD i 0 := ⟨_, rfl⟩
    rw [← hx]
    refine ⟨(hmem _).1 (sliceOneR_mem _ _ hne _), fun k k1 k2 => ?_, fun h1 h2 => ?_, fun h => ?_⟩
    · exact sliceOneR_near_opt (fl_error p) _ hne x _ ((hmem _).2 ⟨k, k1, k2, rfl⟩)
    · obtain ⟨out, e1, -, e3⟩ := C21_quantize_partial [x] t ht fb ty r hr
      have hout : out = [sliceOne levels x] := by
        have : quantize [x] t fb ty = .ok [sliceOne levels x] := by
          simp only [quantize, hlv, bind, Except.bind, List.length_eq_zero_iff, hne, if_false]; rfl
        rw [this] at e1
        exact (Except.ok.inj e1).symm
      obtain ⟨-, e4, -⟩ := e3 0 x (sliceOne levels x) rfl (by rw [hout]; rfl)
      have e5 := sliceOneR_near_opt (fl_error p) levels hne x _ (sliceOne_mem levels hne x)
      refine e5.trans (mul_le_mul_of_nonneg_left (e4 h1 h2) (by linarith))
    · exact sliceOneR_level hu1 (fl_error p) _ _ ((hmem _).2 h)
  · rw [hq]
    congr 1
    rw [List.map_map]
    refine List.map_congr_left fun x _ => ?_
    exact sliceOneR_level hu1 (fl_error p) _ _ (sliceOneR_mem _ _ hne x)

/-- **C89.** For samples on a finer fixed-point grid `2^-g` (`g ≥ frac_bits`), with `|x| 2^g + 2^(total_bits+g-frac_bits)`
below `2^p`, the quantizer in `p`-bit arithmetic is the exact quantizer of C21 (nearest code, ties down,
saturation). -/
theorem C89_quantize_grid (p : ℕ) (signal : List ℝ) (t : ℕ) (ht : 1 ≤ t) (htp : t ≤ p) (fb g : ℕ) (hg : fb ≤ g)
    (ty : FixType) (r : ℤ × ℤ) (hr : codeRange t ty = some r)
    (hx : ∀ x ∈ signal, ∃ m : ℤ, x = m * (1 / 2 ^ g) ∧ |m| + 2 ^ (t + g - fb) < 2 ^ p) :
    quantizeR (fl p) signal t fb ty = quantize signal t fb ty := by
  obtain ⟨levels, hlv, hle, hmem⟩ := quantLevels_mem (K := ℝ) t ht fb ty r hr
  unfold quantizeR quantize
  simp only [quantLevelsR_eq p t htp ht fb ty r hr, hlv, bind, Except.bind]
  split
  · rfl
  · show Except.ok _ = Except.ok _
    congr 1
    refine List.map_congr_left fun x hxs => sliceOneR_congr _ _ _ fun l hl => ?_
    obtain ⟨m, rfl, hm⟩ := hx x hxs
    obtain ⟨k, k1, k2, rfl⟩ := (hmem l).1 hl
    have hkb : |k| ≤ 2 ^ t := by
      have q2 : (2 : ℤ) ^ t = 2 * 2 ^ (t - 1) := by rw [← pow_succ']; congr 1; omega
      have q3 : (1 : ℤ) ≤ 2 ^ (t - 1) := one_le_pow₀ (by norm_num)
      rw [abs_le]
      cases ty <;> simp only [codeRange, Option.some.injEq, reduceCtorEq] at hr <;> subst hr <;>
        simp only [unsignedRange, signedRange, symmetricRange] at k1 k2 <;> constructor <;> omega
    have hrew : (m : ℝ) * (1 / 2 ^ g) - k * (1 / 2 ^ fb) = ((m - k * 2 ^ (g - fb) : ℤ) : ℝ) * 2 ^ (-(g : ℤ)) := by
      have hgf : (2 : ℝ) ^ g = 2 ^ fb * 2 ^ (g - fb) := by rw [← pow_add]; congr 1; omega
      rw [zpow_neg, zpow_natCast]
      push_cast
      rw [hgf]
      field_simp
    rw [hrew]
    refine fl_exact p _ _ ?_
    have h1 : |k * 2 ^ (g - fb)| ≤ 2 ^ (t + g - fb) := by
      rw [abs_mul, abs_of_pos (show (0 : ℤ) < 2 ^ (g - fb) by positivity), show t + g - fb = t + (g - fb) by omega, pow_add]
      exact mul_le_mul_of_nonneg_right hkb (by positivity)
    have h2 := abs_sub m (k * 2 ^ (g - fb))
    omega

/-! ### where rounding changes the decision -/

/-- adding a small number to a power of two -/
theorem fl_absorb (p : ℕ) (hp : 1 ≤ p) (E : ℤ) (l : ℝ) (hl : |l| < 2 ^ (E - p - 1)) : fl p (2 ^ E - l) = 2 ^ E := by
  have hb := abs_lt.1 hl
  have hq0 : (0 : ℝ) < 2 ^ (E - p - 1) := zpow_pos (by norm_num) _
  have hqp : (2 : ℝ) ^ (E - p) = 2 * 2 ^ (E - p - 1) := by
    rw [← zpow_one_add₀ (by norm_num)]; congr 1; omega
  have hqe : (2 : ℝ) ^ (E - p) ≤ 2 ^ (E - 1) := zpow_le_zpow_right₀ (by norm_num) (by omega)
  have h2e : (2 : ℝ) ^ E = 2 * 2 ^ (E - 1) := by
    rw [← zpow_one_add₀ (by norm_num)]; congr 1; omega
  have h2e' : (2 : ℝ) ^ (E + 1) = 2 * 2 ^ E := by
    rw [zpow_add_one₀ (by norm_num)]; ring
  rcases le_or_gt l 0 with h | h
  · have key : (2 : ℝ) ^ E = ((2 ^ (p - 1) : ℤ) : ℝ) * 2 ^ (E + 1 - p) := by
      push_cast
      rw [← zpow_natCast, ← zpow_add₀ (by norm_num)]; congr 1; omega
    have hu : (2 : ℝ) ^ (E + 1 - p) = 4 * 2 ^ (E - p - 1) := by
      rw [show (4 : ℝ) = 2 ^ (2 : ℤ) by norm_num, ← zpow_add₀ (by norm_num)]; congr 1; omega
    conv_rhs => rw [key]
    have habs : |(2 : ℝ) ^ E - l| = 2 ^ E - l := abs_of_pos (by linarith)
    refine fl_eq_of p _ E _ (by rw [habs]; linarith) (by rw [habs]; linarith) ?_
    have hup : (0 : ℝ) < 2 ^ (E + 1 - p) := zpow_pos (by norm_num) _
    rw [key, sub_div, mul_div_cancel_right₀ _ hup.ne', show ∀ a b : ℝ, a - b - a = -b by intros; ring, abs_neg, abs_div,
      abs_of_pos hup, div_lt_iff₀ hup, hu]
    linarith
  · have key : (2 : ℝ) ^ E = ((2 ^ p : ℤ) : ℝ) * 2 ^ (E - 1 + 1 - p) := by
      push_cast
      rw [← zpow_natCast, ← zpow_add₀ (by norm_num)]; congr 1; omega
    have hu : (2 : ℝ) ^ (E - 1 + 1 - p) = 2 * 2 ^ (E - p - 1) := by
      rw [← zpow_one_add₀ (by norm_num)]; congr 1; omega
    conv_rhs => rw [key]
    have habs : |(2 : ℝ) ^ E - l| = 2 ^ E - l := abs_of_pos (by linarith)
    refine fl_eq_of p _ (E - 1) _ (by rw [habs]; linarith) (by rw [habs, show E - 1 + 1 = E by ring]; linarith) ?_
    have hup : (0 : ℝ) < 2 ^ (E - 1 + 1 - p) := zpow_pos (by norm_num) _
    rw [key, sub_div, mul_div_cancel_right₀ _ hup.ne', show ∀ a b : ℝ, a - b - a = -b by intros; ring, abs_neg, abs_div,
      abs_of_pos hup, div_lt_iff₀ hup, hu]
    linarith

/-- **C89** *violated* for large samples: saturation is lost. If `2^(p+total_bits+1) < 2^E` all differences are rounded to
`2^E`, and a sample of `2^E` is quantized to the lowest code instead of the highest. -/
theorem C89_negative_saturation (p : ℕ) (t : ℕ) (ht : 1 ≤ t) (htp : t ≤ p) (fb : ℕ) (ty : FixType) (r : ℤ × ℤ)
    (hr : codeRange t ty = some r) (E : ℤ) (hE : (p : ℤ) + t + 1 < E) :
    quantizeR (fl p) [2 ^ E] t fb ty = .ok [r.1 * (1 / 2 ^ fb)] ∧
      quantize [(2 : ℝ) ^ E] t fb ty = .ok [r.2 * (1 / 2 ^ fb)] := by
  obtain ⟨levels, hlv, hle, hmem⟩ := quantLevels_mem (K := ℝ) t ht fb ty r hr
  have hne : levels ≠ [] := List.ne_nil_of_mem ((hmem _).2 ⟨r.1, le_rfl, hle, rfl⟩)
  have hkb : ∀ k : ℤ, r.1 ≤ k → k ≤ r.2 → |k| ≤ 2 ^ t := by
    intro k k1 k2
    have q2 : (2 : ℤ) ^ t = 2 * 2 ^ (t - 1) := by rw [← pow_succ']; congr 1; omega
    have q3 : (1 : ℤ) ≤ 2 ^ (t - 1) := one_le_pow₀ (by norm_num)
    rw [abs_le]
    cases ty <;> simp only [codeRange, Option.some.injEq, reduceCtorEq] at hr <;> subst hr <;>
      simp only [unsignedRange, signedRange, symmetricRange] at k1 k2 <;> constructor <;> omega
  have hlb : ∀ l ∈ levels, |l| ≤ 2 ^ t := by
    intro l hl
    obtain ⟨k, k1, k2, rfl⟩ := (hmem l).1 hl
    rw [abs_mul, abs_of_pos (show (0 : ℝ) < 1 / 2 ^ fb by positivity), ← Int.cast_abs]
    have h1 : ((|k| : ℤ) : ℝ) ≤ 2 ^ t := by exact_mod_cast hkb k k1 k2
    have h2 : (1 : ℝ) / 2 ^ fb ≤ 1 := by
      rw [div_le_one (by positivity)]; exact one_le_pow₀ (by norm_num)
    have h3 : (0 : ℝ) ≤ ((|k| : ℤ) : ℝ) := by exact_mod_cast abs_nonneg k
    nlinarith [show (0 : ℝ) ≤ 1 / 2 ^ fb by positivity]
  have hfirst : levels.getD 0 0 = r.1 * (1 / 2 ^ fb) := by
    have h2n : 2 ≤ 2 ^ t := by
      calc 2 = 2 ^ 1 := rfl
        _ ≤ 2 ^ t := Nat.pow_le_pow_right (by norm_num) ht
    obtain ⟨n, hn⟩ : ∃ n, 2 ^ t = n + 2 := ⟨2 ^ t - 2, by omega⟩
    have hfrac : ∀ l : List ℝ, (if (fb : Int) > 0 then l.map (fun x => x / 2 ^ (fb : Int).toNat) else l)
        = l.map (fun x => x * (1 / 2 ^ fb : ℝ)) := by
      intro l
      rcases Nat.eq_zero_or_pos fb with rfl | h
      · simp
      · rw [if_pos (by exact_mod_cast h), Int.toNat_natCast]
        apply List.map_congr_left; intro x _; ring
    have ht0 : t ≠ 0 := by omega
    unfold quantLevels at hlv
    cases ty <;> simp only [codeRange, Option.some.injEq, reduceCtorEq] at hr <;> subst hr <;>
      simp only [Except.map, hfrac, ht0, if_false, Except.ok.injEq] at hlv <;> rw [← hlv, hn] <;>
      simp [List.range_succ_eq_map, unsignedRange, signedRange, symmetricRange]
  have hQ : quantizeR (fl p) [2 ^ E] t fb ty = .ok [sliceOneR (fl p) levels (2 ^ E)] := by
    unfold quantizeR
    simp only [quantLevelsR_eq p t htp ht fb ty r hr, hlv, bind, Except.bind, List.length_eq_zero_iff, hne, if_false]
    rfl
  have hpow : (2 : ℝ) ^ t < 2 ^ (E - p - 1) := by
    rw [← zpow_natCast]
    exact zpow_lt_zpow_right₀ (by norm_num) (by omega)
  constructor
  · rw [hQ, sliceOneR_tie (fl p) levels hne _ (2 ^ E) (fun l hl => fl_absorb p (by omega) E l (lt_of_le_of_lt (hlb l hl) hpow)),
      hfirst]
  · obtain ⟨out, e1, e2, e3⟩ := C21_quantize_partial [(2 : ℝ) ^ E] t ht fb ty r hr
    rw [e1]
    match out, e2, e3 with
    | [y], _, e3 =>
      obtain ⟨-, -, -, e4⟩ := e3 0 (2 ^ E) y rfl rfl
      congr 2
      apply e4
      have h1 := hlb _ ((hmem _).2 ⟨r.2, hle, le_rfl, rfl⟩)
      refine (le_abs_self _).trans (h1.trans (hpow.le.trans ?_))
      exact zpow_le_zpow_right₀ (by norm_num) (by omega)

/-- double precision, 8 bits signed: a sample of `2^63` is quantized to -128 -/
example : quantizeR (fl 53) [2 ^ (63 : ℤ)] 8 0 .s = .ok [-128] := by
  have := (C89_negative_saturation 53 8 (by norm_num) (by norm_num) 0 .s (signedRange 8) rfl 63 (by norm_num)).1
  rw [show (((0 : ℕ) : ℤ)) = 0 from rfl] at this
  rw [this]
  norm_num [signedRange]

/-- **C89** *violated* for the nearest level: in `p`-bit arithmetic the slicer sends the positive sample `2^-(p+2)` to
the level -1, exact arithmetic sends it to 1. -/
theorem C89_negative_tie (p : ℕ) (hp : 1 ≤ p) :
    slicerR (fl p) [2 ^ (-(p : ℤ) - 2)] (some [-1, 1]) = .ok [-1] ∧
      slicer (.vec [(2 : ℝ) ^ (-(p : ℤ) - 2)]) (some [-1, 1]) = .ok (.vec [1]) := by
  obtain ⟨x, hx⟩ : ∃ x : ℝ, x = 2 ^ (-(p : ℤ) - 2) := ⟨_, rfl⟩
  rw [← hx]
  have hx0 : 0 < x := by rw [hx]; exact zpow_pos (by norm_num) _
  have hxq : |x| < 2 ^ ((0 : ℤ) - p - 1) := by
    rw [abs_of_pos hx0, hx]
    exact zpow_lt_zpow_right₀ (by norm_num) (by omega)
  have hx1 : x < 1 := by
    have : (2 : ℝ) ^ ((0 : ℤ) - p - 1) ≤ 2 ^ (0 : ℤ) := zpow_le_zpow_right₀ (by norm_num) (by omega)
    rw [zpow_zero] at this
    exact lt_of_lt_of_le (lt_of_le_of_lt (le_abs_self x) hxq) this
  have a1 := fl_absorb p hp 0 (-x) (by rw [abs_neg]; exact hxq)
  rw [zpow_zero, sub_neg_eq_add, add_comm] at a1
  have a2 : fl p (x - 1) = -1 := by
    have hup : (0 : ℝ) < 2 ^ ((-1 : ℤ) + 1 - p) := zpow_pos (by norm_num) _
    have key : (-1 : ℝ) = ((-2 ^ p : ℤ) : ℝ) * 2 ^ ((-1 : ℤ) + 1 - p) := by
      push_cast
      rw [neg_mul, ← zpow_natCast, ← zpow_add₀ (by norm_num)]
      norm_num
    have hxu : x = 1 / 4 * 2 ^ ((-1 : ℤ) + 1 - p) := by
      rw [hx, show (1 / 4 : ℝ) = 2 ^ (-2 : ℤ) by norm_num, ← zpow_add₀ (by norm_num)]; congr 1; omega
    have hx4 : x ≤ 1 / 4 := by
      rw [hx, show (1 / 4 : ℝ) = 2 ^ (-2 : ℤ) by norm_num]
      exact zpow_le_zpow_right₀ (by norm_num) (by omega)
    conv_rhs => rw [key]
    have habs : |x - 1| = 1 - x := by rw [abs_sub_comm]; exact abs_of_pos (by linarith)
    refine fl_eq_of p _ (-1) _ ?_ ?_ ?_
    · rw [habs, show ((2 : ℝ) ^ (-1 : ℤ)) = 1 / 2 by norm_num]; linarith
    · rw [habs, show ((2 : ℝ) ^ ((-1 : ℤ) + 1)) = 1 by norm_num]; linarith
    · rw [sub_eq_add_neg x 1, key, add_div, mul_div_cancel_right₀ _ hup.ne', add_sub_cancel_right, abs_div, abs_of_pos hup,
        abs_of_pos hx0, div_lt_iff₀ hup, hxu]
      linarith
  constructor
  · have h1 : sliceOneR (fl p) [-1, 1] x = -1 := by
      have hz : List.map (fun l => |fl p (x - l)|) [-1, 1] = [1, 1] := by
        simp only [List.map_cons, List.map_nil, sub_neg_eq_add, a1, a2, abs_one, abs_neg]
      unfold sliceOneR
      rw [hz]
      simp [argmin, List.findIdx_cons]
    simp [slicerR, h1]
  · have h1 : sliceOne [-1, 1] x = 1 := by
      have hz : List.map (fun l => |x - l|) [-1, 1] = [1 + x, 1 - x] := by
        simp only [List.map_cons, List.map_nil, sub_neg_eq_add]
        rw [abs_of_pos (show 0 < x + 1 by linarith), abs_sub_comm, abs_of_pos (show 0 < 1 - x by linarith), add_comm]
      unfold sliceOne
      rw [hz]
      have : ¬ (1 + x ≤ 1 - x) := by linarith
      have h2 : 1 - x ≤ 1 + x := by linarith
      simp [argmin, List.findIdx_cons, this, h2]
    simp [slicer, h1]

/-- all four constellations, scaled and inverted, in double precision -/
example : ∃ lv, mappingR (fl 53) [0, 3, 1, 2, 2] .pam4 true true = .ok lv ∧
    (demappingR (fl 53) lv .pam4 true true).1 = .ok [0, 3, 1, 2, 2] := by
  obtain ⟨lv, h1, -, h3⟩ := C89_mapping_roundtrip 53 (by norm_num) .pam4 true true [0, 3, 1, 2, 2] (by decide)
  exact ⟨lv, h1, h3⟩

/-- a noisy PAM4 sample in double precision -/
example : (demappingR (fl 53) [0.25, -3.9] .pam4 false false).1 = .ok [2, 0] := by
  have hu : (2 : ℝ) ^ (-((53 : ℕ) : ℤ)) ≤ 1 / 256 := unit_small 53 (by norm_num)
  have := C89_demapping_margin 53 (by norm_num) .pam4 false false [0.25, -3.9] [2, 0] rfl (by
    intro i s k hs hk
    rw [C18_levels_pam4]
    match i with
    | 0 =>
      simp at hs hk; subst hs hk
      refine ⟨by decide, ?_⟩
      obtain ⟨u, hud⟩ : ∃ u : ℝ, u = 2 ^ (-((53 : ℕ) : ℤ)) := ⟨_, rfl⟩
      rw [← hud] at hu ⊢
      have hu' : u < 1 / 2048 := by
        rw [hud]
        calc (2 : ℝ) ^ (-((53 : ℕ) : ℤ)) < 2 ^ (-(11 : ℤ)) := zpow_lt_zpow_right₀ (by norm_num) (by norm_num)
          _ = 1 / 2048 := by norm_num
      simp
      rw [abs_lt]; constructor <;> norm_num <;> linarith
    | 1 =>
      simp at hs hk; subst hs hk
      refine ⟨by decide, ?_⟩
      obtain ⟨u, hud⟩ : ∃ u : ℝ, u = 2 ^ (-((53 : ℕ) : ℤ)) := ⟨_, rfl⟩
      rw [← hud] at hu ⊢
      have hu' : u < 1 / 2048 := by
        rw [hud]
        calc (2 : ℝ) ^ (-((53 : ℕ) : ℤ)) < 2 ^ (-(11 : ℤ)) := zpow_lt_zpow_right₀ (by norm_num) (by norm_num)
          _ = 1 / 2048 := by norm_num
      simp
      rw [abs_lt]; constructor <;> norm_num <;> linarith
    | (n+2) => simp at hs)
  simpa using this

/-- an 8-bit quantizer with 4 fractional bits on samples with 10 fractional bits below `2^20` in magnitude -/
example (signal : List ℝ) (h : ∀ x ∈ signal, ∃ m : ℤ, x = m * (1 / 2 ^ 10) ∧ |m| < 2 ^ 30) :
    quantizeR (fl 53) signal 8 4 .s = quantize signal 8 4 .s := by
  refine C89_quantize_grid 53 signal 8 (by norm_num) (by norm_num) 4 10 (by norm_num) .s _ rfl ?_
  intro x hx
  obtain ⟨m, h1, h2⟩ := h x hx
  exact ⟨m, h1, by norm_num at h2 ⊢; linarith⟩

end Verif
