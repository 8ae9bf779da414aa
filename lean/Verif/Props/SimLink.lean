import Verif.Lemmas.SimLink

/-!
# Blocks of the example simulation: levels and decisions (C71)
-/

namespace Verif
open Spec

/-- **C71** (partial: the slicer factor must equal the largest unscaled level, see `C71_negative_pam4`). With the levels
of the constellation (scaled or not) given to the mapper, any amplitude and that factor, every slicer input that is
within half a level distance of the normalised transmitted level is decided and demapped to the transmitted symbol. -/
theorem C71_recovered_partial (c : Constellation) (fs : Bool) (amp rx : ℝ) (ha : amp ≠ 0)
    (hrx : ∀ l ∈ getLevels c false, |l| ≤ rx) (hrx' : ∃ l ∈ getLevels c false, |l| = rx) (sym : List ℕ)
    (hs : ∀ k ∈ sym, k < numLevels c) (x : List ℝ) (hl : x.length = sym.length) :
    ∃ tx sent, mappingDataLevels c (some (getLevels c fs)) amp = .ok tx ∧
      transmitSymbols (sym.map (fun (k : ℕ) => (k : Int))) c tx = .ok sent ∧ sent.length = sym.length ∧
      ((∀ i, i < sym.length → |x.getD i 0 - sent.getD i 0 * 2 / amp * rx|
          < ((getLevels c false).getD 1 0 - (getLevels c false).getD 0 0) / 2) →
        recoverSymbols x c (receiverLevels tx amp rx) = .ok (sym.map (fun (k : ℕ) => (k : Int)))) := by
  obtain ⟨hlen, -, ⟨g, hg, hge⟩, -⟩ := C19_levels c fs
  obtain ⟨hlen0, -⟩ := C19_levels c false
  have hn : 0 < numLevels c := by cases c <;> decide
  have hne : getLevels c fs ≠ [] := List.ne_nil_of_length_pos (by omega)
  have hne0 : getLevels c false ≠ [] := List.ne_nil_of_length_pos (by omega)
  have hrx0 : 0 < rx := by
    have h1 : ∃ l ∈ getLevels c false, l ≠ 0 := by
      cases c <;> simp [getLevels, intLevels]
    obtain ⟨l, hl, h⟩ := h1
    exact lt_of_lt_of_le (abs_pos.2 h) (hrx l hl)
  have hmax : maxAbs (getLevels c fs) = rx * g := by
    rw [hge]
    apply maxAbs_eq _ _ (by positivity)
    · intro y hy
      obtain ⟨l, hl, rfl⟩ := List.mem_map.1 hy
      rw [abs_mul, abs_of_pos hg]
      exact mul_le_mul_of_nonneg_right (hrx l hl) hg.le
    · obtain ⟨l, hl, e⟩ := hrx'
      exact ⟨l * g, List.mem_map.2 ⟨l, hl, rfl⟩, by rw [abs_mul, abs_of_pos hg, e]⟩
  have hrl : receiverLevels ((getLevels c fs).map (fun v => v / maxAbs (getLevels c fs) * amp / 2)) amp rx
      = getLevels c false := by
    rw [receiverLevels_of _ _ _ ha, hmax]
    conv_lhs => rw [hge]
    rw [List.map_map]
    conv_rhs => rw [← List.map_id (getLevels c false)]
    apply List.map_congr_left
    intro v _
    simp only [Function.comp, id]
    field_simp
  set tx := (getLevels c fs).map (fun v => v / maxAbs (getLevels c fs) * amp / 2) with htx
  have htl : tx.length = numLevels c := by rw [htx, List.length_map, hlen]
  have hsent := (C17_mapping_levels c false false (sym.map (fun (k : ℕ) => (k : Int))) tx).2.1 htl (by
    intro y hy
    obtain ⟨k, hk, rfl⟩ := List.mem_map.1 hy
    have := hs k hk
    omega)
  refine ⟨tx, _, mappingDataLevels_some c _ amp hne, hsent, by simp, fun h => ?_⟩
  rw [hrl, recoverSymbols_eq _ _ _ hne0]
  refine (C18_demapping_nearest_partial c false false _ sym (by simp [hl]) ?_).1
  intro i s k hi hk
  have hil : i < sym.length := (List.getElem?_eq_some_iff.1 hk).1
  have hki : sym[i] = k := (List.getElem?_eq_some_iff.1 hk).2
  have hkn : k < numLevels c := hs k (List.mem_of_getElem? hk)
  have hk0 : k < (getLevels c false).length := by omega
  have hgap : 0 < (getLevels c false).getD 1 0 - (getLevels c false).getD 0 0 := by
    cases c <;> simp [getLevels, intLevels]
  have hclose := h i hil
  have hval : (((sym.map (fun (k : ℕ) => (k : Int))).map (fun x => if (false = true) then -(tx.getD x.toNat 0)
      else tx.getD x.toNat 0)).getD i 0) * 2 / amp * rx = (getLevels c false)[k] := by
    have e1 : ((sym.map (fun (k : ℕ) => (k : Int))).map (fun x => if (false = true) then -(tx.getD x.toNat 0)
      else tx.getD x.toNat 0)).getD i 0 = tx.getD k 0 := by
      simp [List.getD_eq_getElem?_getD, hk]
    rw [e1]
    have e2 : (receiverLevels tx amp rx).getD k 0 = tx.getD k 0 * 2 / amp * rx := by
      unfold receiverLevels
      simp [List.getD_eq_getElem?_getD, htl, hkn]
    rw [← e2, hrl, List.getD_eq_getElem?_getD, List.getElem?_eq_getElem hk0]
    rfl
  rw [hval] at hclose
  obtain ⟨xi, hxi, hsi⟩ : ∃ xi, x[i]? = some xi ∧ sliceOne (getLevels c false) xi = s := by
    rw [List.getElem?_map] at hi
    cases hxe : x[i]? with
    | none => rw [hxe] at hi; cases hi
    | some xi => rw [hxe] at hi; exact ⟨xi, rfl, Option.some.inj hi⟩
  have hx0 : x.getD i 0 = xi := by rw [List.getD_eq_getElem?_getD, hxi]; rfl
  rw [hx0] at hclose
  obtain ⟨j, hj, hsj, hmin, -⟩ := sliceOne_spec (getLevels c false) hne0 xi
  rw [hsi] at hsj hmin
  have hd := hmin _ (List.getElem_mem hk0)
  have hsm : s ∈ getLevels c false := by rw [hsj]; exact List.getElem_mem hj
  have heq : s = (getLevels c false)[k] := by
    apply levels_spaced c _ _ hsm (List.getElem_mem hk0)
    calc |s - (getLevels c false)[k]| = |(xi - (getLevels c false)[k]) - (xi - s)| := by congr 1; ring
      _ ≤ |xi - (getLevels c false)[k]| + |xi - s| := abs_sub _ _
      _ < _ := by linarith
  exact ⟨_, List.getElem?_eq_getElem hk0, by rw [heq]; simpa using hgap⟩

/-- a noisy PAM4 reception, with the factor 3 that the receiver needs -/
example : ∃ tx sent, mappingDataLevels .pam4 (some (getLevels .pam4 true)) 750 = .ok tx ∧
    transmitSymbols [0, 3] .pam4 tx = .ok sent ∧ sent.length = 2 ∧
    ((∀ i, i < 2 → |([-2.5, 3.75] : List ℝ).getD i 0 - sent.getD i 0 * 2 / 750 * 3|
      < ((getLevels .pam4 false).getD 1 0 - (getLevels .pam4 false).getD 0 0) / 2) →
    recoverSymbols [-2.5, 3.75] .pam4 (receiverLevels tx 750 3) = .ok [0, 3]) :=
  C71_recovered_partial .pam4 true 750 3 (by norm_num) (by
    intro l hl
    simp [getLevels, intLevels] at hl
    rcases hl with rfl | rfl | rfl | rfl <;> norm_num [abs_le]) ⟨3, by simp [getLevels, intLevels], by norm_num⟩ [0, 3]
    (by decide) _ rfl

/-- **C71.** Without levels (`levels=None`) and with the default amplitude and factor the slicer uses the levels that the
mapper sends. -/
theorem C71_default_levels (c : Constellation) :
    ∃ tx, mappingDataLevels c none 2 = .ok tx ∧ tx = getLevels c false ∧ receiverLevels tx 2 1 = getLevels c false := by
  refine ⟨_, rfl, rfl, ?_⟩
  unfold receiverLevels
  conv_rhs => rw [← List.map_id (getLevels c false)]
  apply List.map_congr_left
  intro v _
  simp

/-- **C71** *violated* for PAM4 with any slicer factor below 2, as in the shipped configuration (0.75): whatever levels
are configured and whatever arrives at the slicer, only the symbols 1 and 2 come out. -/
theorem C71_negative_pam4 (levels : List ℝ) (h0 : ∃ l ∈ levels, l ≠ 0) (amp rx : ℝ) (ha : amp ≠ 0) (hrx : |rx| < 2)
    (x : List ℝ) :
    ∃ tx out, mappingDataLevels .pam4 (some levels) amp = .ok tx ∧
      recoverSymbols x .pam4 (receiverLevels tx amp rx) = .ok out ∧ out.length = x.length ∧
      ∀ s ∈ out, s = 1 ∨ s = 2 := by
  have hne : levels ≠ [] := by obtain ⟨l, hl, _⟩ := h0; exact List.ne_nil_of_mem hl
  have hpos := maxAbs_pos levels h0
  have hin : ∀ s ∈ (x.map (sliceOne (levels.map (fun v => v / maxAbs levels * rx)))).map (demapIdx [-3, -1, 1, 3]),
      s = 1 ∨ s = 2 := by
    intro s hs
    obtain ⟨y, hy, rfl⟩ := List.mem_map.1 hs
    obtain ⟨z, -, rfl⟩ := List.mem_map.1 hy
    apply demapIdx_pam4_inner
    obtain ⟨j, hj, hsj, -⟩ := sliceOne_spec (levels.map (fun v => v / maxAbs levels * rx)) (by simpa using hne) z
    have hm := List.getElem_mem hj
    rw [← hsj] at hm
    obtain ⟨v, hv, e⟩ := List.mem_map.1 hm
    rw [← e, abs_mul, abs_div, abs_of_pos hpos]
    have h1 : |v| / maxAbs levels ≤ 1 := (div_le_one hpos).2 (abs_le_maxAbs levels v hv)
    have h2 := mul_le_mul_of_nonneg_right h1 (abs_nonneg rx)
    linarith
  refine ⟨_, (x.map (sliceOne (levels.map (fun v => v / maxAbs levels * rx)))).map (demapIdx [-3, -1, 1, 3]),
    mappingDataLevels_some _ _ _ hne, ?_, by simp, hin⟩
  rw [receiverLevels_of _ _ _ ha, recoverSymbols_eq _ _ _ (by simpa using hne)]
  simp only [demapping, C18_levels_pam4, Bool.false_eq_true, if_false]
  rw [npTake_ok _ _ id, List.map_id]
  intro s hs
  rcases hin s hs with rfl | rfl <;> rfl

/-- the shipped levels and constants: amplitude 750, factor 0.75 -/
example (x : List ℝ) : ∃ tx out, mappingDataLevels .pam4 (some (getLevels .pam4 false)) 750 = .ok tx ∧
    recoverSymbols x .pam4 (receiverLevels tx 750 (3 / 4)) = .ok out ∧ out.length = x.length ∧ ∀ s ∈ out, s = 1 ∨ s = 2 :=
  C71_negative_pam4 _ ⟨-3, by simp [getLevels, intLevels], by norm_num⟩ 750 (3 / 4) (by norm_num)
    (by rw [abs_of_pos] <;> norm_num) x

end Verif
