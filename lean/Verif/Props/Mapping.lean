import Verif.Lemmas.Mapping

/-!
# Constellation levels, mapping and demapping (C17-C19)

Exact real arithmetic; rounding of floats is not modelled.
-/

namespace Verif

/-- number of levels of a constellation -/
def numLevels : Constellation → ℕ
  | .nrz => 2
  | .ook => 2
  | .pam3 => 3
  | .pam4 => 4

theorem numLevels_eq (c : Constellation) : (intLevels c).length = numLevels c := by cases c <;> rfl

/-- **C17.** Mapping returns one level per symbol and demapping (same flags) returns the symbols. -/
theorem C17_mapping_roundtrip (c : Constellation) (fs pn : Bool) (sym : List Int)
    (hs : ∀ x ∈ sym, 0 ≤ x ∧ x < numLevels c) :
    ∃ lv, mapping sym c fs none pn = .ok lv ∧ lv.length = sym.length ∧
      (demapping lv c fs pn).1 = .ok sym := by
  have hlen : (getLevels c fs).length = numLevels c := by rw [getLevels_length, numLevels_eq]
  have hgap : 0 < (getLevels c fs).getD 1 0 - (getLevels c fs).getD 0 0 := by
    obtain ⟨g, hg, e, _⟩ := getLevels_eq c fs
    rw [e]
    cases c <;> simp [intLevels] <;> linarith
  have hidx : ∀ x ∈ sym, demapIdx (getLevels c fs) ((getLevels c fs).getD x.toNat 0) = x := by
    intro x hx
    obtain ⟨h0, h1⟩ := hs x hx
    obtain ⟨n, rfl⟩ := Int.eq_ofNat_of_zero_le h0
    have hn : n < (getLevels c fs).length := by rw [hlen]; exact_mod_cast h1
    refine demapIdx_near c fs n ((getLevels c fs)[n]) (List.getElem?_eq_getElem hn) _ ?_
    rw [Int.toNat_natCast, List.getD_eq_getElem?_getD, List.getElem?_eq_getElem hn, Option.getD_some,
      sub_self, abs_zero]
    linarith
  have hdec : npTake ((List.range (getLevels c fs).length).map (fun (i : Nat) => (i : Int)))
      sym = .ok sym := by
    have := npTake_ok ((List.range (getLevels c fs).length).map (fun (i : Nat) => (i : Int))) sym id
      (by
        intro x hx
        obtain ⟨h0, h1⟩ := hs x hx
        obtain ⟨n, rfl⟩ := Int.eq_ofNat_of_zero_le h0
        have hn : n < (getLevels c fs).length := by rw [hlen]; exact_mod_cast h1
        exact npGet_arange _ _ hn)
    simpa using this
  cases pn with
  | false =>
    refine ⟨sym.map (fun x => (getLevels c fs).getD x.toNat 0), ?_, by simp, ?_⟩
    · simp only [mapping, Bool.false_eq_true, if_false]
      exact npTake_ok _ _ _ (fun x hx => npGet_valid _ 0 x (hs x hx).1 (by rw [hlen]; exact (hs x hx).2))
    · simp only [demapping, Bool.false_eq_true, if_false, List.map_map]
      rw [show sym.map (demapIdx (getLevels c fs) ∘ fun x => (getLevels c fs).getD x.toNat 0) = sym from by
        conv_rhs => rw [← List.map_id sym]
        exact List.map_congr_left (fun x hx => hidx x hx)]
      exact hdec
  | true =>
    refine ⟨sym.map (fun x => -1 * (getLevels c fs).getD x.toNat 0), ?_, by simp, ?_⟩
    · simp only [mapping, if_true]
      refine npTake_ok _ _ _ (fun x hx => ?_)
      rw [npGet_valid _ (-1 * 0) x (hs x hx).1 (by rw [List.length_map, hlen]; exact (hs x hx).2)]
      simp only [List.getD_eq_getElem?_getD, List.getElem?_map]
      cases (getLevels c fs)[x.toNat]? <;> simp
    · simp only [demapping, if_true, List.map_map]
      rw [show sym.map (demapIdx (getLevels c fs) ∘ (fun x => x * -1) ∘ fun x => -1 * (getLevels c fs).getD x.toNat 0) = sym from by
        conv_rhs => rw [← List.map_id sym]
        refine List.map_congr_left (fun x hx => ?_)
        simp only [Function.comp_apply, id]
        rw [show -1 * (getLevels c fs).getD x.toNat 0 * -1 = (getLevels c fs).getD x.toNat 0 by ring]
        exact hidx x hx]
      exact hdec

/-- **C17**, values and guards: with explicit levels of the right length each symbol `k` is mapped to
level `k` (negated with `pn_inv`); a wrong number of levels is rejected; a symbol outside the
constellation raises IndexError. -/
theorem C17_mapping_levels (c : Constellation) (fs pn : Bool) (sym : List Int) (lv : List ℝ) :
    (lv.length ≠ numLevels c → mapping sym c fs (some lv) pn = .error .valueError) ∧
    (lv.length = numLevels c → (∀ x ∈ sym, 0 ≤ x ∧ x < numLevels c) →
      mapping sym c fs (some lv) pn
        = .ok (sym.map (fun x => if pn then -(lv.getD x.toNat 0) else lv.getD x.toNat 0))) ∧
    (lv.length = numLevels c → (∃ x ∈ sym, (numLevels c : Int) ≤ x) →
      mapping sym c fs (some lv) pn = .error .indexError) := by
  have hlen : (getLevels c fs).length = numLevels c := by rw [getLevels_length, numLevels_eq]
  refine ⟨fun h => ?_, fun h hs => ?_, fun h hx => ?_⟩
  · simp only [mapping, hlen]
    rw [if_pos h]
  · simp only [mapping, hlen, h, ne_eq, not_true_eq_false, if_false]
    refine npTake_ok _ _ _ (fun x hx => ?_)
    cases pn with
    | false =>
      simp only [Bool.false_eq_true, if_false]
      exact npGet_valid _ 0 x (hs x hx).1 (by rw [h]; exact (hs x hx).2)
    | true =>
      simp only [if_true]
      rw [npGet_valid _ (-1 * 0) x (hs x hx).1 (by rw [List.length_map, h]; exact (hs x hx).2)]
      simp only [List.getD_eq_getElem?_getD, List.getElem?_map]
      cases lv[x.toNat]? <;> simp
  · simp only [mapping, hlen, h, ne_eq, not_true_eq_false, if_false]
    obtain ⟨x, hx, hle⟩ := hx
    refine npTake_error _ _ ⟨x, hx, ?_⟩
    obtain ⟨n, rfl⟩ := Int.eq_ofNat_of_zero_le (le_trans (by positivity) hle)
    have hn : numLevels c ≤ n := by exact_mod_cast hle
    exact npGet_large _ _ (by cases pn <;> simp [h, hn])

example : ∀ x ∈ ([0, 3, 1, 2, 2] : List Int), 0 ≤ x ∧ x < numLevels .pam4 := by decide

/-- **C18** (partial: samples inside the decision regions). A sample strictly closer than half the
level spacing to level `i` is demapped to `i`; with `pn_inv` the negated sample is used; without
`pn_inv` the caller's array is unchanged. Missing (and false, see below): samples far outside the
constellation, and unchanged input with `pn_inv`. -/
theorem C18_demapping_nearest_partial (c : Constellation) (fs pn : Bool) (sig : List ℝ) (sym : List ℕ)
    (hlen : sym.length = sig.length)
    (h : ∀ (i : ℕ) (s : ℝ) (k : ℕ), sig[i]? = some s → sym[i]? = some k →
      ∃ l, (getLevels c fs)[k]? = some l ∧
        |(if pn then -s else s) - l| < ((getLevels c fs).getD 1 0 - (getLevels c fs).getD 0 0) / 2) :
    (demapping sig c fs pn).1 = .ok (sym.map (fun (k : ℕ) => (k : Int))) ∧
      (pn = false → (demapping sig c fs pn).2 = sig) := by
  refine ⟨?_, fun hp => by simp [demapping, hp]⟩
  have hmap : (if pn then sig.map (fun x => x * -1) else sig).map (demapIdx (getLevels c fs))
      = sym.map (fun (k : ℕ) => (k : Int)) := by
    apply List.ext_getElem (by cases pn <;> simp [hlen])
    intro i h1 h2
    rw [List.length_map] at h2
    obtain ⟨l, hl, hd⟩ := h i (sig[i]'(by omega)) (sym[i]) (by simp) (by simp)
    cases pn with
    | false =>
      simp only [Bool.false_eq_true, if_false, List.getElem_map] at hd ⊢
      exact demapIdx_near c fs _ l hl _ hd
    | true =>
      simp only [if_true, List.getElem_map] at hd ⊢
      rw [mul_neg_one]
      exact demapIdx_near c fs _ l hl _ hd
  simp only [demapping, hmap]
  have := npTake_ok ((List.range (getLevels c fs).length).map (fun (i : Nat) => (i : Int)))
    (sym.map (fun (k : ℕ) => (k : Int))) id (by
      intro x hx
      rw [List.mem_map] at hx
      obtain ⟨k, hk, rfl⟩ := hx
      obtain ⟨i, hi, rfl⟩ := List.getElem_of_mem hk
      obtain ⟨l, hl, -⟩ := h i (sig[i]'(by omega)) (sym[i]) (by simp) (by simp)
      have hn : sym[i] < (getLevels c fs).length := by
        by_contra hc
        rw [List.getElem?_eq_none (by omega)] at hl
        simp at hl
      exact npGet_arange _ _ hn)
  simpa using this

theorem C18_levels_pam4 : getLevels .pam4 false = [-3, -1, 1, 3] := by
  simp [getLevels, intLevels]

/-- the hypotheses of C18 are satisfiable: a noisy PAM4 sample -/
example : (demapping [-(3.9 : ℝ), 0.25] .pam4 false false).1 = .ok [0, 2] := by
  refine (C18_demapping_nearest_partial .pam4 false false [-3.9, 0.25] [0, 2] rfl ?_).1
  intro i s k hs hk
  rw [C18_levels_pam4]
  match i with
  | 0 => simp at hs hk; subst hs hk; exact ⟨-3, rfl, by rw [abs_lt]; norm_num⟩
  | 1 => simp at hs hk; subst hs hk; exact ⟨1, rfl, by rw [abs_lt]; norm_num⟩
  | (n+2) => simp at hs

/-- index of a sample of unscaled PAM4 that is near the extended grid point `2k - 3` -/
theorem demapIdx_pam4 (s : ℝ) (k : Int) (h : |(s + 3) / 2 - k| < 1 / 2) :
    demapIdx [-3, -1, 1, 3] s = k := by
  unfold demapIdx
  rw [foldl_min_le _ _ (by
    intro x hx
    simp at hx ⊢
    rcases hx with rfl | rfl | rfl | rfl <;> norm_num)]
  apply roundHalfEven_of_abs
  simp only [List.getD_cons_zero, List.getD_cons_succ]
  norm_num at h ⊢
  exact h

/-- **C18** *violated* below the constellation: a PAM4 sample of -5 is decided as the *largest*
symbol 3 (index -1 wraps around). -/
theorem C18_negative_wrap : (demapping [-5] .pam4 false false).1 = .ok [3] := by
  have : demapIdx [-3, -1, 1, 3] (-5) = -1 := demapIdx_pam4 (-5) (-1) (by norm_num)
  simp only [demapping, C18_levels_pam4, Bool.false_eq_true, if_false, List.map_cons, List.map_nil, this]
  rfl

/-- **C18** *violated* above the constellation: a PAM4 sample of 5 raises IndexError. -/
theorem C18_negative_above : (demapping [5] .pam4 false false).1 = .error .indexError := by
  have : demapIdx [-3, -1, 1, 3] 5 = 4 := demapIdx_pam4 5 4 (by norm_num)
  simp only [demapping, C18_levels_pam4, Bool.false_eq_true, if_false, List.map_cons, List.map_nil, this]
  rfl

/-- **C18** *violated* for `pn_inv=True`: the caller's array is negated in place. -/
theorem C18_negative_mutates (c : Constellation) (fs : Bool) (sig : List ℝ) :
    (demapping sig c fs true).2 = sig.map (fun x => -x) := by
  simp [demapping]

/-- **C19.** The levels are strictly increasing and equally spaced, there are `numLevels` of them,
they are a positive multiple of the unscaled ones, and with `full_scale` the mean power is one. -/
theorem C19_levels (c : Constellation) (fs : Bool) :
    (getLevels c fs).length = numLevels c ∧
    (∃ d : ℝ, 0 < d ∧ ∀ (i : ℕ) (a b : ℝ), (getLevels c fs)[i]? = some a →
        (getLevels c fs)[i + 1]? = some b → b - a = d) ∧
    (∃ g : ℝ, 0 < g ∧ getLevels c fs = (getLevels c false).map (fun l => l * g)) ∧
    (fs = true → ((getLevels c fs).map (fun l : ℝ => (l ^ 2 : ℝ))).sum / (getLevels c fs).length = 1) := by
  refine ⟨by rw [getLevels_length, numLevels_eq], ?_, ?_, ?_⟩
  · obtain ⟨g, hg, e, _⟩ := getLevels_eq c fs
    rw [e]
    have key : ∀ (d : ℝ), 0 < d → (∀ (i : ℕ) (a b : ℝ), i < numLevels c - 1 →
        ((intLevels c).map (fun (z : Int) => (z:ℝ) * g))[i]? = some a →
        ((intLevels c).map (fun (z : Int) => (z:ℝ) * g))[i + 1]? = some b → b - a = d) →
        ∃ d : ℝ, 0 < d ∧ ∀ (i : ℕ) (a b : ℝ),
        ((intLevels c).map (fun (z : Int) => (z:ℝ) * g))[i]? = some a →
        ((intLevels c).map (fun (z : Int) => (z:ℝ) * g))[i + 1]? = some b → b - a = d := by
      intro d hd h
      refine ⟨d, hd, fun i a b ha hb => h i a b ?_ ha hb⟩
      by_contra hc
      rw [List.getElem?_eq_none (by rw [List.length_map, numLevels_eq]; omega)] at hb
      simp at hb
    cases c
    · refine key (2 * g) (by linarith) (fun i a b hi ha hb => ?_)
      simp only [numLevels] at hi; interval_cases i
      simp [intLevels] at ha hb; subst ha hb; ring
    · refine key g (by linarith) (fun i a b hi ha hb => ?_)
      simp only [numLevels] at hi; interval_cases i
      simp [intLevels] at ha hb; subst ha hb; ring
    · refine key g (by linarith) (fun i a b hi ha hb => ?_)
      simp only [numLevels] at hi
      interval_cases i <;> simp [intLevels] at ha hb <;> subst ha hb <;> ring
    · refine key (2 * g) (by linarith) (fun i a b hi ha hb => ?_)
      simp only [numLevels] at hi
      interval_cases i <;> simp [intLevels] at ha hb <;> subst ha hb <;> ring
  · obtain ⟨g, hg, e, _⟩ := getLevels_eq c fs
    refine ⟨g, hg, ?_⟩
    rw [e]
    simp [getLevels]
  · intro h
    obtain ⟨g, hg, _, _, e⟩ := getLevels_eq c fs
    exact e h

/-- the unscaled levels are the documented ones -/
theorem C19_levels_documented :
    getLevels .nrz false = [-1, 1] ∧ getLevels .ook false = [0, 1] ∧
    getLevels .pam3 false = [-1, 0, 1] ∧ getLevels .pam4 false = [-3, -1, 1, 3] := by
  simp [getLevels, intLevels]

end Verif
