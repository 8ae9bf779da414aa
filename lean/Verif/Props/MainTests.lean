import Verif.Model.MainTests
import Verif.Props.Mapping
import Verif.Spec.Framing
import Verif.Props.Delay
import Verif.Props.ErrorRate
import Verif.Lemmas.BitErrors
import Verif.Lemmas.RoundedLevels

/-!
# The tests with literal data (C104)
-/

namespace Verif
open Spec (IsBinary)

theorem coded1Nrz_eq : coded1Nrz = [-1, 1, -1, 1, -1, -1, 1, 1, -1, 1, -1, -1, -1, 1, 1, 1] := by
  norm_num [coded1Nrz, coded1]

theorem coded1Ook_eq : coded1Ook = [0, 1, 0, 1, 0, 0, 1, 1, 0, 1, 0, 0, 0, 1, 1, 1] := by
  norm_num [coded1Ook, coded1Nrz_eq]

theorem ok_bind {α β : Type} {x : Py α} {a : α} {f : α → Py β} {b : Py β} (h : x = .ok a) (h2 : f a = b) : (x >>= f) = b := by
  subst h
  exact h2

theorem gray_pattern2 : codingGray pattern2 .pam4 = .ok [0, 1, 3, 2, 0, 0, 1, 1, 3, 3, 2, 2, 0, 0, 0, 1, 1, 1, 3, 3, 3, 2, 2, 2] := by
  decide +kernel

theorem gray_pattern1 : codingGray pattern1 .pam4 = .ok pattern1 ∧ codingGray pattern1 .nrz = .ok pattern1 ∧
    codingGray pattern1 .ook = .ok pattern1 := by
  decide +kernel

/-- **C104.** A mapping that works symbol by symbol on valid symbols passes the test exactly if its values are the levels of the
documentation, negated for `pn_inv`. -/
theorem C104_mapping_complete (mp : List ℤ → Constellation → Bool → Bool → Py (List ℝ)) (v : Constellation → Bool → ℤ → ℝ)
    (hmp : ∀ (p : List ℤ) c pn, (∀ x : ℤ, x ∈ p → 0 ≤ x ∧ x < (numLevels c : ℤ)) → mp p c false pn = .ok (p.map (v c pn))) :
    grayMappingTest mp ↔
      (∀ pn : Bool, ∀ x : ℤ, 0 ≤ x ∧ x < 4 → v .pam4 pn x = (if pn then -1 else 1) * (2 * x - 3)) ∧
      (∀ pn : Bool, ∀ x : ℤ, 0 ≤ x ∧ x < 2 → v .nrz pn x = (if pn then -1 else 1) * (2 * x - 1)) ∧
      (∀ pn : Bool, ∀ x : ℤ, 0 ≤ x ∧ x < 2 → v .ook pn x = (if pn then -1 else 1) * x) := by
  have d2 : ∀ x ∈ pattern2, 0 ≤ x ∧ x < numLevels .pam4 := by decide
  have d3 : ∀ x ∈ ([0, 1, 3, 2, 0, 0, 1, 1, 3, 3, 2, 2, 0, 0, 0, 1, 1, 1, 3, 3, 3, 2, 2, 2] : List ℤ), 0 ≤ x ∧ x < numLevels .pam4 := by decide
  have d1 : ∀ x ∈ pattern1, 0 ≤ x ∧ x < numLevels .pam4 := by decide
  have d1n : ∀ x ∈ pattern1, 0 ≤ x ∧ x < numLevels .nrz := by decide
  have d1o : ∀ x ∈ pattern1, 0 ≤ x ∧ x < numLevels .ook := by decide
  unfold grayMappingTest mappingAsserts
  rw [gray_pattern2, gray_pattern1.1, gray_pattern1.2.1, gray_pattern1.2.2]
  simp only [bind, Except.bind, hmp _ _ _ d2, hmp _ _ _ d3, hmp _ _ _ d1, hmp _ _ _ d1n, hmp _ _ _ d1o]
  rw [coded1Nrz_eq, coded1Ook_eq]
  simp only [pattern1, pattern2, coded2, coded2Gray, coded1, neg, Except.ok.injEq, List.map_cons, List.map_nil, List.cons.injEq, and_true]
  constructor
  · intro h
    refine ⟨fun pn x hx => ?_, fun pn x hx => ?_, fun pn x hx => ?_⟩
    all_goals
      obtain ⟨h1, h2⟩ := hx
      cases pn <;> interval_cases x <;> norm_num <;> norm_num at h <;> tauto
  · rintro ⟨h1, h2, h3⟩
    have a := fun pn => h1 pn 0 (by decide)
    have b := fun pn => h1 pn 1 (by decide)
    have c := fun pn => h1 pn 2 (by decide)
    have d := fun pn => h1 pn 3 (by decide)
    have e := fun pn => h2 pn 0 (by decide)
    have f := fun pn => h2 pn 1 (by decide)
    have g := fun pn => h3 pn 0 (by decide)
    have k := fun pn => h3 pn 1 (by decide)
    simp only [a, b, c, d, e, f, g, k]
    norm_num

/-- **C104.** A demapping that works sample by sample passes the test exactly if it is right at the levels of PAM4 and NRZ with and
without inversion, right at the levels of OOK without inversion, and turns -1 into 1 and 0 into 0 for OOK with `full_scale=True`. -/
theorem C104_demapping_complete (v : Constellation → Bool → Bool → ℝ → ℤ) (hv : ∀ c fs pn s, 0 ≤ v c fs pn s ∧ v c fs pn s < numLevels c) :
    grayDemappingTest (fun s c fs pn => .ok (s.map (v c fs pn))) ↔
      (∀ pn : Bool, ∀ x : ℤ, 0 ≤ x ∧ x < 4 → v .pam4 false pn ((if pn then -1 else 1) * (2 * x - 3)) = x) ∧
      (∀ pn : Bool, ∀ x : ℤ, 0 ≤ x ∧ x < 2 → v .nrz false pn ((if pn then -1 else 1) * (2 * x - 1)) = x) ∧
      (∀ x : ℤ, 0 ≤ x ∧ x < 2 → v .ook false false x = x) ∧ (∀ x : ℤ, 0 ≤ x ∧ x < 2 → v .ook true false (-x) = x) := by
  unfold grayDemappingTest demappingAsserts demappingAssertsOok
  rw [coded1Nrz_eq, coded1Ook_eq]
  have hd4 : ∀ p : List ℤ, (∀ x ∈ p, 0 ≤ x ∧ x < 4) → decodingGray p .pam4 = .ok (p.map gray4b) := fun p hp =>
    npTake_ok [(0:Int), 1, 3, 2] p gray4b (fun x hx => by
      obtain ⟨h1, h2⟩ := hp x hx
      interval_cases x <;> rfl)
  have hd2 : ∀ p : List ℤ, (∀ x ∈ p, 0 ≤ x ∧ x < 2) → npTake [0, 1] p = .ok p := fun p hp => by
    have := npTake_ok [(0:Int), 1] p id (fun x hx => by
      obtain ⟨h1, h2⟩ := hp x hx
      interval_cases x <;> rfl)
    rwa [List.map_id] at this
  have hn : ∀ p, decodingGray p .nrz = npTake [0, 1] p := fun _ => rfl
  have ho : ∀ p, decodingGray p .ook = npTake [0, 1] p := fun _ => rfl
  have m4 : ∀ (s : List ℝ) fs pn, ∀ x ∈ s.map (v .pam4 fs pn), 0 ≤ x ∧ x < 4 := fun s fs pn x hx => by
    obtain ⟨z, -, rfl⟩ := List.mem_map.1 hx
    exact_mod_cast hv .pam4 fs pn z
  have mn : ∀ (s : List ℝ) fs pn, ∀ x ∈ s.map (v .nrz fs pn), 0 ≤ x ∧ x < 2 := fun s fs pn x hx => by
    obtain ⟨z, -, rfl⟩ := List.mem_map.1 hx
    exact_mod_cast hv .nrz fs pn z
  have mo : ∀ (s : List ℝ) fs pn, ∀ x ∈ s.map (v .ook fs pn), 0 ≤ x ∧ x < 2 := fun s fs pn x hx => by
    obtain ⟨z, -, rfl⟩ := List.mem_map.1 hx
    exact_mod_cast hv .ook fs pn z
  simp only [bind, Except.bind, hn, ho, hd4 _ (m4 _ _ _), hd2 _ (mn _ _ _), hd2 _ (mo _ _ _)]
  simp only [pattern1, pattern2, coded2, coded2Gray, coded1, neg, Except.ok.injEq, List.map_cons, List.map_nil, List.cons.injEq, and_true]
  have q2 : ((-1 : ℝ) * 1) = -1 := by norm_num
  have q1 : ((-1 : ℝ) * -1) = 1 := by norm_num
  have q3 : ((-1 : ℝ) * 3) = -3 := by norm_num
  have q4 : ((-1 : ℝ) * -3) = 3 := by norm_num
  have q5 : ((-1 : ℝ) * 0) = 0 := by norm_num
  simp only [q1, q2, q3, q4, q5]
  constructor
  · rintro ⟨⟨⟨a0, a1, a2, a3, -⟩, -, ⟨b0, b1, b2, b3, -⟩, -⟩, -, ⟨⟨c0, c1, -⟩, -, ⟨d0, d1, -⟩, -⟩, ⟨⟨e0, e1, -⟩, -, ⟨f0, f1, -⟩, -⟩⟩
    refine ⟨fun pn x hx => ?_, fun pn x hx => ?_, fun x hx => ?_, fun x hx => ?_⟩
    · obtain ⟨h1, h2⟩ := hx
      cases pn <;> interval_cases x <;> norm_num <;> assumption
    · obtain ⟨h1, h2⟩ := hx
      cases pn <;> interval_cases x <;> norm_num <;> assumption
    · obtain ⟨h1, h2⟩ := hx
      interval_cases x <;> norm_num <;> assumption
    · obtain ⟨h1, h2⟩ := hx
      interval_cases x <;> norm_num <;> assumption
  · rintro ⟨h1, h2, h3, h4⟩
    have a0 := h1 false 0 (by decide)
    have a1 := h1 false 1 (by decide)
    have a2 := h1 false 2 (by decide)
    have a3 := h1 false 3 (by decide)
    have b0 := h1 true 0 (by decide)
    have b1 := h1 true 1 (by decide)
    have b2 := h1 true 2 (by decide)
    have b3 := h1 true 3 (by decide)
    have c0 := h2 false 0 (by decide)
    have c1 := h2 false 1 (by decide)
    have d0 := h2 true 0 (by decide)
    have d1 := h2 true 1 (by decide)
    have e0 := h3 0 (by decide)
    have e1 := h3 1 (by decide)
    have f0 := h4 0 (by decide)
    have f1 := h4 1 (by decide)
    norm_num at a0 a1 a2 a3 b0 b1 b2 b3 c0 c1 d0 d1 e0 e1 f0 f1
    simp only [a0, a1, a2, a3, b0, b1, b2, b3, c0, c1, d0, d1, e0, e1, f0, f1]
    simp [gray4b]

/-- **C104** *violated* as a test of `pn_inv`: the test cannot tell two functions apart that differ for OOK with `pn_inv=True` only,
because it hands the inversion over as `full_scale`. -/
theorem C104_negative_ook (dm dm' : List ℝ → Constellation → Bool → Bool → Py (List ℤ))
    (h : ∀ s c fs pn, ¬ (c = .ook ∧ pn = true) → dm s c fs pn = dm' s c fs pn) : grayDemappingTest dm ↔ grayDemappingTest dm' := by
  have e1 : ∀ s fs pn, dm s .pam4 fs pn = dm' s .pam4 fs pn := fun s fs pn => h s _ fs pn (by simp)
  have e2 : ∀ s fs pn, dm s .nrz fs pn = dm' s .nrz fs pn := fun s fs pn => h s _ fs pn (by simp)
  have e3 : ∀ s fs, dm s .ook fs false = dm' s .ook fs false := fun s fs => h s _ fs _ (by simp)
  unfold grayDemappingTest demappingAsserts demappingAssertsOok
  simp only [e1, e2, e3]

/-- the library's mapping, valid symbols -/
theorem mapping_formula (p : List ℤ) (c : Constellation) (pn : Bool) (h : ∀ x : ℤ, x ∈ p → 0 ≤ x ∧ x < (numLevels c : ℤ)) :
    mapping p c false none pn = .ok (p.map fun x => (if pn then -1 else 1) * (getLevels c false).getD x.toNat 0) := by
  cases pn with
  | false => rw [mapping_values c false p h]; simp
  | true =>
    have hlen : (getLevels c false).length = numLevels c := by rw [getLevels_length, numLevels_eq]
    simp only [mapping, if_true]
    refine npTake_ok _ _ _ (fun x hx => ?_)
    rw [npGet_valid _ 0 x (h x hx).1 (by rw [List.length_map, hlen]; exact (h x hx).2)]
    rw [getD_map_lt _ 0 0 _ (by rw [hlen]; have := h x hx; omega)]

theorem levels_nrz : getLevels .nrz false = [-1, 1] := by simp [getLevels, intLevels]

theorem levels_ook : getLevels .ook false = [0, 1] := by simp [getLevels, intLevels]

/-- the library's mapping passes its test -/
theorem grayMapping_pass : grayMappingTest (fun p c fs pn => mapping p c fs none pn) := by
  refine (C104_mapping_complete _ _ mapping_formula).2 ⟨?_, ?_, ?_⟩
  · rintro pn x ⟨h1, h2⟩
    rw [C18_levels_pam4]
    interval_cases x
    · norm_num
    · norm_num
    · cases pn <;> norm_num <;> rfl
    · cases pn <;> norm_num <;> rfl
  · rintro pn x ⟨h1, h2⟩
    rw [levels_nrz]
    interval_cases x <;> norm_num
  · rintro pn x ⟨h1, h2⟩
    rw [levels_ook]
    interval_cases x <;> norm_num

theorem roundHalfEven_near (x : ℝ) (h : |x| < 3 / 2) :
    (|x| ≤ 1 / 2 ∧ Verif.roundHalfEven x = 0) ∨ (1 / 2 < x ∧ Verif.roundHalfEven x = 1) ∨ (x < -(1 / 2) ∧ Verif.roundHalfEven x = -1) := by
  rw [abs_lt] at h
  rcases lt_or_ge (1 / 2) x with h1 | h1
  · exact Or.inr (Or.inl ⟨h1, roundHalfEven_of_abs _ _ (by push_cast; rw [abs_lt]; constructor <;> linarith)⟩)
  rcases lt_or_ge x (-(1 / 2)) with h2 | h2
  · exact Or.inr (Or.inr ⟨h2, roundHalfEven_of_abs _ _ (by push_cast; rw [abs_lt]; constructor <;> linarith)⟩)
  refine Or.inl ⟨abs_le.2 ⟨h2, h1⟩, ?_⟩
  rcases eq_or_lt_of_le h1 with e | h3
  · subst e
    have : ⌊(1 / 2 : ℝ)⌋ = 0 := by rw [Int.floor_eq_iff]; norm_num
    simp only [Verif.roundHalfEven, this]
    norm_num
  rcases eq_or_lt_of_le h2 with e | h4
  · subst e
    have : ⌊(-(1 / 2) : ℝ)⌋ = -1 := by rw [Int.floor_eq_iff]; norm_num
    simp only [Verif.roundHalfEven, this]
    norm_num
  · exact roundHalfEven_of_abs _ _ (by push_cast; rw [abs_lt]; constructor <;> linarith)

/-- the index of one OOK sample, in either polarity -/
theorem ook_index (fs : Bool) (s : ℝ) (h : |s| < 3 / 2 * ((getLevels .ook fs).getD 1 0 - (getLevels .ook fs).getD 0 0)) :
    npGet (([0, 1] : List ℕ).map fun i : ℕ => (i : ℤ)) (demapIdx (getLevels .ook fs) s)
      = .ok (if |s| ≤ 1 / 2 * ((getLevels .ook fs).getD 1 0 - (getLevels .ook fs).getD 0 0) then 0 else 1) := by
  obtain ⟨g, hg, e, -⟩ := getLevels_eq .ook fs
  have e2 : getLevels .ook fs = [0, g] := by rw [e]; simp [intLevels]
  rw [demapIdx_pos]
  unfold levelPos
  rw [e2] at h ⊢
  simp only [List.getD_cons_zero, List.getD_cons_succ, sub_zero] at h ⊢
  have h' : |s / g| < 3 / 2 := by rw [abs_div, abs_of_pos hg, div_lt_iff₀ hg]; exact h
  rcases roundHalfEven_near _ h' with ⟨h1, h2⟩ | ⟨h1, h2⟩ | ⟨h1, h2⟩
  · rw [h2, if_pos]
    · rfl
    · rwa [abs_div, abs_of_pos hg, div_le_iff₀ hg] at h1
  · rw [h2, if_neg]
    · rfl
    · rw [lt_div_iff₀ hg] at h1
      rw [not_le]
      exact lt_of_lt_of_le h1 (le_abs_self _)
  · rw [h2, if_neg]
    · rfl
    · rw [div_lt_iff₀ hg] at h1
      rw [not_le]
      have := neg_le_abs s
      linarith

theorem ook_demapping (fs : Bool) (sig : List ℝ)
    (hs : ∀ s ∈ sig, |s| < 3 / 2 * ((getLevels .ook fs).getD 1 0 - (getLevels .ook fs).getD 0 0)) :
    (demapping sig .ook fs false).1 = .ok (sig.map fun s =>
      if |s| ≤ 1 / 2 * ((getLevels .ook fs).getD 1 0 - (getLevels .ook fs).getD 0 0) then 0 else 1) := by
  have hlen : (getLevels .ook fs).length = 2 := by rw [getLevels_length]; rfl
  simp only [demapping, Bool.false_eq_true, if_false, hlen]
  unfold npTake
  rw [List.mapM_map]
  clear hlen
  induction sig with
  | nil => rfl
  | cons s l ih =>
    rw [List.mapM_cons, ih fun z hz => hs z (List.mem_cons_of_mem _ hz)]
    have h := ook_index fs s (hs s List.mem_cons_self)
    simp only [Function.comp]
    rw [show (List.range 2) = [0, 1] from rfl, h]
    rfl

/-- **C104.** Why the wrong argument goes unnoticed: negative indices wrap around, so that for OOK the polarity does not matter.
For every signal within one and a half level distances of zero, `demapping` gives the same symbols with and without `pn_inv`. -/
theorem C104_ook_polarity (fs : Bool) (sig : List ℝ)
    (hs : ∀ s ∈ sig, |s| < 3 / 2 * ((getLevels .ook fs).getD 1 0 - (getLevels .ook fs).getD 0 0)) :
    ∃ sym, IsBinary sym ∧ (demapping sig .ook fs false).1 = .ok sym ∧ (demapping sig .ook fs true).1 = .ok sym := by
  have e : (demapping sig .ook fs true).1 = (demapping (sig.map fun x => x * -1) .ook fs false).1 := by
    simp [demapping]
  refine ⟨_, ?_, ook_demapping fs sig hs, ?_⟩
  · intro x hx
    obtain ⟨s, -, rfl⟩ := List.mem_map.1 hx
    split <;> simp
  · rw [e, ook_demapping fs _ (fun s hs' => by
      obtain ⟨z, hz, rfl⟩ := List.mem_map.1 hs'
      rw [mul_neg_one, abs_neg]
      exact hs z hz), List.map_map]
    simp [Function.comp_def]

theorem demapping_ook_full : (demapping (neg coded1Ook) .ook true false).1 = .ok pattern1 := by
  obtain ⟨g, hg, e, -, hp⟩ := getLevels_eq .ook true
  have e2 : getLevels .ook true = [0, g] := by rw [e]; simp [intLevels]
  have hg2 : g ^ 2 = 2 := by
    have := hp rfl
    rw [e2] at this
    norm_num at this
    linarith
  have h1 : 1 < g := by nlinarith
  have h2 : g < 2 := by nlinarith
  have hlt : (1 : ℝ) < 3 / 2 * g := by linarith
  have hgt : ¬ (1 : ℝ) ≤ 1 / 2 * g := by linarith
  have hz : (0 : ℝ) ≤ 1 / 2 * g := by linarith
  rw [coded1Ook_eq, ook_demapping true _ (by rw [e2]; simp [neg, hlt, hg])]
  rw [e2]
  simp only [neg, List.map_cons, List.map_nil, List.getD_cons_zero, List.getD_cons_succ, sub_zero, mul_one, mul_zero, abs_neg, abs_one, abs_zero,
    if_pos hz, if_neg hgt]
  rfl

/-- the library's demapping at levels given by a formula -/
theorem demapping_levels (c : Constellation) (v : ℤ → ℝ) (hv : ∀ x : ℤ, 0 ≤ x ∧ x < (numLevels c : ℤ) → (getLevels c false).getD x.toNat 0 = v x)
    (pn : Bool) (sym : List ℤ) (hs : ∀ x : ℤ, x ∈ sym → 0 ≤ x ∧ x < (numLevels c : ℤ)) :
    (demapping (sym.map fun x => (if pn then -1 else 1) * v x) c false pn).1 = .ok sym := by
  obtain ⟨lv', h1, -, h2⟩ := C17_mapping_roundtrip c false pn sym hs
  rw [mapping_formula sym c pn hs] at h1
  have e := Except.ok.inj h1
  rw [← e] at h2
  have e2 : (sym.map fun x => (if pn then -1 else 1) * v x)
      = sym.map fun x => (if pn then -1 else 1) * (getLevels c false).getD x.toNat 0 :=
    List.map_congr_left fun x hx => by rw [hv x (hs x hx)]
  rw [e2, h2]

theorem levels_pam4_formula (x : ℤ) (h : 0 ≤ x ∧ x < (numLevels .pam4 : ℤ)) : (getLevels .pam4 false).getD x.toNat 0 = 2 * (x : ℝ) - 3 := by
  have h' : 0 ≤ x ∧ x < 4 := h
  obtain ⟨h1, h2⟩ := h'
  rw [C18_levels_pam4]
  clear h
  interval_cases x
  · norm_num
  · norm_num
  · norm_num; rfl
  · norm_num; rfl

theorem levels_nrz_formula (x : ℤ) (h : 0 ≤ x ∧ x < (numLevels .nrz : ℤ)) : (getLevels .nrz false).getD x.toNat 0 = 2 * (x : ℝ) - 1 := by
  have h' : 0 ≤ x ∧ x < 2 := h
  obtain ⟨h1, h2⟩ := h'
  rw [levels_nrz]
  clear h
  interval_cases x <;> norm_num

theorem levels_ook_formula (x : ℤ) (h : 0 ≤ x ∧ x < (numLevels .ook : ℤ)) : (getLevels .ook false).getD x.toNat 0 = (x : ℝ) := by
  have h' : 0 ≤ x ∧ x < 2 := h
  obtain ⟨h1, h2⟩ := h'
  rw [levels_ook]
  clear h
  interval_cases x <;> norm_num

theorem demap_pam4 (pn : Bool) (sym : List ℤ) (lv : List ℝ) (hs : ∀ x : ℤ, x ∈ sym → 0 ≤ x ∧ x < (numLevels .pam4 : ℤ))
    (h : (sym.map fun x : ℤ => (if pn then (-1 : ℝ) else 1) * (2 * (x : ℝ) - 3)) = lv) : (demapping lv .pam4 false pn).1 = .ok sym := by
  rw [← h]
  exact demapping_levels .pam4 _ levels_pam4_formula pn sym hs

theorem demap_nrz (pn : Bool) (sym : List ℤ) (lv : List ℝ) (hs : ∀ x : ℤ, x ∈ sym → 0 ≤ x ∧ x < (numLevels .nrz : ℤ))
    (h : (sym.map fun x : ℤ => (if pn then (-1 : ℝ) else 1) * (2 * (x : ℝ) - 1)) = lv) : (demapping lv .nrz false pn).1 = .ok sym := by
  rw [← h]
  exact demapping_levels .nrz _ levels_nrz_formula pn sym hs

theorem demap_ook (sym : List ℤ) (lv : List ℝ) (hs : ∀ x : ℤ, x ∈ sym → 0 ≤ x ∧ x < (numLevels .ook : ℤ))
    (h : (sym.map fun x : ℤ => (x : ℝ)) = lv) : (demapping lv .ook false false).1 = .ok sym := by
  rw [← h]
  have := demapping_levels .ook _ levels_ook_formula false sym hs
  simpa using this

theorem grayDemapping_pass : grayDemappingTest (fun s c fs pn => (demapping s c fs pn).1) := by
  have d2 : ∀ x ∈ pattern2, 0 ≤ x ∧ x < (numLevels .pam4 : ℤ) := by decide
  have d3 : ∀ x ∈ ([0, 1, 3, 2, 0, 0, 1, 1, 3, 3, 2, 2, 0, 0, 0, 1, 1, 1, 3, 3, 3, 2, 2, 2] : List ℤ), 0 ≤ x ∧ x < (numLevels .pam4 : ℤ) := by
    decide
  have d1 : ∀ x ∈ pattern1, 0 ≤ x ∧ x < (numLevels .pam4 : ℤ) := by decide
  have d1n : ∀ x ∈ pattern1, 0 ≤ x ∧ x < (numLevels .nrz : ℤ) := by decide
  have d1o : ∀ x ∈ pattern1, 0 ≤ x ∧ x < (numLevels .ook : ℤ) := by decide
  have g4 : decodingGray [0, 1, 3, 2, 0, 0, 1, 1, 3, 3, 2, 2, 0, 0, 0, 1, 1, 1, 3, 3, 3, 2, 2, 2] .pam4 = .ok pattern2 := by decide +kernel
  have g1 : decodingGray pattern1 .pam4 = .ok pattern1 := by decide +kernel
  have g1n : decodingGray pattern1 .nrz = .ok pattern1 := by decide +kernel
  have g1o : decodingGray pattern1 .ook = .ok pattern1 := by decide +kernel
  have r1 := demap_pam4 false _ coded2 d2 (by norm_num [coded2, pattern2])
  have r2 := demap_pam4 false _ coded2Gray d3 (by norm_num [coded2Gray])
  have r3 := demap_pam4 true _ (neg coded2) d2 (by norm_num [coded2, pattern2, neg])
  have r4 := demap_pam4 true _ (neg coded2Gray) d3 (by norm_num [coded2Gray, neg])
  have s1 := demap_pam4 false _ coded1 d1 (by norm_num [coded1, pattern1])
  have s3 := demap_pam4 true _ (neg coded1) d1 (by norm_num [coded1, pattern1, neg])
  have t1 := demap_nrz false _ coded1Nrz d1n (by norm_num [coded1Nrz_eq, pattern1])
  have t3 := demap_nrz true _ (neg coded1Nrz) d1n (by norm_num [coded1Nrz_eq, pattern1, neg])
  have u1 := demap_ook _ coded1Ook d1o (by norm_num [coded1Ook_eq, pattern1])
  unfold grayDemappingTest demappingAsserts demappingAssertsOok
  refine ⟨⟨r1, ?_, r3, ?_⟩, ⟨s1, ?_, s3, ?_⟩, ⟨t1, ?_, t3, ?_⟩, u1, ?_, demapping_ook_full, ?_⟩
  · exact ok_bind r2 g4
  · exact ok_bind r4 g4
  · exact ok_bind s1 g1
  · exact ok_bind s3 g1
  · exact ok_bind t1 g1n
  · exact ok_bind t3 g1n
  · exact ok_bind u1 g1o
  · exact ok_bind demapping_ook_full g1o

/-- **C104.** The literal tests of the repository pass. -/
theorem C104_pass :
    digDelayTest (K := ℚ) (lagrangeCoeffs wrap64) ∧ bufferTest (fun a l o d c => buffer a l o d c) ∧
      grayMappingTest (fun p c fs pn => mapping p c fs none pn) ∧ grayDemappingTest (fun s c fs pn => (demapping s c fs pn).1) := by
  refine ⟨?_, ?_, grayMapping_pass, grayDemapping_pass⟩
  · unfold digDelayTest
    decide +kernel
  · unfold bufferTest
    decide +kernel

/-- **C104** *violated* as a test of the Lagrange coefficients: the sinc coefficients pass it too. -/
theorem C104_negative_delay : digDelayTest (K := ℝ) (fun n alpha forward => .ok (sincCoeffs n alpha forward)) := by
  refine ⟨?_, ?_, ?_, ?_, ?_, ?_⟩
  · exact congrArg Except.ok ((C64_sinc 1 0 true).2.2 0 (by norm_num) (by norm_num) |>.trans (by simp [List.range_succ]))
  · exact congrArg Except.ok ((C64_sinc 1 1 true).2.2 1 (by norm_num) (by norm_num) |>.trans (by simp [List.range_succ]))
  · exact congrArg Except.ok ((C64_sinc 2 0 true).2.2 1 (by norm_num) (by norm_num) |>.trans (by simp [List.range_succ]))
  · exact congrArg Except.ok ((C64_sinc 2 1 true).2.2 2 (by norm_num) (by norm_num) |>.trans (by simp [List.range_succ]))
  · exact congrArg Except.ok ((C64_sinc 3 0 true).2.2 1 (by norm_num) (by norm_num) |>.trans (by simp [List.range_succ]))
  · exact congrArg Except.ok ((C64_sinc 3 0 false).2.2 2 (by norm_num) (by norm_num) |>.trans (by simp [List.range_succ]))

/-- a single sample decoder as `C104_demapping_complete` expects it, which passes: the sign of the sample is ignored for OOK -/
noncomputable def absDemap (c : Constellation) (_ pn : Bool) (s : ℝ) : ℤ :=
  match c with
  | .pam4 => if (if pn then -s else s) = -3 then 0 else if (if pn then -s else s) = -1 then 1 else if (if pn then -s else s) = 1 then 2 else 3
  | .nrz => if (if pn then -s else s) = 1 then 1 else 0
  | .ook => if |s| = 1 then 1 else 0
  | .pam3 => 0

/-- the hypotheses of `C104_demapping_complete` can be met, and its conditions too -/
example : grayDemappingTest (fun s c fs pn => .ok (s.map (absDemap c fs pn))) := by
  refine (C104_demapping_complete absDemap ?_).2 ⟨?_, ?_, ?_, ?_⟩
  · intro c fs pn s
    cases c <;> simp only [absDemap, numLevels] <;> repeat' split_ifs
    all_goals decide
  all_goals
    first | rintro pn x ⟨h1, h2⟩ | rintro x ⟨h1, h2⟩
    interval_cases x <;> first | (cases pn <;> norm_num [absDemap]) | norm_num [absDemap]

/-- an inverted OOK signal, read with and without `pn_inv` -/
example : ∃ sym, IsBinary sym ∧ (demapping [0, -1, -1, 0.25] .ook false false).1 = .ok sym ∧
    (demapping [0, -1, -1, 0.25] .ook false true).1 = .ok sym :=
  C104_ook_polarity false _ (by rw [levels_ook]; norm_num [abs_lt])

/-- a function that is wrong for OOK with `pn_inv=True` -/
example : grayDemappingTest (fun s c fs pn => if c = .ook ∧ pn = true then .error .valueError else (demapping s c fs pn).1) :=
  (C104_negative_ook _ _ fun _ _ _ _ h => if_neg h).2 C104_pass.2.2.2

/-- the frames of two samples that the test expects: those that begin before the end of the signal (behind `d` zeros), with
`clip` only those that end before it -/
def testFrames (ov : ℤ) (d : ℕ) (clip : Bool) : List (List ℤ) :=
  ((List.range 9).filter fun r : ℕ => if clip then (r : ℤ) * (2 - ov) + 2 ≤ d + 7 else (r : ℤ) * (2 - ov) < d + 7 - max ov 0).map
    fun r : ℕ => (List.range 2).map fun c : ℕ => Spec.sample [1, 2, 3, 4, 5, 6, 7] ((r : ℤ) * (2 - ov) + c - d)

/-- **C104.** What `test_buffer` verifies: a function passes iff it returns the right frames for the four pairs of overlap and
delay, with and without clipping. Nothing is said about other frame lengths, signals or delays with overlap. -/
theorem C104_buffer (buf : List ℤ → ℕ → ℤ → ℕ → Bool → Py (List (List ℤ))) :
    bufferTest buf ↔ ∀ p ∈ [((0 : ℤ), 2), (1, 0), (-1, 0), (-2, 0)], ∀ clip,
      buf [1, 2, 3, 4, 5, 6, 7] 2 p.1 p.2 clip = .ok (testFrames p.1 p.2 clip) := by
  have e1 : testFrames 0 2 false = [[0, 0], [1, 2], [3, 4], [5, 6], [7, 0]] := by decide
  have e2 : testFrames 0 2 true = [[0, 0], [1, 2], [3, 4], [5, 6]] := by decide
  have e3 : testFrames 1 0 true = [[1, 2], [2, 3], [3, 4], [4, 5], [5, 6], [6, 7]] := by decide
  have e4 : testFrames 1 0 false = [[1, 2], [2, 3], [3, 4], [4, 5], [5, 6], [6, 7]] := by decide
  have e5 : testFrames (-1) 0 false = [[1, 2], [4, 5], [7, 0]] := by decide
  have e6 : testFrames (-1) 0 true = [[1, 2], [4, 5]] := by decide
  have e7 : testFrames (-2) 0 false = [[1, 2], [5, 6]] := by decide
  have e8 : testFrames (-2) 0 true = [[1, 2], [5, 6]] := by decide
  unfold bufferTest
  simp only [List.forall_mem_cons, List.not_mem_nil, false_imp_iff, implies_true, and_true, Bool.forall_bool, e1, e2, e3, e4, e5, e6,
    e7, e8]
  tauto

/-- **C104.** What `test_dig_delay` verifies: a function passes iff it returns a unit vector for a delay by no or one sample, for
the orders 1 and 2 (and 3 with no delay): at the first tap that is on the grid. Nothing is said about fractions of a sample. -/
theorem C104_delay {K : Type*} [Field K] (coeffs : ℕ → K → Bool → Py (List K)) :
    digDelayTest coeffs ↔
      (∀ n ∈ [1, 2], ∀ k < 2, coeffs n (k : ℕ) true = .ok ((List.range (n + 1)).map fun i => if i = n - 1 + k then 1 else 0)) ∧
      ∀ fw, coeffs 3 0 fw = .ok ((List.range 4).map fun i => if i = (if fw then 1 else 2) then 1 else 0) := by
  unfold digDelayTest
  simp only [List.forall_mem_cons, List.not_mem_nil, false_imp_iff, implies_true, and_true, Bool.forall_bool, Nat.forall_lt_succ_right,
    Nat.not_lt_zero, List.range_succ, List.range_zero]
  simp
  tauto

end Verif
