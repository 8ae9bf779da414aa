import Verif.Lemmas.Bipolar

/-!
# Line codes (C22-C29)
-/

namespace Verif
open Spec

/-! ## C22, C23 differential coding -/

/-- **C22** (partial: 1-D arrays; see `C22_negative_2d` for two dimensions). Decoding inverts coding. -/
theorem C22_decode_code_partial (c : Constellation) (p : List Int) (hne : p ≠ [])
    (hp : ∀ x ∈ p, 0 ≤ x ∧ x < ((intLevels c).length : Int)) :
    decodingDifferential (codingDifferential p c) c = .ok p := by
  have hne' : codingDifferential p c ≠ [] := by
    intro h
    have := codingDifferential_length p c
    rw [h] at this
    exact hne (List.length_eq_zero_iff.1 this.symm)
  unfold decodingDifferential
  rw [if_neg hne']
  have := diff_code_aux ((intLevels c).length : Int) p 0
  rw [Int.zero_emod] at this
  unfold firstDiff codingDifferential
  rw [this, map_mod_self _ p hp]

/-- **C22** (partial: 1-D arrays). Coding inverts decoding. -/
theorem C22_code_decode_partial (c : Constellation) (p : List Int) (hne : p ≠ [])
    (hp : ∀ x ∈ p, 0 ≤ x ∧ x < ((intLevels c).length : Int)) :
    ∃ d, decodingDifferential p c = .ok d ∧ d.length = p.length ∧
      (∀ x ∈ d, 0 ≤ x ∧ x < ((intLevels c).length : Int)) ∧ codingDifferential d c = p := by
  have hm : (0 : Int) < ((intLevels c).length : Int) := by cases c <;> decide
  refine ⟨_, by unfold decodingDifferential; rw [if_neg hne], by simp [firstDiff_length], ?_, ?_⟩
  · intro x hx
    rw [List.mem_map] at hx
    obtain ⟨y, _, rfl⟩ := hx
    exact ⟨Int.emod_nonneg _ (by omega), Int.emod_lt_of_pos _ hm⟩
  · have := code_diff_aux ((intLevels c).length : Int) p 0 0 rfl
    unfold codingDifferential firstDiff
    rw [this, map_mod_self _ p hp]

/-- **C22.** Coded symbols are valid, the length is preserved, and they satisfy the documented
recurrence, for every integer input. -/
theorem C22_code_valid (c : Constellation) (p : List Int) :
    (∀ x ∈ codingDifferential p c, 0 ≤ x ∧ x < ((intLevels c).length : Int)) ∧
    DiffRecurrence ((intLevels c).length : Int) p (codingDifferential p c) := by
  have hm : (0 : Int) < ((intLevels c).length : Int) := by cases c <;> decide
  refine ⟨?_, codingDifferential_length p c, ?_⟩
  · intro x hx
    unfold codingDifferential at hx
    rw [List.mem_map] at hx
    obtain ⟨y, _, rfl⟩ := hx
    exact ⟨Int.emod_nonneg _ (by omega), Int.emod_lt_of_pos _ hm⟩
  · intro n hn
    rw [codingDifferential_getD p c hn, pre_succ]
    by_cases h0 : n = 0
    · subst h0; simp [pre_zero]
    · rw [if_neg h0, codingDifferential_getD p c (show n - 1 < p.length by omega),
        show n - 1 + 1 = n by omega]
      rw [Int.add_comm (p.getD n 0), Int.emod_add_emod]

/-- **C22** *violated* for 2-D arrays: the coder runs through the flattened array, the decoder along
each row, so a two-row array does not survive the round trip. -/
theorem C22_negative_2d : decodingDifferential2 (codingDifferential2 1 [[1], [1]] .pam4) .pam4
    = .ok [[1], [2]] := by decide

example : codingDifferential [1, 3, 2, 2] .pam4 = [1, 0, 2, 0] ∧
    decodingDifferential [1, 0, 2, 0] .pam4 = .ok [1, 3, 2, 2] := by decide

/-- **C23.** Adding a constant modulo `m` to every coded symbol changes only the first decoded symbol
(which becomes `x_0 + k`). -/
theorem C23_rotation (c : Constellation) (p : List Int) (hne : p ≠ []) (k : Int) :
    ∃ d d', decodingDifferential p c = .ok d ∧
      decodingDifferential (p.map (fun x => (x + k) % ((intLevels c).length : Int))) c = .ok d' ∧
      d'.length = d.length ∧ (∀ i, 1 ≤ i → d'.getD i 0 = d.getD i 0) ∧
      d'.getD 0 0 = (d.getD 0 0 + k) % ((intLevels c).length : Int) := by
  set m : Int := ((intLevels c).length : Int) with hm
  have hne' : p.map (fun x => (x + k) % m) ≠ [] := by simpa using hne
  have hlen : 0 < p.length := List.length_pos_iff.2 hne
  refine ⟨_, _, by unfold decodingDifferential; rw [if_neg hne],
    by unfold decodingDifferential; rw [if_neg hne'], by simp [firstDiff_length], ?_, ?_⟩
  · intro i hi
    rcases Nat.lt_or_ge i p.length with h | h
    · obtain ⟨j, rfl⟩ : ∃ j, i = j + 1 := ⟨i - 1, by omega⟩
      rw [getD_map_lt _ 0 0 _ (by simp [firstDiff_length]; exact h),
        getD_map_lt _ 0 0 _ (by simp [firstDiff_length]; exact h),
        firstDiff_getD _ (by simpa using h), firstDiff_getD _ h]
      simp only [List.getD_cons_succ]
      rw [getD_map_lt _ 0 0 _ h, getD_map_lt _ 0 0 _ (show j < p.length by omega)]
      rw [← Int.sub_emod]
      congr 1; ring
    · rw [getD_of_le 0 _ (by simp [firstDiff_length]; exact h),
        getD_of_le 0 _ (by simp [firstDiff_length]; exact h)]
  · rw [getD_map_lt _ 0 0 _ (by simp [firstDiff_length]; exact hlen),
      getD_map_lt _ 0 0 _ (by simp [firstDiff_length]; exact hlen),
      firstDiff_getD _ (by simpa using hlen), firstDiff_getD _ hlen]
    simp only [List.getD_cons_zero, sub_zero]
    rw [getD_map_lt _ 0 0 _ hlen]
    rw [Int.emod_add_emod, Int.emod_emod_of_dvd _ (dvd_refl _)]

/-- **C23.** Changing one coded symbol changes at most the decoded symbol at that position and the
next one. -/
theorem C23_error_propagation (c : Constellation) (p : List Int) (hne : p ≠ []) (n : ℕ) (v : Int) :
    ∃ d d', decodingDifferential p c = .ok d ∧ decodingDifferential (p.set n v) c = .ok d' ∧
      d'.length = d.length ∧ ∀ i, i ≠ n → i ≠ n + 1 → d'.getD i 0 = d.getD i 0 := by
  have hne' : p.set n v ≠ [] := by simpa using hne
  refine ⟨_, _, by unfold decodingDifferential; rw [if_neg hne],
    by unfold decodingDifferential; rw [if_neg hne'], by simp [firstDiff_length], ?_⟩
  intro i hi hi1
  rcases Nat.lt_or_ge i p.length with h | h
  · rw [getD_map_lt _ 0 0 _ (by simp [firstDiff_length]; exact h),
      getD_map_lt _ 0 0 _ (by simp [firstDiff_length]; exact h),
      firstDiff_getD _ (by simpa using h), firstDiff_getD _ h, getD_set_ne 0 _ _ (Ne.symm hi)]
    cases i with
    | zero => simp
    | succ j =>
      simp only [List.getD_cons_succ]
      rw [getD_set_ne 0 _ _ (by omega)]
  · rw [getD_of_le 0 _ (by simp [firstDiff_length]; exact h),
      getD_of_le 0 _ (by simp [firstDiff_length]; exact h)]

/-- the two positions can indeed both change -/
example : decodingDifferential [1, 0, 2, 0] .pam4 = .ok [1, 3, 2, 2] ∧
    decodingDifferential ([1, 0, 2, 0].set 1 3) .pam4 = .ok [1, 2, 3, 2] := by decide

/-! ## C24 Manchester -/

/-- **C24.** Round trip and doubled length. -/
theorem C24_roundtrip (p : List Int) (h : IsBinary p) :
    ∃ coded, codingManchester p = .ok coded ∧ coded.length = 2 * p.length ∧ IsBinary coded ∧
      decodingManchester coded = .ok (p.map (fun (x : Int) => (x : ℚ))) := by
  have hbin : IsBinary (p.map (fun b => [b, 1 - b])).flatten := by
    intro x hx
    rw [List.mem_flatten] at hx
    obtain ⟨l, hl, hx⟩ := hx
    rw [List.mem_map] at hl
    obtain ⟨b, hb, rfl⟩ := hl
    rcases h b hb with rfl | rfl <;> simp at hx <;> omega
  have hlen := flatten_pairs_length (fun b => b) (fun b => 1 - b) p
  refine ⟨_, manchester_cells h, hlen, hbin, ?_⟩
  unfold decodingManchester
  rw [checkBinary_ok hbin]
  simp only [bind, Except.bind]
  rw [if_neg (by rw [hlen]; omega)]
  show Except.ok _ = Except.ok _
  congr 1
  have hd : (p.map (fun b => [b, 1 - b])).flatten.length / 2 = p.length := by rw [hlen]; omega
  apply ext_getD 0 (by rw [List.length_map, rows_length, hd, List.length_map])
  intro i hi
  rw [List.length_map, rows_length, hd] at hi
  rw [getD_map_lt _ [] 0 _ (by rw [rows_length, hd]; exact hi), getD_map_lt _ 0 0 _ hi]
  obtain ⟨e1, e2⟩ := rows2_getD (p.map (fun b => [b, 1 - b])).flatten i (by rw [hd]; exact hi)
  obtain ⟨f1, f2⟩ := flatten_pairs_getD (fun b => b) (fun b => 1 - b) p i hi
  rw [e1, e2, f1, f2]
  push_cast; ring

/-- **C24.** Every cell is `b, 1-b`: exactly one 0 and one 1 per cell (a 1 is sent as 10, a 0 as 01). -/
theorem C24_cells (p : List Int) (h : IsBinary p) :
    ∃ coded, codingManchester p = .ok coded ∧ ∀ i, i < p.length →
      coded.getD (2 * i) 0 = p.getD i 0 ∧ coded.getD (2 * i) 0 + coded.getD (2 * i + 1) 0 = 1 := by
  refine ⟨_, manchester_cells h, fun i hi => ?_⟩
  obtain ⟨f1, f2⟩ := flatten_pairs_getD (fun b => b) (fun b => 1 - b) p i hi
  rw [f1, f2]
  exact ⟨rfl, by ring⟩

/-- **C24.** No three equal consecutive bits (run length at most two). -/
theorem C24_run_length (p : List Int) (h : IsBinary p) :
    ∃ coded, codingManchester p = .ok coded ∧ ∀ n, n + 2 < coded.length →
      ¬ (coded.getD n 0 = coded.getD (n + 1) 0 ∧ coded.getD (n + 1) 0 = coded.getD (n + 2) 0) := by
  obtain ⟨coded, hc, hcell⟩ := C24_cells p h
  obtain ⟨coded', hc', hlen, hb, _⟩ := C24_roundtrip p h
  have : coded' = coded := by rw [hc] at hc'; exact (Except.ok.inj hc').symm
  subst this
  refine ⟨coded', hc, fun n hn => ?_⟩
  rintro ⟨h1, h2⟩
  rcases Nat.even_or_odd' n with ⟨k, rfl | rfl⟩
  · have := (hcell k (by omega)).2
    have hb0 := binary_getD hb (2 * k)
    omega
  · have := (hcell (k + 1) (by omega)).2
    rw [show 2 * (k + 1) = 2 * k + 1 + 1 by ring] at this
    have hb0 := binary_getD hb (2 * k + 1 + 1)
    simp only [Nat.add_assoc, Nat.reduceAdd] at this hb0 h1 h2
    omega

/-- **C24.** On any received binary vector of even length the decoder returns, per cell, 1 for 10,
0 for 01 and one half exactly for the cells without a transition. -/
theorem C24_received (r : List Int) (h : IsBinary r) (hev : r.length % 2 = 0) :
    ∃ d, decodingManchester r = .ok d ∧ d.length = r.length / 2 ∧ ∀ i, i < r.length / 2 →
      (d.getD i 0 = 1 / 2 ↔ r.getD (2 * i) 0 = r.getD (2 * i + 1) 0) ∧
      (r.getD (2 * i) 0 ≠ r.getD (2 * i + 1) 0 → d.getD i 0 = (r.getD (2 * i) 0 : ℚ)) := by
  refine ⟨_, by
    unfold decodingManchester
    rw [checkBinary_ok h]
    simp only [bind, Except.bind]
    rw [if_neg (by omega)]
    rfl, by rw [List.length_map, rows_length], fun i hi => ?_⟩
  rw [getD_map_lt _ [] 0 _ (by rw [rows_length]; exact hi)]
  obtain ⟨e1, e2⟩ := rows2_getD r i hi
  rw [e1, e2]
  rcases binary_getD h (2 * i) with a | a <;> rcases binary_getD h (2 * i + 1) with b | b <;>
    rw [a, b] <;> norm_num

/-- **C24**, guard: an odd number of received bits is rejected. -/
theorem C24_odd_rejected (r : List Int) (h : IsBinary r) (hodd : r.length % 2 = 1) :
    decodingManchester r = .error .valueError := by
  unfold decodingManchester
  rw [checkBinary_ok h]
  simp only [bind, Except.bind]
  rw [if_pos (by omega)]

example : codingManchester [1, 0, 1, 0, 0, 1] = .ok [1, 0, 0, 1, 1, 0, 0, 1, 0, 1, 1, 0] := by decide
example : decodingManchester [1, 0, 0, 0, 0, 1] = .ok [1, 1 / 2, 0] := by decide +kernel

/-! ## C25, C26 bipolar -/

theorem codingBipolar_eq {p : List Int} (h : IsBinary p) :
    ∃ c, codingBipolar p = .ok c ∧ c.length = p.length ∧ ∀ i, i < p.length →
      c.getD i 0 = 1 + p.getD i 0 * (if pre p (i + 1) % 2 = 0 then 1 else -1) := by
  refine ⟨_, by
    unfold codingBipolar
    rw [checkBinary_ok h]
    rfl, by simp [codingDifferential_length], fun i hi => ?_⟩
  rw [zipWith_getD _ 0 0 0 _ _ hi (by rw [codingDifferential_length]; exact hi),
    codingDifferential_getD p .ook hi]
  congr 2
  show (-1 : Int) ^ Int.toNat (pre p (i + 1) % 2) = _
  rcases Int.emod_two_eq_zero_or_one (pre p (i + 1)) with e | e <;> rw [e] <;> simp

/-- **C25.** Round trip; the code uses levels 0, 1, 2, with level 1 exactly for spaces. -/
theorem C25_roundtrip (p : List Int) (h : IsBinary p) :
    ∃ c, codingBipolar p = .ok c ∧ c.length = p.length ∧ decodingBipolar c = p ∧
      ∀ i, i < p.length → (c.getD i 0 = 0 ∨ c.getD i 0 = 1 ∨ c.getD i 0 = 2) ∧
        (c.getD i 0 = 1 ↔ p.getD i 0 = 0) := by
  obtain ⟨c, hc, hl, hv⟩ := codingBipolar_eq h
  refine ⟨c, hc, hl, ?_, ?_⟩
  · apply ext_getD 0 (by simp [decodingBipolar, hl])
    intro i hi
    have hi' : i < p.length := by simpa [decodingBipolar, hl] using hi
    unfold decodingBipolar
    rw [getD_map_lt _ 0 0 _ (by omega), hv i hi']
    rcases binary_getD h i with e | e <;> rw [e] <;> split <;> simp
  · intro i hi
    rw [hv i hi]
    rcases binary_getD h i with e | e <;> rw [e] <;> split <;> simp

/-- **C25.** The running digital sum (levels minus one) of every prefix is 0 or -1: it stays within
one level. -/
theorem C25_running_sum (p : List Int) (h : IsBinary p) :
    ∃ c, codingBipolar p = .ok c ∧ ∀ n, n ≤ p.length →
      ((c.map (fun x => x - 1)).take n).sum = 0 ∨ ((c.map (fun x => x - 1)).take n).sum = -1 := by
  obtain ⟨c, hc, hl, hv⟩ := codingBipolar_eq h
  have key : ∀ n, n ≤ p.length → pre (c.map (fun x => x - 1)) n = -(pre p n % 2) := by
    intro n
    induction n with
    | zero => intro _; simp [pre_zero]
    | succ n ih =>
      intro hn
      rw [pre_succ, ih (by omega), getD_map_lt _ 0 0 _ (by omega), hv n (by omega), pre_succ]
      rcases binary_getD h n with e | e <;> rw [e]
      · simp
      · split <;> omega
  refine ⟨c, hc, fun n hn => ?_⟩
  have := key n hn
  unfold pre at this
  rw [this]
  have := Int.emod_two_eq_zero_or_one (p.take n).sum
  omega

theorem pre_const (p : List Int) (a b : ℕ) (hab : a ≤ b) (h : ∀ i, a ≤ i → i < b → p.getD i 0 = 0) :
    pre p b = pre p a := by
  induction b with
  | zero => have : a = 0 := by omega
            subst this; rfl
  | succ b ih =>
    rcases Nat.lt_or_ge b a with h' | h'
    · have : a = b + 1 := by omega
      rw [this]
    · rw [pre_succ, h b h' (by omega), add_zero]
      exact ih h' (fun i h1 h2 => h i h1 (by omega))

/-- **C25.** The first mark is sent as level 0 and successive marks alternate between 0 and 2. -/
theorem C25_alternation (p : List Int) (h : IsBinary p) :
    ∃ c, codingBipolar p = .ok c ∧
      (∀ a, a < p.length → p.getD a 0 = 1 → (∀ i, i < a → p.getD i 0 = 0) → c.getD a 0 = 0) ∧
      (∀ a b, a < b → b < p.length → p.getD a 0 = 1 → p.getD b 0 = 1 →
        (∀ i, a < i → i < b → p.getD i 0 = 0) → c.getD b 0 = 2 - c.getD a 0) := by
  obtain ⟨c, hc, hl, hv⟩ := codingBipolar_eq h
  refine ⟨c, hc, ?_, ?_⟩
  · intro a ha h1 h0
    have := pre_const p 0 a (by omega) (fun i _ hi => h0 i hi)
    rw [hv a ha, pre_succ, this, h1, pre_zero]
    decide
  · intro a b hab hb ha1 hb1 h0
    have := pre_const p (a + 1) b (by omega) (fun i hi1 hi2 => h0 i (by omega) hi2)
    rw [hv a (by omega), hv b hb, pre_succ p b, this, ha1, hb1]
    split <;> split <;> omega

example : codingBipolar [1, 0, 1, 0, 0, 1, 1, 1, 0, 0, 1] = .ok [0, 1, 2, 1, 1, 0, 2, 0, 1, 1, 2] := by
  decide

/-- **C26.** On every valid coded vector, decoding with error detection equals plain decoding. -/
theorem C26_valid_clean (p : List Int) (h : IsBinary p) :
    ∃ c, codingBipolar p = .ok c ∧ decodingBipolarDetect c = (decodingBipolar c).map (fun (x : Int) => (x : ℚ)) := by
  obtain ⟨c, hc, hl, hdec, hlev⟩ := C25_roundtrip p h
  obtain ⟨c', hc', _, halt⟩ := C25_alternation p h
  have : c' = c := by rw [hc] at hc'; exact (Except.ok.inj hc').symm
  subst this
  have hmark : ∀ i, i < p.length → c'.getD i 0 ≠ 1 → p.getD i 0 = 1 := by
    intro i hi hne
    rcases binary_getD h i with e | e
    · exact absurd ((hlev i hi).2.2 e) hne
    · exact e
  have hno : ∀ a, a < p.length → c'.getD a 0 ≠ 1 → ¬ SameNeighbour c' a := by
    rintro a ha hne ⟨b, hb, hba, heq, hbt⟩
    rw [hl] at hb
    have hb1 : c'.getD b 0 ≠ 1 := by rw [heq]; exact hne
    have pa := hmark a ha hne
    have pb := hmark b hb hb1
    have hp0 : ∀ i, i < p.length → c'.getD i 0 = 1 → p.getD i 0 = 0 := fun i hi e => (hlev i hi).2.1 e
    have la := (hlev a ha).1
    rcases Nat.lt_or_gt_of_ne hba with h' | h'
    · have := halt b a h' ha pb pa (fun i h1 h2 => hp0 i (by omega) (hbt i (Or.inr ⟨h1, h2⟩)))
      omega
    · have := halt a b h' hb pa pb (fun i h1 h2 => hp0 i (by omega) (hbt i (Or.inl ⟨h1, h2⟩)))
      omega
  have htern : ∀ x ∈ c', x = 0 ∨ x = 1 ∨ x = 2 := by
    intro x hx
    obtain ⟨i, hi, rfl⟩ := List.getElem_of_mem hx
    have := (hlev i (by omega)).1
    rwa [getD_of_lt 0 _ hi] at this
  obtain ⟨hlen, hval⟩ := detect_spec c' htern
  refine ⟨c', hc, ?_⟩
  apply ext_getD 0 (by simp [hlen, decodingBipolar])
  intro i hi
  rw [hlen] at hi
  rw [getD_map_lt _ 0 0 _ (by simpa [decodingBipolar] using hi), hdec]
  obtain ⟨v1, v2, _, _⟩ := hval i hi
  rw [hl] at hi
  by_cases e : c'.getD i 0 = 1
  · rw [v1 e, (hlev i hi).2.1 e]; rfl
  · rw [v2 e (hno i hi e), hmark i hi e]; rfl

/-- **C26** (partial). On an arbitrary ternary vector: spaces decode to 0; a mark without same-sign
neighbour to 1; a mark with a same-sign neighbour (spaces ignored) to plus or minus one half, with the
sign of the mark for every position at or after the first +1 mark (level 2). Missing, and false: the
sign for the -1 marks before the first +1 mark, see `C26_negative_leading`. -/
theorem C26_detection_partial (p : List Int) (ht : ∀ x ∈ p, x = 0 ∨ x = 1 ∨ x = 2) :
    (decodingBipolarDetect p).length = p.length ∧ ∀ a, a < p.length →
      (p.getD a 0 = 1 → (decodingBipolarDetect p).getD a 0 = 0) ∧
      (p.getD a 0 ≠ 1 → ¬ SameNeighbour p a → (decodingBipolarDetect p).getD a 0 = 1) ∧
      (p.getD a 0 ≠ 1 → SameNeighbour p a → (∃ b ≤ a, p.getD b 0 = 2) →
        (decodingBipolarDetect p).getD a 0 = if p.getD a 0 = 2 then 1 / 2 else -(1 / 2)) ∧
      (p.getD a 0 ≠ 1 → SameNeighbour p a → (∀ b ≤ a, p.getD b 0 ≠ 2) →
        (decodingBipolarDetect p).getD a 0 = 1 / 2) := by
  obtain ⟨h1, h2⟩ := detect_spec p ht
  refine ⟨h1, fun a ha => ?_⟩
  obtain ⟨v1, v2, v3, v4⟩ := h2 a ha
  refine ⟨v1, v2, fun hn hs hb => ?_, v4⟩
  rw [v3 hn hs hb]
  rcases ht _ (mem_of_getD 0 p ha) with e | e | e
  · rw [e]; norm_num
  · exact absurd e hn
  · rw [e]; norm_num

/-- **C26** *violated*: two leading -1 marks (the coder's own first mark is -1) decode to +1/2 instead
of the documented -1/2. -/
theorem C26_negative_leading : decodingBipolarDetect [0, 0] = [1 / 2, 1 / 2] := by decide +kernel

example : decodingBipolarDetect [2, 1, 2, 0, 0, 1, 2] = [1 / 2, 0, 1 / 2, -1 / 2, -1 / 2, 0, 1] := by
  decide +kernel

/-! ## C27 MLT-3 -/

theorem pre_count {p : List Int} (h : IsBinary p) (n : ℕ) : pre p n = ((p.take n).count 1 : Int) := by
  unfold pre
  have : ∀ l : List Int, IsBinary l → l.sum = (l.count 1 : Int) := by
    intro l
    induction l with
    | nil => intro _; rfl
    | cons x t ih =>
      intro hl
      rw [List.sum_cons, ih (fun y hy => hl y (List.mem_cons_of_mem _ hy))]
      rcases hl x (by simp) with rfl | rfl
      · simp
      · simp; ring
  exact this _ (fun x hx => h x (List.mem_of_mem_take hx))

/-- **C27.** The level after `i+1` bits is the 0,1,2,1 cycle at the number of ones so far. -/
theorem C27_cycle (p : List Int) (h : IsBinary p) :
    ∃ c, codingMlt3 p = .ok c ∧ c.length = p.length ∧ ∀ i, i < p.length →
      c.getD i 0 = mlt3Cycle ((p.take (i + 1)).count 1) := by
  refine ⟨_, by unfold codingMlt3; rw [checkBinary_ok h]; rfl, by simp [codingDifferential_length], ?_⟩
  intro i hi
  rw [getD_map_lt _ 0 0 _ (by rw [codingDifferential_length]; exact hi), codingDifferential_getD p .pam4 hi,
    pre_count h]
  show (if ((p.take (i + 1)).count 1 : Int) % 4 = 3 then 1 else ((p.take (i + 1)).count 1 : Int) % 4) = _
  generalize (p.take (i + 1)).count 1 = n
  unfold mlt3Cycle
  have hlt : n % 4 < 4 := Nat.mod_lt _ (by decide)
  have e : (n : Int) % 4 = ((n % 4 : ℕ) : Int) := by push_cast; rfl
  rw [e]
  generalize n % 4 = k at hlt
  match k, hlt with
  | 0, _ => rfl
  | 1, _ => rfl
  | 2, _ => rfl
  | 3, _ => rfl

theorem mlt3Cycle_step (n : ℕ) : |mlt3Cycle (n + 1) - mlt3Cycle n| = 1 := by
  unfold mlt3Cycle
  have hlt : n % 4 < 4 := Nat.mod_lt _ (by decide)
  have e : (n + 1) % 4 = (n % 4 + 1) % 4 := by omega
  rw [e]
  generalize n % 4 = k at hlt
  match k, hlt with
  | 0, _ => decide
  | 1, _ => decide
  | 2, _ => decide
  | 3, _ => decide

theorem count_take_succ (p : List Int) (n : ℕ) (hn : n < p.length) :
    (p.take (n + 1)).count 1 = (p.take n).count 1 + (if p.getD n 0 = 1 then 1 else 0) := by
  rw [List.take_add_one, List.count_append]
  congr 1
  rw [getD_of_lt 0 _ hn]
  simp [hn, List.count_singleton]

/-- **C27.** The level moves by exactly one step on ones and stays on zeros; hence consecutive levels
never differ by more than one. -/
theorem C27_steps (p : List Int) (h : IsBinary p) :
    ∃ c, codingMlt3 p = .ok c ∧ ∀ i, i + 1 < p.length → |c.getD (i + 1) 0 - c.getD i 0| = p.getD (i + 1) 0 := by
  obtain ⟨c, hc, hl, hv⟩ := C27_cycle p h
  refine ⟨c, hc, fun i hi => ?_⟩
  rw [hv (i + 1) hi, hv i (by omega), count_take_succ p (i + 1) hi]
  rcases binary_getD h (i + 1) with e | e <;> rw [e]
  · simp
  · exact mlt3Cycle_step _

/-- **C27.** Round trip for every non-empty binary vector. -/
theorem C27_roundtrip (p : List Int) (h : IsBinary p) (hne : p ≠ []) :
    ∃ c, codingMlt3 p = .ok c ∧ decodingMlt3 c = .ok p := by
  obtain ⟨c, hc, hl, hv⟩ := C27_cycle p h
  obtain ⟨c', hc', hst⟩ := C27_steps p h
  have : c' = c := by rw [hc] at hc'; exact (Except.ok.inj hc').symm
  subst this
  refine ⟨c', hc, ?_⟩
  have hpl : 0 < p.length := List.length_pos_iff.2 hne
  cases hcc : c' with
  | nil => rw [hcc] at hl; simp at hl; omega
  | cons x t =>
    show Except.ok _ = Except.ok _
    congr 1
    have htl : t.length + 1 = p.length := by rw [← hl, hcc]; rfl
    apply ext_getD 0 (by simp [← htl])
    intro i hi
    cases i with
    | zero =>
      have := hv 0 hpl
      rw [hcc, List.getD_cons_zero, count_take_succ p 0 hpl, List.take_zero, List.count_nil] at this
      rw [List.getD_cons_zero]
      rcases binary_getD h 0 with e | e <;> rw [e] at this ⊢ <;> rw [this] <;> decide
    | succ i =>
      have hi' : i < t.length := by simpa using hi
      have := hst i (by omega)
      rw [hcc] at this
      rw [List.getD_cons_succ, getD_map_lt _ 0 0 _ (by simpa using hi'),
        zipWith_getD _ 0 0 0 _ _ hi' (by simp; omega), ← this, List.getD_cons_succ]

/-- **C27**, guard: an empty coded vector raises IndexError. -/
theorem C27_empty : decodingMlt3 [] = .error .indexError := rfl

/-- Disagreement with the docstring of `coding_mlt3` ("Assuming initial level of '1' in case the data
starts with zeros"): leading zeros are sent as level 0. -/
theorem C27_negative_initial_level : codingMlt3 [0, 0, 1] = .ok [0, 0, 1] := by decide

example : codingMlt3 [1, 0, 1, 0, 0, 1, 1, 1, 0, 0, 1] = .ok [1, 1, 2, 2, 2, 1, 0, 1, 1, 1, 2] := by decide

/-! ## C28 differential Manchester -/

/-- **C28.** Transition at every cell boundary; mid-cell transition exactly for zero bits. -/
theorem C28_transitions (p : List Int) (h : IsBinary p) :
    ∃ c, codingDiffManchester p = .ok c ∧ c.length = 2 * p.length ∧ IsBinary c ∧
      (∀ i, i < p.length → (c.getD (2 * i) 0 ≠ c.getD (2 * i + 1) 0 ↔ p.getD i 0 = 0)) ∧
      (∀ i, i + 1 < p.length → c.getD (2 * i + 1) 0 ≠ c.getD (2 * i + 2) 0) := by
  obtain ⟨h1, h2, _, h4, h5⟩ := dmCells_spec p h 0 (Or.inl rfl)
  exact ⟨_, codingDiffManchester_eq h, h2, h1, h4, h5⟩

theorem decodeDM_of_cells (p r : List Int) (h : IsBinary p) (hr : IsBinary r) (hl : r.length = 2 * p.length)
    (hcell : ∀ i, i < p.length → (r.getD (2 * i) 0 ≠ r.getD (2 * i + 1) 0 ↔ p.getD i 0 = 0)) :
    decodingDiffManchester r = .ok p := by
  unfold decodingDiffManchester
  rw [checkBinary_ok hr]
  simp only [bind, Except.bind]
  rw [if_neg (by omega)]
  show Except.ok _ = Except.ok _
  congr 1
  have hd : r.length / 2 = p.length := by omega
  apply ext_getD 0 (by rw [List.length_map, rows_length, hd])
  intro i hi
  rw [List.length_map, rows_length, hd] at hi
  rw [getD_map_lt _ [] 0 _ (by rw [rows_length, hd]; exact hi)]
  obtain ⟨e1, e2⟩ := rows2_getD r i (by rw [hd]; exact hi)
  rw [e1, e2]
  have hc := hcell i hi
  rcases binary_getD h i with e | e <;> rw [e] at hc ⊢ <;>
    rcases binary_getD hr (2 * i) with a | a <;> rcases binary_getD hr (2 * i + 1) with b | b <;>
    rw [a, b] at hc ⊢ <;> simp at hc <;> decide

/-- **C28.** Decoding inverts coding. -/
theorem C28_roundtrip (p : List Int) (h : IsBinary p) :
    ∃ c, codingDiffManchester p = .ok c ∧ decodingDiffManchester c = .ok p := by
  obtain ⟨c, hc, hl, hb, hmid, _⟩ := C28_transitions p h
  exact ⟨c, hc, decodeDM_of_cells p c h hb hl hmid⟩

/-- **C28.** Decoding also works on the coded vector with inverted polarity. -/
theorem C28_polarity (p : List Int) (h : IsBinary p) :
    ∃ c, codingDiffManchester p = .ok c ∧ decodingDiffManchester (c.map (fun x => 1 - x)) = .ok p := by
  obtain ⟨c, hc, hl, hb, hmid, _⟩ := C28_transitions p h
  refine ⟨c, hc, decodeDM_of_cells p _ h (binary_neg hb) (by simpa using hl) ?_⟩
  intro i hi
  rw [getD_map_lt _ 0 0 _ (by omega), getD_map_lt _ 0 0 _ (by omega), ← hmid i hi]
  constructor
  · intro h1 h2; exact h1 (by rw [h2])
  · intro h1 h2; exact h1 (by omega)

/-- The docstring example of `coding_differential_manchester` shows the opposite polarity. -/
theorem C28_doc_example_inverted :
    codingDiffManchester [1, 0, 1, 0, 0, 1, 1, 1, 0, 0, 1]
      = .ok ([1, 1, 0, 1, 0, 0, 1, 0, 1, 0, 1, 1, 0, 0, 1, 1, 0, 1, 0, 1, 0, 0].map (fun x => 1 - x)) := by
  decide +kernel

/-! ## C29 the binary guard -/

/-- **C29.** Every binary vector is accepted. -/
theorem C29_accepts (p : List Int) (h : IsBinary p) : checkBinary p = .ok () := checkBinary_ok h

/-- **C29** (partial). Exactly what is rejected: more than two distinct values, or non-empty without
any 0 and 1. Missing (and false): rejection of vectors with one or two distinct values of which only
one is a bit. -/
theorem C29_rejects_partial (p : List Int) :
    (checkBinary p = .error .valueError ↔
      (∃ a ∈ p, ∃ b ∈ p, ∃ c ∈ p, a ≠ b ∧ a ≠ c ∧ b ≠ c) ∨ (p ≠ [] ∧ 0 ∉ p ∧ 1 ∉ p)) ∧
    (checkBinary p = .ok () ∨ checkBinary p = .error .valueError) := by
  have hthree : p.dedup.length > 2 ↔ ∃ a ∈ p, ∃ b ∈ p, ∃ c ∈ p, a ≠ b ∧ a ≠ c ∧ b ≠ c := by
    constructor
    · intro h
      have hnd := List.nodup_dedup p
      refine ⟨p.dedup[0], List.mem_dedup.1 (List.getElem_mem _), p.dedup[1],
        List.mem_dedup.1 (List.getElem_mem _), p.dedup[2], List.mem_dedup.1 (List.getElem_mem _), ?_, ?_, ?_⟩ <;>
      · intro e
        have := (List.Nodup.getElem_inj_iff hnd).1 e
        omega
    · rintro ⟨a, ha, b, hb, c, hc, h1, h2, h3⟩
      have hnd : [a, b, c].Nodup := by simp [h1, h2, h3]
      have hsub : [a, b, c] ⊆ p.dedup := by
        intro x hx
        simp at hx
        rcases hx with rfl | rfl | rfl <;> simpa using by assumption
      have := (hnd.subperm hsub).length_le
      simp only [List.length_cons, List.length_nil] at this
      omega
  have hnil : p.dedup.length = 0 ↔ p = [] := by
    rw [List.length_eq_zero_iff, List.dedup_eq_nil]
  unfold checkBinary
  simp only [List.mem_dedup]
  constructor
  · have hnil' : p ≠ [] ↔ ¬ p.dedup.length = 0 := (not_iff_not.2 hnil).symm
    rw [← hthree, hnil']
    constructor
    · intro h
      split at h
      · rename_i h1; exact Or.inr ⟨by omega, h1.2⟩
      · split at h
        · rename_i h1; exact Or.inr ⟨by omega, h1.2⟩
        · split at h
          · rename_i h1; exact Or.inl h1
          · cases h
    · intro h
      by_cases h1 : p.dedup.length = 1 ∧ 0 ∉ p ∧ 1 ∉ p
      · rw [if_pos h1]
      · rw [if_neg h1]
        by_cases h2 : p.dedup.length = 2 ∧ 0 ∉ p ∧ 1 ∉ p
        · rw [if_pos h2]
        · rw [if_neg h2, if_pos]
          rcases h with h | ⟨h, h'⟩
          · exact h
          · by_contra hc
            have : p.dedup.length = 1 ∨ p.dedup.length = 2 := by omega
            rcases this with e | e
            · exact h1 ⟨e, h'⟩
            · exact h2 ⟨e, h'⟩
  · split
    · exact Or.inr rfl
    · split
      · exact Or.inr rfl
      · split
        · exact Or.inr rfl
        · exact Or.inl rfl

/-- **C29** *violated*: the non-binary vector [0, 5] passes the guard, and then the Manchester coder
fails with IndexError and the bipolar coder returns the out-of-range level -4. -/
theorem C29_negative : checkBinary [0, 5] = .ok () ∧ codingManchester [0, 5] = .error .indexError ∧
    codingBipolar [0, 5] = .ok [1, -4] := by decide

/-- Consequence for the coders: a rejected vector makes every guarded coder raise ValueError. -/
theorem C29_coders_reject (p : List Int) (h : checkBinary p = .error .valueError) :
    codingManchester p = .error .valueError ∧ decodingManchester p = .error .valueError ∧
    codingBipolar p = .error .valueError ∧ codingMlt3 p = .error .valueError ∧
    codingDiffManchester p = .error .valueError ∧ decodingDiffManchester p = .error .valueError := by
  simp [codingManchester, decodingManchester, codingBipolar, codingMlt3, codingDiffManchester,
    decodingDiffManchester, h, bind, Except.bind]

example : checkBinary [0, 1, 2] = .error .valueError ∧ checkBinary [3, 4] = .error .valueError := by decide

end Verif
