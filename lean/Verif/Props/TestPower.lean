import Verif.Lemmas.TestPower

/-! **C107**: what the randomized tests of the coders verify. For an arbitrary implementation of the tested functions, a test
succeeds on a draw exactly if the coder's output has the closed form of the specification; the tests of the decoders say
nothing beyond the round trip, so that decoders without any error detection or correction succeed as well. -/

namespace Verif
open Spec

theorem roundtrip_iff (enc dec : List Int → Py (List Int)) (p : List Int) :
    roundtripTestOf enc dec p = .ok true ↔ ∃ q, enc p = .ok q ∧ dec q = .ok p := by
  unfold roundtripTestOf
  cases enc p with
  | error e => simp [bind, Except.bind]
  | ok q =>
    have := test_iff (dec q) p
    simp only [py_bind_ok, Except.ok.injEq, exists_eq_left']
    exact this

/-- **C107**, `coding_gray_test` and `decoding_gray_test`: an implementation passes both on a draw exactly if the coder produces
the reflected Gray code and the decoder inverts it. -/
theorem C107_gray (c : Constellation) (enc dec : List Int → Py (List Int)) (p : List Int) (h : SymbolDraw c p) :
    (codingGrayTestOf enc c p = .ok true ∧ roundtripTestOf enc dec p = .ok true) ↔
      ∃ q, enc p = .ok q ∧ GrayCoded p q ∧ dec q = .ok p := by
  have h1 : codingGrayTestOf enc c p = .ok true ↔ ∃ q, enc p = .ok q ∧ GrayCoded p q := by
    unfold codingGrayTestOf
    rw [test_iff]
    exact spec_iff (grayRef_spec c p h) (fun q hq => gray_unique (grayRef_spec c p h) hq)
  rw [h1, roundtrip_iff]
  constructor
  · rintro ⟨⟨q, e, hq⟩, q', e', hd⟩
    rw [e] at e'
    cases e'
    exact ⟨q, e, hq, hd⟩
  · rintro ⟨q, e, hq, hd⟩
    exact ⟨⟨q, e, hq⟩, q, e, hd⟩

/-- **C107**, `coding_differential_test` and `decoding_differential_test`: the coder satisfies the documented recurrence and the
decoder inverts it. -/
theorem C107_differential (c : Constellation) (enc dec : List Int → Py (List Int)) (p : List Int) :
    (codingDifferentialTestOf enc c p = .ok true ∧ roundtripTestOf enc dec p = .ok true) ↔
      ∃ q, enc p = .ok q ∧ DiffRecurrence ((intLevels c).length : Int) p q ∧ dec q = .ok p := by
  have h1 : codingDifferentialTestOf enc c p = .ok true ↔
      ∃ q, enc p = .ok q ∧ DiffRecurrence ((intLevels c).length : Int) p q := by
    unfold codingDifferentialTestOf
    rw [test_iff]
    exact spec_iff (diffRef_spec c p) (fun q hq => diffRec_unique (diffRef_spec c p) hq)
  rw [h1, roundtrip_iff]
  constructor
  · rintro ⟨⟨q, e, hq⟩, q', e', hd⟩
    rw [e] at e'
    cases e'
    exact ⟨q, e, hq, hd⟩
  · rintro ⟨q, e, hq, hd⟩
    exact ⟨⟨q, e, hq⟩, q, e, hd⟩

theorem draw_flat {m : List (List Int)} (h : ArrayDraw m) : m.flatten.length = 300 := by
  rw [flatten_uniform_length 3 m h.2.1, h.1]

/-- **C107**, `coding_manchester_test`. -/
theorem C107_manchester (enc : List (List Int) → Py (List (List Int))) (m : List (List Int)) (h : ArrayDraw m) :
    lineCoderTestOf manchesterRef 6 enc m = .ok true ↔ ∃ c, enc m = .ok c ∧ ArrayCoded ManchesterCoded 6 m c :=
  have hs := manchesterRef_spec m.flatten
  arrayCoded_iff h.1 (by rw [hs.1, draw_flat h]) hs (fun _ hq => manchester_unique hs hq) enc

/-- **C107**, `coding_bipolar_test`. -/
theorem C107_bipolar (enc : List (List Int) → Py (List (List Int))) (m : List (List Int)) (h : ArrayDraw m) :
    lineCoderTestOf (bipolarRef (-1)) 3 enc m = .ok true ↔ ∃ c, enc m = .ok c ∧ ArrayCoded BipolarCoded 3 m c :=
  have hs := bipolarRef_spec m.flatten (binMat_flat h.2.2)
  arrayCoded_iff h.1 (by rw [hs.1, draw_flat h]) hs (fun _ hq => bipolar_unique hs hq) enc

/-- **C107**, `coding_mlt3_test`. -/
theorem C107_mlt3 (enc : List (List Int) → Py (List (List Int))) (m : List (List Int)) (h : ArrayDraw m) :
    lineCoderTestOf (mlt3Ref 0) 3 enc m = .ok true ↔ ∃ c, enc m = .ok c ∧ ArrayCoded Mlt3Coded 3 m c :=
  have hs := mlt3Ref_spec m.flatten (binMat_flat h.2.2)
  arrayCoded_iff h.1 (by rw [hs.1, draw_flat h]) hs (fun _ hq => mlt3_unique hs hq) enc

/-- **C107**, `coding_differential_manchester_test`. -/
theorem C107_diff_manchester (enc : List (List Int) → Py (List (List Int))) (m : List (List Int)) (h : ArrayDraw m) :
    lineCoderTestOf (diffManchesterRef 0) 6 enc m = .ok true ↔ ∃ c, enc m = .ok c ∧ ArrayCoded DiffManchesterCoded 6 m c :=
  have hs := diffManchesterRef_spec m.flatten (binMat_flat h.2.2)
  arrayCoded_iff h.1 (by rw [hs.1, draw_flat h]) hs (fun _ hq => diffManchester_unique hs hq) enc

/-- **C107**, the tests of the line decoders: whatever the coder writes, the decoder (for bipolar: both decoders) returns the
drawn bits from it, as numbers. -/
theorem C107_line_decoding (enc : List Int → Py (List Int)) (p : List Int) :
    (∀ dec, decodingManchesterTestOf enc dec p = .ok true ↔ ∃ q d, enc p = .ok q ∧ dec q = .ok d ∧ d.length = p.length ∧
      ∀ i < p.length, d.getD i 0 = (p.getD i 0 : Int)) ∧
    (∀ dec det, decodingBipolarTestOf enc dec det p = .ok true ↔ ∃ q, enc p = .ok q ∧ dec q = p ∧ (det q).length = p.length ∧
      ∀ i < p.length, (det q).getD i 0 = (p.getD i 0 : Int)) ∧
    ∀ dec, roundtripTestOf enc dec p = .ok true ↔ ∃ q, enc p = .ok q ∧ dec q = .ok p := by
  have hcast : ∀ d : List ℚ, (p.map (fun (x : Int) => (x : ℚ)) = d) ↔ d.length = p.length ∧
      ∀ i < p.length, d.getD i 0 = (p.getD i 0 : Int) := by
    intro d
    constructor
    · rintro rfl
      refine ⟨by simp, fun i hi => ?_⟩
      rw [getD_map_lt _ 0 0 _ hi]
    · rintro ⟨h1, h2⟩
      apply ext_getD 0 (by simp [h1])
      intro i hi
      rw [List.length_map] at hi
      rw [getD_map_lt _ 0 0 _ hi, h2 i hi]
  refine ⟨fun dec => ?_, fun dec det => ?_, fun dec => roundtrip_iff enc dec p⟩
  · unfold decodingManchesterTestOf
    cases e : enc p with
    | error _ => simp [bind, Except.bind]
    | ok q =>
      simp only [py_bind_ok]
      cases e' : dec q with
      | error _ => simp [bind, Except.bind, e']
      | ok d =>
        simp only [py_bind_ok, pure, Except.pure, Except.ok.injEq, beq_iff_eq]
        rw [hcast d]
        constructor
        · rintro ⟨h1, h2⟩
          exact ⟨q, d, rfl, e', h1, h2⟩
        · rintro ⟨q', d', rfl, h0, h1, h2⟩
          rw [e'] at h0
          cases h0
          exact ⟨h1, h2⟩
  · unfold decodingBipolarTestOf
    cases e : enc p with
    | error _ => simp [bind, Except.bind]
    | ok q =>
      simp only [py_bind_ok]
      by_cases hq : dec q = p
      · rw [if_pos (by rw [hq]; exact beq_self_eq_true p)]
        simp only [pure, Except.pure, Except.ok.injEq, beq_iff_eq]
        rw [hcast (det q)]
        constructor
        · rintro ⟨h1, h2⟩
          exact ⟨q, rfl, hq, h1, h2⟩
        · rintro ⟨q', rfl, -, h1, h2⟩
          exact ⟨h1, h2⟩
      · rw [if_neg (by rw [beq_iff_eq]; exact fun h => hq h.symm)]
        simp only [pure, Except.pure, Except.ok.injEq, Bool.false_eq_true, false_iff]
        rintro ⟨q', rfl, h, -⟩
        exact hq h

/-- a decoder that is right on the coded bits and wrong elsewhere passes; one that returns nothing fails -/
example : decodingManchesterTestOf codingManchester (fun r => .ok (if r = [1, 0, 0, 1] then [1, 0] else [7])) [1, 0] = .ok true ∧
    decodingManchesterTestOf codingManchester (fun _ => .ok []) [1, 0] = .ok false := by
  decide +kernel

/-- **C107**, `coding_linear_block_test` and `decoding_linear_block_test`: the coder appends the parity to every block of `k`
bits, and both decoders return the pattern in front of the padding. -/
theorem C107_linear (k : ℕ) (hk : 0 < k) (enc dec : List Int → List (List Int) → Py (List Int))
    (decErr : List Int → List (List Int) → Py (List Int × List ℚ × List Int)) (p : List Int) (hp : IsBinary p) :
    (codingLinearTestOf enc k p = .ok true ∧ decodingLinearTestOf enc dec decErr k p = .ok true) ↔
      ∃ q d e pe err, enc p (parityG k) = .ok q ∧ ParityCoded k p q ∧ dec q (parityG k) = .ok d ∧ d.take p.length = p ∧
        decErr q (parityG k) = .ok (e, pe, err) ∧ e.take p.length = p := by
  have h1 : codingLinearTestOf enc k p = .ok true ↔ ∃ q, enc p (parityG k) = .ok q ∧ ParityCoded k p q := by
    unfold codingLinearTestOf
    rw [test_iff]
    exact spec_iff (parityRef_spec k hk p hp) (fun q hq => parity_unique (parityRef_spec k hk p hp) hq)
  rw [h1]
  constructor
  · rintro ⟨⟨q, e, hq⟩, hd⟩
    unfold decodingLinearTestOf at hd
    rw [e] at hd
    simp only [py_bind_ok] at hd
    cases hdec : dec q (parityG k) with
    | error er => rw [hdec] at hd; exact absurd hd (by simp [bind, Except.bind])
    | ok d =>
      rw [hdec] at hd
      simp only [py_bind_ok] at hd
      split at hd
      · rename_i hpd
        cases herr : decErr q (parityG k) with
        | error er => rw [herr] at hd; exact absurd hd (by simp [bind, Except.bind])
        | ok r =>
          obtain ⟨e', pe, err⟩ := r
          rw [herr] at hd
          simp only [py_bind_ok, pure, Except.pure, Except.ok.injEq] at hd
          exact ⟨q, d, e', pe, err, e, hq, hdec, (beq_iff_eq.1 hpd).symm, herr, (beq_iff_eq.1 hd).symm⟩
      · exact absurd hd (by simp [pure, Except.pure])
  · rintro ⟨q, d, e, pe, err, hq, hs, hd, hd', he, he'⟩
    refine ⟨⟨q, hq, hs⟩, ?_⟩
    unfold decodingLinearTestOf
    rw [hq]
    simp only [py_bind_ok]
    rw [hd]
    simp only [py_bind_ok]
    rw [he, hd', if_pos (by simp)]
    simp only [py_bind_ok, he', beq_self_eq_true]
    rfl

/-- wrong coders are rejected: a Gray coder that changes nothing, a differential coder without memory, an MLT-3 coder that jumps
back after level 2, a parity coder that repeats the first bit -/
example : codingGrayTestOf (fun p => .ok p) .pam4 (List.replicate 99 1 ++ [2]) = .ok false ∧
    codingDifferentialTestOf (fun p => .ok p) .pam4 (List.replicate 100 1) = .ok false ∧
    lineCoderTestOf (mlt3Ref 0) 3 (fun m => .ok (m.map (fun _ => [1, 2, 0]))) (List.replicate 100 [1, 1, 1]) = .ok false ∧
    codingLinearTestOf (fun p _ => .ok (p ++ p.take 1)) 3 [1, 1, 0] = .ok false := by decide +kernel

/-! ### what the tests of the decoders leave open -/

/-- **C107**: a Manchester decoder that never looks at the second half of a cell passes `decoding_manchester_test` on every draw,
although it does not mark the cell without transition. -/
theorem C107_blind_manchester :
    (∀ p, BitDraw p → decodingManchesterTestOf codingManchester
      (fun r => .ok ((rows 2 r).map (fun c => ((c.getD 0 0 : Int) : ℚ)))) p = .ok true) ∧
    decodingManchester [1, 1] = .ok [1 / 2] := by
  refine ⟨fun p h => ?_, by decide +kernel⟩
  obtain ⟨q, h1, h2⟩ := C24_cells p h.2
  obtain ⟨q', h1', h3, -, -⟩ := C24_roundtrip p h.2
  rw [h1] at h1'
  cases h1'
  unfold decodingManchesterTestOf
  rw [h1]
  simp only [py_bind_ok]
  have : (rows 2 q).map (fun c => ((c.getD 0 0 : Int) : ℚ)) = p.map (fun (x : Int) => (x : ℚ)) := by
    have hl : (rows 2 q).length = p.length := by rw [rows_length, h3]; omega
    apply ext_getD 0 (by simp [hl])
    intro i hi
    rw [List.length_map, hl] at hi
    rw [getD_map_lt _ [] 0 _ (by omega), getD_map_lt _ 0 0 _ hi, rows_getD 0 2 q i 0 (by rw [h3]; omega) (by norm_num)]
    rw [show i * 2 + 0 = 2 * i by ring, (h2 i hi).1]
  rw [this]
  simp [pure, Except.pure]

/-- **C107**: a bipolar decoder whose error detection never reports anything passes `decoding_bipolar_test` on every draw. -/
theorem C107_blind_bipolar :
    (∀ p, BitDraw p → decodingBipolarTestOf codingBipolar decodingBipolar
      (fun r => (decodingBipolar r).map (fun (x : Int) => (x : ℚ))) p = .ok true) ∧
    decodingBipolarDetect [2, 2] = [1 / 2, 1 / 2] := by
  refine ⟨fun p h => ?_, by decide +kernel⟩
  obtain ⟨c, h1, -, h3, -⟩ := C25_roundtrip p h.2
  unfold decodingBipolarTestOf
  rw [h1]
  simp only [py_bind_ok, h3]
  simp [pure, Except.pure]

/-- **C107**: a block decoder that drops the parity bits and corrects nothing passes `decoding_linear_block_test` on every draw; for
the repetition code with one error it differs from the decoder of the library, which the test never gives another matrix
than the parity matrix. -/
theorem C107_blind_linear :
    (∀ k p, 0 < k → IsBinary p → decodingLinearTestOf codingLinear
      (fun c G => .ok ((rows (cols G) c).map (List.take G.length)).flatten)
      (fun c G => .ok (((rows (cols G) c).map (List.take G.length)).flatten, [], [])) k p = .ok true) ∧
    decodingLinear [0, 1, 1] [[1, 1, 1]] = .ok [1] ∧ ((rows (cols [[1, 1, 1]]) [0, 1, 1]).map (List.take 1)).flatten = [(0 : Int)] := by
  refine ⟨fun k p hk hp => ?_, by decide +kernel, by decide +kernel⟩
  have hc := C85_linear_coding k hk p hp
  unfold codingLinearTest codingLinearTestOf at hc
  rw [test_iff] at hc
  have hs := parityRef_spec k hk p hp
  have hcol : cols (parityG k) = k + 1 := cols_eq (parityG_matrix k) (by rw [parityG_length]; exact hk)
  have hmain : (((rows (k + 1) (parityRef k p)).map (List.take k)).flatten).take p.length = p := by
    have hrl : (rows (k + 1) (parityRef k p)).length = (p.length + k - 1) / k := by
      rw [rows_length, hs.1, Nat.mul_div_cancel_left _ (by omega)]
    have hu : ∀ r ∈ (rows (k + 1) (parityRef k p)).map (List.take k), r.length = k := by
      intro r hr
      rw [List.mem_map] at hr
      obtain ⟨r', hr', rfl⟩ := hr
      rw [List.length_take, mem_rows_length _ _ _ hr']
      omega
    have hge := (nBlocks_mul_ge p.length k hk).1
    unfold nBlocks at hge
    have hfl : (((rows (k + 1) (parityRef k p)).map (List.take k)).flatten).length = (p.length + k - 1) / k * k := by
      rw [flatten_uniform_length k _ hu, List.length_map, hrl]
    apply ext_getD 0 (by rw [List.length_take, hfl]; omega)
    intro i hi
    rw [List.length_take] at hi
    have hip : i < p.length := by omega
    rw [take_getD 0 _ _ _ hip]
    have hd := Nat.div_add_mod i k
    have hm := Nat.mod_lt i hk
    have hb : i / k < (p.length + k - 1) / k := by
      rw [Nat.div_lt_iff_lt_mul hk]
      omega
    conv_lhs => rw [← hd, mul_comm k]
    rw [flatten_getD 0 k _ hu _ _ (by rw [List.length_map, hrl]; exact hb) hm,
      getD_map_lt _ [] [] _ (by rw [hrl]; exact hb), take_getD 0 _ _ _ hm,
      rows_getD 0 (k + 1) _ _ _ (by rw [hs.1, Nat.mul_div_cancel_left _ (by omega)]; exact hb) (by omega),
      mul_comm (i / k), (hs.2 _ hb).1 _ hm, hd]
  have := (C107_linear k hk codingLinear (fun c G => .ok ((rows (cols G) c).map (List.take G.length)).flatten)
    (fun c G => .ok (((rows (cols G) c).map (List.take G.length)).flatten, [], [])) p hp).2
    ⟨_, _, _, _, _, hc, hs, rfl, by rw [hcol, parityG_length]; exact hmain, rfl, by rw [hcol, parityG_length]; exact hmain⟩
  exact this.2

end Verif
