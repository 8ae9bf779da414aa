import Verif.Lemmas.Pulse

/-! Property theorems C50 (pulse shaping), C51 (Nyquist pulses) and C63 (singular times of the pulses). -/

open Finset

namespace Verif

open Spec (truncated IsPulse IsRaisedCosine IsRootRaisedCosine)

/-! ### C50 -/

/-- **C50.** From zero memory, `pulse_shape` returns `len(signal)*osr` samples: the sum of the symbols times
the pulse (cut to `span` symbols on both sides) centred `span` symbols after each symbol. -/
theorem C50_superposition (x : List ℝ) (osr span : ℕ) (name : String) (β : ℝ) (g : ℝ → ℝ)
    (hg : IsPulse name β osr g) (ho : 0 < osr) (hs : 0 < span) (hx : 0 < x.length) :
    ∃ y z, pulseShape x osr span name β none = .ok (y, z) ∧ y.length = x.length * osr ∧
      z.length = osr * span * 2 - 1 ∧
      ∀ n : ℕ, n < x.length * osr →
        y.getD n 0 = ∑ j ∈ range x.length, x.getD j 0 * truncated span g ((n : ℝ) / osr - j - span) := by
  obtain ⟨u, e1, e2, e3⟩ := pulseShape_eq x osr span name β g (getPulse_eq name β osr span ho g hg) ho hs hx none
    (by simp)
  refine ⟨_, _, e3, by rw [lfRun_length, e2], by rw [lfRun_state_length]; simp, fun n hn => ?_⟩
  rw [Option.getD_none, shape_out _ u osr span (by rw [List.length_map, timeVec_length]) (Nat.mul_pos ho hs) n
    (by omega), superpose _ x u osr ho e1 n (by omega)]
  refine sum_congr rfl fun j _ => ?_
  rw [sample_pulse g osr span ho]
  congr 2
  have : (osr : ℝ) ≠ 0 := by exact_mod_cast ho.ne'
  push_cast
  field_simp

/-- **C50.** The 'rect' pulse is a zero-order hold delayed by `D = span*osr - floor(osr/2)` samples. -/
theorem C50_rect (x : List ℝ) (osr span : ℕ) (β : ℝ) (ho : 0 < osr) (hs : 0 < span) (hx : 0 < x.length) :
    ∃ y z, pulseShape x osr span "rect" β none = .ok (y, z) ∧ y.length = x.length * osr ∧
      ∀ n : ℕ, n < x.length * osr → y.getD n 0
        = if n < span * osr - osr / 2 then 0 else x.getD ((n - (span * osr - osr / 2)) / osr) 0 := by
  obtain ⟨y, z, e, hl, -, hy⟩ := C50_superposition x osr span "rect" β Spec.rectFn (Or.inl ⟨rfl, rfl⟩) ho hs hx
  refine ⟨y, z, e, hl, fun n hn => ?_⟩
  rw [hy n hn]
  have hpos : (0 : ℝ) < osr := by exact_mod_cast ho
  have hs1 : (1 : ℝ) ≤ span := by exact_mod_cast hs
  obtain ⟨D, hD⟩ : ∃ D, D = span * osr - osr / 2 := ⟨_, rfl⟩
  have hso : osr ≤ span * osr := Nat.le_mul_of_pos_left _ hs
  have key : ∀ j : ℕ, truncated span Spec.rectFn ((n : ℝ) / osr - j - span)
      = if D + j * osr ≤ n ∧ n < D + j * osr + osr then 1 else 0 := by
    intro j
    obtain ⟨m, hm⟩ : ∃ m : ℤ, m = (n : ℤ) - j * osr - span * osr := ⟨_, rfl⟩
    have ht : (n : ℝ) / osr - j - span = (m : ℝ) / osr := by
      rw [hm]; push_cast; field_simp
    rw [ht]
    have hr : ((m : ℝ) / osr ∈ Set.Ico (-1 / 2 : ℝ) (1 / 2)) ↔ (D + j * osr ≤ n ∧ n < D + j * osr + osr) := by
      rw [Set.mem_Ico, le_div_iff₀ hpos, div_lt_iff₀ hpos]
      have a1 : (-1 / 2 * (osr : ℝ) ≤ m) ↔ -(osr : ℤ) ≤ 2 * m := by
        rw [← Int.cast_le (R := ℝ)]; push_cast
        constructor <;> intro h <;> linarith
      have a2 : ((m : ℝ) < 1 / 2 * osr) ↔ 2 * m < osr := by
        rw [← Int.cast_lt (R := ℝ)]; push_cast
        constructor <;> intro h <;> linarith
      rw [a1, a2]
      zify
      have hDz : (D : ℤ) = span * osr - osr / 2 := by rw [hD]; push_cast [show osr / 2 ≤ span * osr by omega]; rfl
      rw [hDz]
      generalize (span : ℤ) * osr = so at *
      generalize (j : ℤ) * osr = jo at *
      omega
    by_cases h : D + j * osr ≤ n ∧ n < D + j * osr + osr
    · have hmem := hr.2 h
      rw [if_pos h, truncated, Set.indicator_of_mem, Spec.rectFn, Set.indicator_of_mem hmem]
      · rfl
      · exact ⟨by linarith [hmem.1], by linarith [hmem.2]⟩
    · rw [if_neg h, truncated, Set.indicator_apply, Spec.rectFn, Set.indicator_of_notMem (fun h' => h (hr.1 h')), ite_self]
  simp only [key, ← hD]
  have hDpos : 0 < D := by omega
  split_ifs with h
  · refine sum_eq_zero fun j _ => ?_
    rw [if_neg (by omega), mul_zero]
  · have hq : (n - D) / osr < x.length := by
      rw [Nat.div_lt_iff_lt_mul ho]; omega
    rw [sum_eq_single_of_mem ((n - D) / osr) (mem_range.2 hq)]
    · have h1 := Nat.div_add_mod (n - D) osr
      have h2 := Nat.mod_lt (n - D) ho
      rw [Nat.mul_comm] at h1
      rw [if_pos (by omega), mul_one]
    · intro j _ hj
      rw [if_neg, mul_zero]
      rintro ⟨ha, hb⟩
      apply hj
      symm
      rw [Nat.div_eq_iff ho]
      constructor <;> omega

example : shapeWith (rectPulse (timeVec (K := ℚ) 3 1)) [5, 0, 0, 7, 0, 0, 1, 0, 0] 3 1 none
    = .ok ([0, 0, 5, 5, 5, 7, 7, 7, 1], [1, 1, 0, 0, 0]) := by decide +kernel
example : shapeWith (rectPulse (timeVec (K := ℚ) 4 1)) [5, 0, 0, 0, 7, 0, 0, 0] 4 1 none
    = .ok ([0, 0, 5, 5, 5, 5, 7, 7], [7, 7, 0, 0, 0, 0, 0]) := by decide +kernel

/-- **C50.** Shaping in non-empty chunks with the returned memory gives the output pieces and the final memory
of shaping at once, from zero memory or any valid memory, for every usable pulse. -/
theorem C50_chunks (osr span : ℕ) (name : String) (β : ℝ) (ho : 0 < osr) (hs : 0 < span)
    (hname : name = "rect" ∨ name = "sinc" ∨ ((name = "rcos" ∨ name = "rrc") ∧ β ≠ 0))
    (zi : Option (List ℝ)) (hz : ∀ z, zi = some z → z.length = osr * span * 2 - 1)
    (cs : List (List ℝ)) (hne : cs ≠ []) (hcs : ∀ c ∈ cs, 0 < c.length) :
    ∃ ys zo, pulseShapeChunks osr span name β zi cs = .ok (ys, some zo) ∧
      pulseShape cs.flatten osr span name β zi = .ok (ys.flatten, zo) ∧
      ys.map List.length = cs.map (fun c => c.length * osr) := by
  obtain ⟨g, hg⟩ : ∃ g, getPulse name osr span β = .ok ((timeVec osr span).map g) := by
    rcases hname with rfl | rfl | ⟨rfl | rfl, hβ⟩
    · exact ⟨_, getPulse_eq _ _ _ _ ho _ (Or.inl ⟨rfl, rfl⟩)⟩
    · exact ⟨_, getPulse_eq _ _ _ _ ho _ (Or.inr (Or.inl ⟨rfl, rfl⟩))⟩
    · exact ⟨_, getPulse_eq _ _ _ _ ho _ (Or.inr (Or.inr (Or.inl ⟨rfl, hβ, rcosFn_spec β⟩)))⟩
    · unfold getPulse
      rw [if_neg (by decide), if_neg (by decide), if_neg (by decide), if_pos rfl]
      unfold rrcPulse
      rw [if_neg hβ]
      exact ⟨_, rfl⟩
  obtain ⟨ys, zo, u, e1, e2, e3, e4, e5⟩ := pulseShapeChunks_eq osr span name β g hg ho hs cs hcs zi hz
  have hx : 0 < cs.flatten.length := by
    cases cs with
    | nil => exact absurd rfl hne
    | cons c cs => have := hcs c (by simp); rw [List.flatten_cons, List.length_append]; omega
  obtain ⟨u', f1, f2, f3⟩ := pulseShape_eq cs.flatten osr span name β g hg ho hs hx zi hz
  rw [e2] at f1
  cases f1
  cases zo with
  | none => exact absurd rfl (e5 hne)
  | some zo =>
    rw [Option.getD_some] at e4
    exact ⟨ys, zo, e1, by rw [f3, ← e4], e3⟩

/-- **C50** (negation). The documented pulse 'imp' is never usable: for every signal, osr, span and memory,
`pulse_shape` raises ValueError (the memory has the length for a pulse of `2*osr*span` samples). -/
theorem C50_negative_imp (x : List ℝ) (osr span : ℕ) (β : ℝ) (zi : Option (List ℝ)) :
    pulseShape x osr span "imp" β zi = .error .valueError := by
  have hl : ∀ u z : List ℝ, 0 < z.length → lfilter [1] [1] u z = .error .valueError := by
    intro u z hz
    unfold lfilter
    rw [if_neg (by simp), if_pos (by simp; intro h; simp [h] at hz)]
  unfold pulseShape upsample
  by_cases ho : osr = 0
  · rw [if_pos ho]; rfl
  · rw [if_neg ho]
    show ((getPulse "imp" osr span β).bind fun p => shapeWith p _ osr span zi) = _
    unfold getPulse
    rw [if_neg (by decide), if_neg (by decide), if_neg (by decide), if_neg (by decide), if_pos rfl]
    show shapeWith _ _ osr span zi = _
    unfold shapeWith
    split_ifs with h
    · rfl
    · cases zi with
      | none => exact hl _ _ (by rw [List.length_replicate]; omega)
      | some z =>
        show (if z.length ≠ osr * span * 2 - 1 then _ else _) = _
        split_ifs with h'
        · rfl
        · exact hl _ _ (by omega)

/-- **C50** (negation). The raised-cosine pulses are not usable with roll-off 0 (ZeroDivisionError). -/
theorem C50_negative_zero_rolloff (x : List ℝ) (osr span : ℕ) (ho : 0 < osr) (zi : Option (List ℝ)) :
    pulseShape x osr span "rcos" 0 zi = .error .zeroDivision ∧
    pulseShape x osr span "rrc" 0 zi = .error .zeroDivision := by
  constructor <;>
  · unfold pulseShape upsample
    rw [if_neg (by omega)]
    show ((getPulse _ osr span 0).bind _) = _
    simp [getPulse, rcosPulse, rrcPulse, Except.bind]

/-- **C50.** Unknown names, an osr or span of 0, memories of a wrong length and empty signals are rejected with
ValueError. -/
theorem C50_rejects (x : List ℝ) (osr span : ℕ) (name : String) (β : ℝ) (zi : Option (List ℝ)) :
    (name ∉ ["rect", "sinc", "rcos", "rrc", "imp"] → pulseShape x osr span name β zi = .error .valueError) ∧
    (name ∈ ["rect", "sinc"] →
      (osr = 0 ∨ span = 0 ∨ (∃ z, zi = some z ∧ z.length ≠ osr * span * 2 - 1) ∨ x = []) →
      pulseShape x osr span name β zi = .error .valueError) := by
  constructor
  · intro h
    simp only [List.mem_cons, List.not_mem_nil, or_false, not_or] at h
    obtain ⟨h1, h2, h3, h4, h5⟩ := h
    unfold pulseShape upsample
    by_cases ho : osr = 0
    · rw [if_pos ho]; rfl
    · rw [if_neg ho]
      show ((getPulse name osr span β).bind _) = _
      unfold getPulse
      rw [if_neg h1, if_neg h2, if_neg h3, if_neg h4, if_neg h5]
      rfl
  · intro hn h
    by_cases ho : osr = 0
    · unfold pulseShape upsample
      rw [if_pos ho]; rfl
    · obtain ⟨g, hg⟩ : ∃ g, getPulse name osr span β = .ok ((timeVec osr span).map g) := by
        simp only [List.mem_cons, List.not_mem_nil, or_false] at hn
        rcases hn with rfl | rfl
        · exact ⟨_, getPulse_eq _ _ _ _ (by omega) _ (Or.inl ⟨rfl, rfl⟩)⟩
        · exact ⟨_, getPulse_eq _ _ _ _ (by omega) _ (Or.inr (Or.inl ⟨rfl, rfl⟩))⟩
      unfold pulseShape
      obtain ⟨u, e, hl, -⟩ := upsample_eq x osr (by omega)
      rw [e, hg]
      show shapeWith _ u osr span zi = _
      unfold shapeWith
      by_cases h0 : osr * span = 0
      · rw [if_pos h0]
      · rw [if_neg h0]
        have key : x = [] → ∀ z, lfilter ((timeVec osr span).map g) [1] u z = .error .valueError := by
          rintro rfl z
          have hl0 : u.length = 0 := by rw [hl, List.length_nil, Nat.zero_mul]
          unfold lfilter
          by_cases a : ((timeVec osr span).map g).length = 0 ∨ [(1 : ℝ)].length = 0 ∨ [(1 : ℝ)].getD 0 0 = 0
          · rw [if_pos a]
          · rw [if_neg a, if_pos (show [(1 : ℝ)].length = 1 ∧ u.length = 0 from ⟨rfl, hl0⟩), ite_self]
        rcases h with h | h | ⟨z, rfl, h⟩ | h
        · exact absurd h ho
        · exact absurd (by rw [h, Nat.mul_zero]) h0
        · show (if z.length ≠ osr * span * 2 - 1 then _ else _) = _
          rw [if_pos h]
        · cases zi with
          | none => exact key h _
          | some z =>
            show (if z.length ≠ osr * span * 2 - 1 then _ else _) = _
            split_ifs with h'
            · rfl
            · exact key h _

/-! ### C51 -/

/-- **C51.** With the 'sinc' pulse and the 'rcos' pulse of any roll-off except 0, sample `(i+span)*osr` of the
shaped signal is symbol `i`: there is no inter-symbol interference. -/
theorem C51_nyquist (x : List ℝ) (osr span : ℕ) (name : String) (β : ℝ)
    (hname : name = "sinc" ∨ (name = "rcos" ∧ β ≠ 0)) (ho : 0 < osr) (hs : 0 < span) (hx : 0 < x.length) :
    ∃ y z, pulseShape x osr span name β none = .ok (y, z) ∧ y.length = x.length * osr ∧
      ∀ i : ℕ, i + span < x.length → y.getD ((i + span) * osr) 0 = x.getD i 0 := by
  obtain ⟨g, hg, hδ⟩ : ∃ g, IsPulse name β osr g ∧ ∀ k : ℤ, g k = if k = 0 then 1 else 0 := by
    rcases hname with rfl | ⟨rfl, hβ⟩
    · exact ⟨_, Or.inr (Or.inl ⟨rfl, rfl⟩), sinc_int⟩
    · refine ⟨_, Or.inr (Or.inr (Or.inl ⟨rfl, hβ, rcosFn_spec β⟩)), fun k => ?_⟩
      unfold rcosFn
      rw [sinc_int]
      split_ifs with h
      · subst h
        rw [Int.cast_zero, mul_zero, sub_zero, add_zero, Real.sinc_of_ne_zero (by positivity), Real.sin_pi_div_two]
        have := Real.pi_ne_zero
        field_simp
        norm_num
      · rw [zero_mul]
  obtain ⟨y, z, e, hl, -, hy⟩ := C50_superposition x osr span name β g hg ho hs hx
  refine ⟨y, z, e, hl, fun i hi => ?_⟩
  have hpos : (0 : ℝ) < osr := by exact_mod_cast ho
  rw [hy _ (Nat.mul_lt_mul_of_pos_right hi ho), sum_eq_single_of_mem i (mem_range.2 (by omega))]
  · have : (((i + span) * osr : ℕ) : ℝ) / osr - i - span = ((0 : ℤ) : ℝ) := by push_cast; field_simp; ring
    rw [this, truncated, Set.indicator_of_mem, hδ, if_pos rfl, mul_one]
    have : (0 : ℝ) < span := by exact_mod_cast hs
    exact ⟨by simp, by simpa using hs⟩
  · intro j _ hj
    have : (((i + span) * osr : ℕ) : ℝ) / osr - j - span = (((i : ℤ) - j : ℤ) : ℝ) := by push_cast; field_simp; ring
    rw [this, truncated, Set.indicator_apply, hδ, if_neg (show ¬ ((i : ℤ) - j = 0) by omega), ite_self, mul_zero]

example : ∃ y z, pulseShape [3, -1, 1, -3] 4 2 "rcos" (1 / 2) none = .ok (y, z) ∧ y.getD 8 0 = 3 ∧ y.getD 12 0 = -1 := by
  obtain ⟨y, z, e, -, h⟩ := C51_nyquist [3, -1, 1, -3] 4 2 "rcos" (1 / 2) (Or.inr ⟨rfl, by norm_num⟩) (by decide)
    (by decide) (by decide)
  exact ⟨y, z, e, h 0 (by decide), h 1 (by decide)⟩

/-! ### C63 -/

/-- **C63.** For every roll-off except 0 there is exactly one continuous function with
`(1 - (2βt)²) g(t) = sinc(πt) cos(πβt)`, and `rcos_pulse` returns its values at all times, including `±1/(2β)`. -/
theorem C63_rcos (β : ℝ) (hβ : β ≠ 0) :
    ∃ g, IsRaisedCosine β g ∧ (∀ g', IsRaisedCosine β g' → g' = g) ∧
      ∀ t, rcosPulse β t = .ok (t.map g) := by
  refine ⟨rcosFn β, rcosFn_spec β, isRaisedCosine_unique β, fun t => ?_⟩
  unfold rcosPulse
  rw [if_neg hβ]
  congr 2
  funext u
  exact rcos_code β hβ u

/-- **C63.** For every positive roll-off there is exactly one continuous function with
`πt (1 - (4βt)²) g(t) = sin((1-β)πt) + 4βt cos((1+β)πt)`, and `rrc_pulse` returns its values at all times that
are 0, `±1/(4β)`, or farther than 1e-8 from those. -/
theorem C63_rrc (β : ℝ) (hβ : 0 < β) :
    ∃ g, IsRootRaisedCosine β g ∧ (∀ g', IsRootRaisedCosine β g' → g' = g) ∧
      ∀ t : List ℝ, (∀ u ∈ t, (|u| ≤ 1 / 10 ^ 8 → u = 0) ∧
        (|(|u| - 1 / (4 * β))| ≤ 1 / 10 ^ 8 → |u| = 1 / (4 * β))) → rrcPulse β t = .ok (t.map g) := by
  refine ⟨rrcFn β, rrcFn_spec β, isRootRaisedCosine_unique β, fun t ht => ?_⟩
  unfold rrcPulse
  rw [if_neg hβ.ne']
  congr 1
  exact List.map_congr_left fun u hu => rrc_code β hβ u (ht u hu).1 (ht u hu).2

example : ∀ u ∈ [(0 : ℝ), 1 / 2, -1, 1 / 4], (|u| ≤ 1 / 10 ^ 8 → u = 0) ∧
    (|(|u| - 1 / (4 * (1 / 2)))| ≤ 1 / 10 ^ 8 → |u| = 1 / (4 * (1 / 2))) := by
  intro u hu
  simp only [List.mem_cons, List.not_mem_nil, or_false] at hu
  rcases hu with rfl | rfl | rfl | rfl <;> norm_num [abs_of_pos, abs_of_neg]

end Verif
