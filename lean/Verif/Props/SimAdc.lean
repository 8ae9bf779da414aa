import Verif.Lemmas.SimAdc

/-!
# Analog to digital converter of the example simulation (C74)
-/

set_option linter.unusedSectionVars false

namespace Verif
open Spec

variable {K : Type} [Field K] [LinearOrder K] [IsStrictOrderedRing K]

/-- **C74**, one chunk: with `step = osr // sample_rate > 0`, output `k` belongs to the input sample `phase + k·step` (as
long as the chunk lasts) and is `c / 2^frac_bits` for an integer code `c` of the converter's range; `c` is within one half
of the input sample inside the range and saturates outside. Partial: `phase ≥ 0`, documented types, exact arithmetic. -/
theorem C74_conversion_partial [FloorRing K] (totalBits fracBits osr sampleRate phase : ℕ) (ht : 1 ≤ totalBits)
    (t : FixType) (r : ℤ × ℤ) (hr : codeRange totalBits t = some r) (hs : 0 < osr / sampleRate) (chunk : List K) :
    ∃ out : List K, adcCall totalBits fracBits t osr sampleRate phase chunk = .ok out ∧
      (∀ k, k < out.length ↔ phase + k * (osr / sampleRate) < chunk.length) ∧
      ∀ (k : ℕ) (x y : K), chunk[phase + k * (osr / sampleRate)]? = some x → out[k]? = some y →
        ∃ c : ℤ, y = c / 2 ^ fracBits ∧ r.1 ≤ c ∧ c ≤ r.2 ∧
          (r.1 - 1 / 2 ≤ x → x ≤ r.2 + 1 / 2 → |x - c| ≤ 1 / 2) ∧ (x ≤ r.1 → c = r.1) ∧ (r.2 ≤ x → c = r.2) := by
  obtain ⟨q, hq, hl, hspec⟩ := C21_quantize_partial (sampleEvery phase (osr / sampleRate) chunk) totalBits ht 0 t r hr
  refine ⟨q.map (fun v => v / 2 ^ fracBits), ?_, fun k => ?_, fun k x y hx hy => ?_⟩
  · unfold adcCall
    rw [if_neg (by omega)]
    show (quantize _ totalBits ((0 : ℕ) : ℤ) t >>= _) = _
    rw [hq]; rfl
  · rw [List.length_map, hl]
    have h := sampleEvery_getElem? phase (osr / sampleRate) hs chunk k
    constructor
    · intro hk
      by_contra hc
      rw [List.getElem?_eq_none (by omega : chunk.length ≤ _), List.getElem?_eq_none_iff] at h
      omega
    · intro hk
      by_contra hc
      rw [List.getElem?_eq_none (by omega : (sampleEvery phase (osr / sampleRate) chunk).length ≤ _), eq_comm,
        List.getElem?_eq_none_iff] at h
      omega
  · rw [List.getElem?_map] at hy
    obtain ⟨v, hv, rfl⟩ := Option.map_eq_some_iff.1 hy
    obtain ⟨⟨c, h1, h2, rfl⟩, h3, h4, h5⟩ := hspec k x v (by rw [sampleEvery_getElem? _ _ hs, hx]) hv
    simp only [pow_zero, div_one, mul_one] at h3 h4 h5 ⊢
    exact ⟨c, rfl, h1, h2, h3, fun h => by exact_mod_cast h4 h, fun h => by exact_mod_cast h5 h⟩

/-- the shipped converter: 8 bits, 6 of them fractional, symmetric, one sample in 64 at phase 32 -/
example : codeRange 8 .ss = some (-127, 127) ∧ 0 < 64 / 1 := by decide
example : adcCall (K := ℚ) 8 6 .ss 4 1 2 [0, 0, 33/10, 0, 0, 0, -500, 0] = .ok [3/64, -127/64] := by decide +kernel

/-- **C74**, chunks: when the sampling phase is below `step` and every chunk is a whole number of steps long, the
samples taken chunk by chunk are the samples taken from the whole signal. -/
theorem C74_chunks (totalBits fracBits osr sampleRate phase : ℕ) (t : FixType) (hs : phase < osr / sampleRate)
    (chunks : List (List K)) (hc : ∀ c ∈ chunks, osr / sampleRate ∣ c.length) (out : List K)
    (h : adcCall totalBits fracBits t osr sampleRate phase chunks.flatten = .ok out) :
    ∃ ys : List (List K), adcCalls totalBits fracBits t osr sampleRate phase chunks = .ok ys ∧ ys.flatten = out := by
  unfold adcCall at h
  rw [if_neg (by omega)] at h
  have hn : ¬ osr / sampleRate = 0 := by omega
  cases hq : (quantLevels totalBits 0 t : Py (List K)) with
  | error e =>
    simp only [quantize, hq, bind, Except.bind] at h
    exact absurd h (by simp)
  | ok levels =>
    simp only [quantize, hq, bind, Except.bind] at h
    by_cases hl : levels.length = 0
    · simp only [hl, if_true] at h
      exact absurd h (by simp)
    · simp only [hl, if_false, pure, Except.pure, Except.ok.injEq] at h
      subst h
      have hone : ∀ c : List K, adcCall totalBits fracBits t osr sampleRate phase c
          = .ok (((sampleEvery phase (osr / sampleRate) c).map (sliceOne levels)).map (fun v => v / 2 ^ fracBits)) := by
        intro c
        simp only [adcCall, if_neg hn, quantize, hq, bind, Except.bind, hl, if_false]
        rfl
      clear hq
      induction chunks with
      | nil =>
        refine ⟨[], rfl, ?_⟩
        have : sampleEvery phase (osr / sampleRate) ([] : List K) = [] := by
          apply List.eq_nil_of_length_eq_zero
          rw [sampleEvery_length]
          exact Nat.div_eq_of_lt (by rw [List.length_nil, Nat.zero_sub, Nat.zero_add]; omega)
        simp [this]
      | cons c cs ih =>
        obtain ⟨ys, h1, h2⟩ := ih (fun c hc' => hc c (by simp [hc']))
        refine ⟨((sampleEvery phase (osr / sampleRate) c).map (sliceOne levels)).map (fun v => v / 2 ^ fracBits) :: ys, ?_, ?_⟩
        · simp only [adcCalls, hone, bind, Except.bind, h1]
          rfl
        · rw [List.flatten_cons, h2, List.flatten_cons, sampleEvery_append _ _ hs _ _ (hc c (by simp)), List.map_append,
            List.map_append]

example : (32 : ℕ) < 64 / 1 ∧ 64 / 1 ∣ 4096 := by decide

/-- **C74**, *violated* when the phase is a step or more: in each chunk of `m` steps only `m - phase/step` samples are
taken, so samples are lost in every chunk. -/
theorem C74_negative_phase (totalBits fracBits osr sampleRate phase m : ℕ) (t : FixType) (hs : 0 < osr / sampleRate)
    (hp : osr / sampleRate ≤ phase) (hm : phase < m * (osr / sampleRate)) (chunk out : List K)
    (hc : chunk.length = m * (osr / sampleRate))
    (h : adcCall totalBits fracBits t osr sampleRate phase chunk = .ok out) :
    out.length = m - phase / (osr / sampleRate) ∧ m - phase / (osr / sampleRate) < m := by
  have hout : out.length = (sampleEvery phase (osr / sampleRate) chunk).length := by
    unfold adcCall at h
    rw [if_neg (by omega)] at h
    cases hq : (quantLevels totalBits 0 t : Py (List K)) with
    | error e =>
      simp only [quantize, hq, bind, Except.bind] at h
      exact absurd h (by simp)
    | ok levels =>
      simp only [quantize, hq, bind, Except.bind] at h
      by_cases hl : levels.length = 0
      · simp only [hl, if_true] at h
        exact absurd h (by simp)
      · simp only [hl, if_false, pure, Except.pure, Except.ok.injEq] at h
        subst h
        simp
  rw [hout]
  clear hout h
  generalize osr / sampleRate = st at *
  have hq : 1 ≤ phase / st := (Nat.one_le_div_iff hs).2 hp
  have hmp : 0 < m := by
    rcases Nat.eq_zero_or_pos m with rfl | h
    · simp at hm
    · exact h
  refine ⟨?_, by omega⟩
  rw [sampleEvery_length, hc]
  have h1 := Nat.div_add_mod phase st
  have h2 := Nat.mod_lt phase hs
  have hle : phase / st < m := (Nat.div_lt_iff_lt_mul hs).2 hm
  obtain ⟨j, rfl⟩ : ∃ j, m = phase / st + (j + 1) := ⟨m - phase / st - 1, by omega⟩
  have e : (phase / st + (j + 1)) * st - phase = j * st + (st - phase % st) := by
    have : (phase / st + (j + 1)) * st = st * (phase / st) + j * st + st := by ring
    rw [this]; omega
  rw [e]
  have e2 : phase / st + (j + 1) - phase / st = j + 1 := by omega
  rw [e2]
  refine Nat.div_eq_of_lt_le ?_ ?_
  · rw [Nat.succ_mul]; omega
  · rw [Nat.succ_mul, Nat.succ_mul]; omega

/-- the default phase `osr // 2` with two samples per symbol is such a phase: one of eight samples of a chunk of four
symbols is lost -/
example : 64 / 2 ≤ 64 / 2 ∧ (sampleEvery (64 / 2) (64 / 2) (List.replicate (8 * 32) (0 : ℚ))).length = 7 := by
  refine ⟨le_rfl, ?_⟩
  rw [sampleEvery_length, List.length_replicate]

/-- **C74**, rejected: a sample rate of zero or above the oversampling raises ZeroDivisionError. -/
theorem C74_rejects (totalBits fracBits osr sampleRate phase : ℕ) (t : FixType) (chunk : List K)
    (h : sampleRate = 0 ∨ osr < sampleRate) :
    adcCall totalBits fracBits t osr sampleRate phase chunk = .error .zeroDivision := by
  unfold adcCall
  rw [if_pos]
  rcases h with rfl | h
  · exact Nat.div_zero _
  · exact Nat.div_eq_of_lt h

/-- **C74**: the phase kept by the clock recovery stays within one symbol and moves by the step modulo the oversampling. -/
theorem C74_phase (phase step : ℤ) (osr : ℕ) (ho : 0 < osr) :
    0 ≤ nextPhase phase step osr ∧ nextPhase phase step osr < osr ∧
      (osr : ℤ) ∣ nextPhase phase step osr - (phase + step) := by
  have h : (0 : ℤ) < osr := by exact_mod_cast ho
  refine ⟨Int.emod_nonneg _ h.ne', Int.emod_lt_of_pos _ h, ?_⟩
  rw [nextPhase]
  exact ⟨-((phase + step) / osr), by have := Int.mul_ediv_add_emod (phase + step) osr; linarith⟩

example : nextPhase 0 (-1) 64 = 63 := by decide

end Verif
