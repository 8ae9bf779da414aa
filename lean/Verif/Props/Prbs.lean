import Verif.Lemmas.PrbsPeriod

/-!
# PRBS properties (C01 - C06)

Hypothesis used below: a seed has the length of the polynomial (`seed.length = p.value`). Seeds may
hold arbitrary integers; "non-zero seed" means some cell is odd (for binary seeds: some cell is 1).
-/

namespace Verif

/-- **C01.** For every supported PRBS type and every seed there is a single infinite stream `b`
satisfying the LFSR recurrence, and for *every* output length `L` the generator returns exactly the
first `L` bits of it. -/
theorem C01_prbs_stream (p : PrbsEnum) (seed : List Int) (hseed : seed.length = p.value) :
    ∃ b : ℕ → Int, Spec.LfsrStream (getPolynomial p) seed b ∧
      ∀ L : ℕ, ∃ seq sd, prbsGenerator (getPolynomial p) seed L = .ok (seq, sd) ∧
        seq.length = L ∧ ∀ t < L, seq[t]? = some (b t) := by
  refine ⟨bitAt (getPolynomial p) seed,
    lfsrStream_bitAt _ _ (by rw [poly_length, hseed]), fun L => ?_⟩
  refine ⟨_, _, prbsGenerator_supported p seed hseed L, by simp, fun t ht => ?_⟩
  rw [map_range_getElem?, if_pos ht]

/-- the stream of C01 is the only one satisfying the recurrence -/
theorem C01_stream_unique {poly seed : List Int} {b c : ℕ → Int}
    (hb : Spec.LfsrStream poly seed b) (hc : Spec.LfsrStream poly seed c) : b = c :=
  lfsrStream_unique hb hc

/-- C01 for an arbitrary polynomial holds up to one nominal period. -/
theorem C01_any_poly_one_period (poly seed : List Int) (hn : 0 < poly.length)
    (h : poly.length = seed.length) (L : ℕ) (hL : L ≤ 2 ^ poly.length - 1) :
    ∃ b : ℕ → Int, Spec.LfsrStream poly seed b ∧ ∃ seq sd, prbsGenerator poly seed L = .ok (seq, sd) ∧
        seq.length = L ∧ ∀ t < L, seq[t]? = some (b t) := by
  obtain ⟨sd, h1, -⟩ := prbsGenerator_seq poly seed L hn h
  refine ⟨bitAt poly seed, lfsrStream_bitAt _ _ h, _, sd, h1, by simp, fun t ht => ?_⟩
  rw [map_range_getElem?, if_pos ht, Nat.mod_eq_of_lt (by omega)]

/-- Beyond one nominal period an unsupported (non-primitive) polynomial is *not* generated
correctly: for `1 + x^2` and seed `[1,0]` the bit at time 3 is 1 but the generator returns 0. -/
theorem C01_negative_nonprimitive :
    ∃ seq sd, prbsGenerator [0, 1] [1, 0] 4 = .ok (seq, sd) ∧ seq[3]? = some 0 ∧
      ∀ b : ℕ → Int, Spec.LfsrStream [0, 1] [1, 0] b → b 3 = 1 := by
  refine ⟨_, _, rfl, by decide, fun b hb => ?_⟩
  have h := lfsrStream_unique hb (lfsrStream_bitAt [0, 1] [1, 0] rfl)
  rw [h]; decide

example : ([1, 0, 1, 1, 0, 0, 1] : List Int).length = PrbsEnum.prbs7.value := rfl

/-- The guards of the generator: an empty polynomial raises ZeroDivisionError and a seed of the
wrong length raises ValueError (as soon as a bit is requested). -/
theorem C01_rejects (poly seed : List Int) (L : ℕ) (hL : 0 < L) :
    (poly = [] → prbsGenerator poly seed L = .error .zeroDivision) ∧
    (poly ≠ [] → poly.length ≠ seed.length →
      prbsGenerator poly seed L = .error .valueError) := by
  constructor
  · rintro rfl; rfl
  · intro h1 h2
    unfold prbsGenerator
    have : poly.length ≠ 0 := fun h => h1 (List.length_eq_zero_iff.1 h)
    simp [this, hL, h2]

/-- example_simulation/simulation_parts/transmitter.py 14-16 (`PrbsGen.__next__`) iterated, and the
natural user loop: generate chunk after chunk, feeding the returned seed into the next call. -/
def prbsChunks (poly : List Int) : List Nat → List Int → Py (List Int × List Int)
  | [], seed => .ok ([], seed)
  | L :: Ls, seed => do
    let (a, seed') ← prbsGenerator poly seed L
    let (b, seed'') ← prbsChunks poly Ls seed'
    return (a ++ b, seed'')

/-- **C02.** Chunked generation equals a single call, bits and final seed, for any chunk lengths
(zero, shorter than the register, longer than a period). -/
theorem C02_prbs_resumable (p : PrbsEnum) (seed : List Int) (hseed : seed.length = p.value)
    (Ls : List ℕ) :
    prbsChunks (getPolynomial p) Ls seed = prbsGenerator (getPolynomial p) seed (Ls.sum : ℕ) := by
  have hv := value_pos p
  induction Ls generalizing seed with
  | nil =>
    rw [prbsGenerator_supported p seed hseed]
    simp [prbsChunks, reg_zero]
  | cons L Ls ih =>
    have hl : (reg (getPolynomial p) seed L).length = p.value := by
      rw [reg_length _ _ _ (by omega), hseed]
    simp only [prbsChunks, prbsGenerator_supported p seed hseed, ih _ hl,
      prbsGenerator_supported p _ hl, List.sum_cons, bind, Except.bind, pure, Except.pure,
      Except.ok.injEq, Prod.mk.injEq]
    constructor
    · rw [List.range_add, List.map_append, List.map_map]
      congr 1
      apply List.map_congr_left
      intro t _
      simp [bitAt_add]
    · rw [reg_add]

example : prbsChunks (getPolynomial .prbs7) [0, 3, 5] [1, 1, 1, 1, 1, 1, 1] =
    prbsGenerator (getPolynomial .prbs7) [1, 1, 1, 1, 1, 1, 1] 8 := by decide

/-- **C03.** For every polynomial and seed of equal positive length, drawing `k` values from
`PrbsIterator` gives the first `k` bits of the LFSR stream; `get_seed` then holds the last bits
(newest first) followed by the remaining seed cells, and `get_prev_seed` holds the register before
the last draw (`None` before the first draw). -/
theorem C03_iterator (poly seed : List Int) (h : poly.length = seed.length) (hn : 0 < poly.length) :
    ∃ b : ℕ → Int, Spec.LfsrStream poly seed b ∧ ∀ k : ℕ, ∃ it,
      PrbsIter.draw k (PrbsIter.new poly seed) = .ok ((List.range k).map b, it) ∧
      it.getSeed.length = seed.length ∧
      (∀ i < seed.length, it.getSeed.getD i 0 = if i < k then b (k - 1 - i) else seed.getD (i - k) 0) ∧
      (k = 0 → it.getPrevSeed = none) ∧
      (∀ j, k = j + 1 → ∃ itj, PrbsIter.draw j (PrbsIter.new poly seed) = .ok ((List.range j).map b, itj)
        ∧ it.getPrevSeed = some itj.getSeed) := by
  refine ⟨bitAt poly seed, lfsrStream_bitAt _ _ h, fun k => ?_⟩
  have hd := draw_eq poly seed h hn none
  refine ⟨_, hd k, ?_, ?_, ?_, ?_⟩
  · exact reg_length _ _ _ (by omega)
  · intro i hi; exact reg_getD _ _ _ _ hi
  · rintro rfl; rfl
  · rintro j rfl; exact ⟨_, hd j, by simp [PrbsIter.getPrevSeed, PrbsIter.getSeed]⟩

/-- **C03**, agreement with the block generator: for the supported types, `k` draws give the same
bits as `prbs_gen(poly, seed, k)` and `get_seed` equals the seed it returns. -/
theorem C03_iterator_eq_generator (p : PrbsEnum) (seed : List Int) (hseed : seed.length = p.value)
    (k : ℕ) : ∃ bits it,
      PrbsIter.draw k (PrbsIter.new (getPolynomial p) seed) = .ok (bits, it) ∧
      prbsGenerator (getPolynomial p) seed k = .ok (bits, it.getSeed) := by
  have hv := value_pos p
  have hl := poly_length p
  exact ⟨_, _, draw_eq _ seed (by omega) (by omega) none k, prbsGenerator_supported p seed hseed k⟩

example : ∃ it, PrbsIter.draw 3 (PrbsIter.new (getPolynomial .prbs7) [1, 0, 0, 0, 0, 0, 1]) =
    .ok ([1, 0, 0], it) ∧ it.getSeed = [0, 0, 1, 1, 0, 0, 0] ∧
    it.getPrevSeed = some [0, 1, 1, 0, 0, 0, 0] := ⟨_, rfl, by decide, by decide⟩

/-- **C04.** Every non-zero seed of a supported PRBS yields sequences whose set of periods is exactly
the multiples of `2^n - 1`, i.e. the least period is `2^n - 1` (PRBS31 included). -/
theorem C04_maximal_period (p : PrbsEnum) (seed : List Int) (hseed : seed.length = p.value)
    (hne : ∃ x ∈ seed, x % 2 = 1) (d : ℕ) :
    (∀ (L : ℕ) seq sd, prbsGenerator (getPolynomial p) seed L = .ok (seq, sd) →
        ∀ t, t + d < L → seq[t + d]? = seq[t]?) ↔ (2 ^ p.value - 1) ∣ d := by
  have key := bitAt_period_iff p seed hseed hne d
  rw [← key]
  constructor
  · intro h t
    have := h (t + d + 1) _ _ (prbsGenerator_supported p seed hseed _) t (by omega)
    rw [map_range_getElem?, map_range_getElem?, if_pos (by omega), if_pos (by omega)] at this
    exact Option.some.inj this
  · intro h L seq sd hg t ht
    rw [prbsGenerator_supported p seed hseed] at hg
    cases hg
    rw [map_range_getElem?, map_range_getElem?, if_pos (by omega), if_pos (by omega), h]

/-- **C04**, degenerate seed: a seed with only even cells (the all-zero seed) yields zeros only. -/
theorem C04_zero_seed (p : PrbsEnum) (seed : List Int) (hseed : seed.length = p.value)
    (hz : ∀ x ∈ seed, x % 2 = 0) (L : ℕ) :
    ∃ sd, prbsGenerator (getPolynomial p) seed L = .ok (List.replicate L 0, sd) := by
  refine ⟨reg (getPolynomial p) seed L, ?_⟩
  rw [prbsGenerator_supported p seed hseed]
  have : (List.range L).map (bitAt (getPolynomial p) seed) = List.replicate L 0 := by
    rw [List.eq_replicate_iff]
    refine ⟨by simp, fun x hx => ?_⟩
    rw [List.mem_map] at hx
    obtain ⟨t, -, rfl⟩ := hx
    exact bitAt_zero_seed _ _ (by rw [poly_length, hseed]) (by rw [hseed]; exact value_pos p) hz t
  rw [this]

example : (∃ x ∈ ([0, 0, 0, 0, 0, 0, 1] : List Int), x % 2 = 1) := ⟨1, by decide, by decide⟩

/-- **C05.** Any `2^n - 1` consecutive bits of a supported PRBS with a non-zero seed contain exactly
`2^(n-1)` ones and `2^(n-1) - 1` zeros. -/
theorem C05_balanced (p : PrbsEnum) (seed : List Int) (hseed : seed.length = p.value)
    (hne : ∃ x ∈ seed, x % 2 = 1) (start L : ℕ) (hL : start + (2 ^ p.value - 1) ≤ L)
    (seq sd : List Int) (hg : prbsGenerator (getPolynomial p) seed L = .ok (seq, sd)) :
    ((seq.drop start).take (2 ^ p.value - 1)).count 1 = 2 ^ (p.value - 1) ∧
    ((seq.drop start).take (2 ^ p.value - 1)).count 0 = 2 ^ (p.value - 1) - 1 := by
  rw [prbsGenerator_supported p seed hseed] at hg
  cases hg
  have hw : (((List.range L).map (bitAt (getPolynomial p) seed)).drop start).take (2 ^ p.value - 1)
      = (List.range (2 ^ p.value - 1)).map (fun t => bitAt (getPolynomial p) seed (start + t)) := by
    apply List.ext_getElem?
    intro i
    rw [List.getElem?_take, List.getElem?_drop, map_range_getElem?, map_range_getElem?]
    by_cases hi : i < 2 ^ p.value - 1
    · rw [if_pos hi, if_pos hi, if_pos (by omega)]
    · rw [if_neg hi, if_neg hi]
  rw [hw]
  exact bitAt_balance p seed hseed hne start

example : ∃ seq sd, prbsGenerator (getPolynomial .prbs7) [0, 0, 0, 0, 0, 0, 1] 130 = .ok (seq, sd) :=
  ⟨_, _, rfl⟩

/-- **C06.** Over one period (starting anywhere) a supported PRBS with non-zero seed and its copy
advanced by any `τ` that is not a multiple of the period differ in exactly `2^(n-1)` positions. -/
theorem C06_autocorrelation (p : PrbsEnum) (seed : List Int) (hseed : seed.length = p.value)
    (hne : ∃ x ∈ seed, x % 2 = 1) (τ : ℕ) (hτ : ¬ (2 ^ p.value - 1) ∣ τ) (start L : ℕ)
    (hL : start + τ + (2 ^ p.value - 1) ≤ L)
    (seq sd : List Int) (hg : prbsGenerator (getPolynomial p) seed L = .ok (seq, sd)) :
    ((Finset.range (2 ^ p.value - 1)).filter
      (fun t => seq[start + t]? ≠ seq[start + τ + t]?)).card = 2 ^ (p.value - 1) := by
  rw [prbsGenerator_supported p seed hseed] at hg
  cases hg
  rw [← bitAt_shift_distance p seed hseed hne τ hτ start]
  congr 1
  apply Finset.filter_congr
  intro t ht
  rw [Finset.mem_range] at ht
  rw [map_range_getElem?, map_range_getElem?, if_pos (by omega), if_pos (by omega)]
  simp

example : ¬ (2 ^ PrbsEnum.prbs7.value - 1) ∣ 5 := by decide

end Verif
