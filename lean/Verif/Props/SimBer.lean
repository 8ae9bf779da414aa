import Verif.Lemmas.SimBer

/-!
# Pattern generator and error checker of the example simulation (C73)
-/

namespace Verif
open Spec

/-- **C73**, generator: `k` calls of `PrbsGen.__next__` return `k` chunks of the requested length, and their concatenation
is the beginning of the LFSR stream of the seed; the stored seed continues that stream. -/
theorem C73_generator (p : PrbsEnum) (seed : List Int) (hseed : seed.length = p.value)
    (b : ℕ → Int) (hb : LfsrStream (getPolynomial p) seed b) (chunk k : ℕ) :
    ∃ (cs : List (List Int)) (seed' : List Int), prbsGenDraw (getPolynomial p) chunk k seed = .ok (cs, seed') ∧
      cs.length = k ∧ (∀ c ∈ cs, c.length = chunk) ∧ cs.flatten = (List.range (k * chunk)).map b ∧
      LfsrStream (getPolynomial p) seed' (fun t => b (k * chunk + t)) := by
  have hv := value_pos p
  rw [lfsrStream_unique hb (lfsrStream_bitAt _ _ (by rw [poly_length, hseed]))]
  clear hb b
  induction k generalizing seed with
  | zero =>
    refine ⟨[], seed, rfl, rfl, by simp, by simp, ?_⟩
    simpa using lfsrStream_bitAt (getPolynomial p) seed (by rw [poly_length, hseed])
  | succ k ih =>
    have hl : (reg (getPolynomial p) seed chunk).length = p.value := by
      rw [reg_length _ _ _ (by omega), hseed]
    obtain ⟨cs, seed', h1, h2, h3, h4, h5⟩ := ih _ hl
    refine ⟨(List.range chunk).map (bitAt (getPolynomial p) seed) :: cs, seed', ?_, by simp [h2], ?_, ?_, ?_⟩
    · simp only [prbsGenDraw, prbsGenerator_supported p seed hseed, bind, Except.bind, h1]
      rfl
    · intro c hc
      rcases List.mem_cons.1 hc with rfl | hc
      · simp
      · exact h3 c hc
    · rw [List.flatten_cons, h4, Nat.succ_mul, Nat.add_comm (k * chunk), List.range_add, List.map_append,
        List.map_map]
      congr 1
      exact List.map_congr_left (fun t _ => (bitAt_add _ _ _ _).symm)
    · have e : (fun t => bitAt (getPolynomial p) seed ((k + 1) * chunk + t))
          = fun t => bitAt (getPolynomial p) (reg (getPolynomial p) seed chunk) (k * chunk + t) := by
        funext t
        rw [← bitAt_add]
        congr 1
        rw [Nat.succ_mul]; omega
      rw [e]; exact h5

/-- two chunks of the shipped shape: 13 bits at a time -/
example : (prbsGenDraw (getPolynomial .prbs13) 13 2 (List.replicate 13 1)).map (fun r => (r.1.map List.length, r.2.length))
    = .ok ([13, 13], 13) := by decide +kernel

/-- the number of errors `e` of a chunk against the closest phase of the stream `b` -/
def Spec.LeastErrors (b : ℕ → Int) (chunk : List Int) (e : ℕ) : Prop :=
  (∃ φ, mismatches chunk.length (stream chunk) (fun i => b (φ + i)) = e) ∧
    ∀ ψ, e ≤ mismatches chunk.length (stream chunk) (fun i => b (ψ + i))

/-- **C73**, checker: for chunks of at most one period, each call of `check_ber` returns the smallest number of
differences to any phase of the reference stream, over the chunk length; the accumulators hold the sums. Empty chunks are
rejected. Partial: the ratio is exact arithmetic, and chunks longer than a period are treated in `C73_full_period`. -/
theorem C73_least_errors_partial (p : PrbsEnum) (seed : List Int) (hseed : seed.length = p.value)
    (b : ℕ → Int) (hb : LfsrStream (getPolynomial p) seed b) (chunks : List (List Int))
    (hbin : ∀ c ∈ chunks, ∀ x ∈ c, x = 0 ∨ x = 1) (hne : ∀ c ∈ chunks, c ≠ [])
    (hlen : ∀ c ∈ chunks, c.length ≤ 2 ^ p.value - 1) :
    ∃ (s s' : BerState) (es : List ℕ), berInit p seed = .ok s ∧
      checkBers p s chunks = .ok (List.zipWith (fun (e : ℕ) (c : List Int) => (e : ℚ) / c.length) es chunks, s') ∧
      List.Forall₂ (LeastErrors b) chunks es ∧
      s'.accErrors = es.sum ∧ s'.accSymbols = chunks.flatten.length := by
  rw [lfsrStream_unique hb (lfsrStream_bitAt _ _ (by rw [poly_length, hseed]))]
  suffices h : ∀ a n, ∃ (s' : BerState) (es : List ℕ),
      checkBers p ⟨(List.range (2 ^ p.value - 1)).map (bitAt (getPolynomial p) seed), a, n⟩ chunks
        = .ok (List.zipWith (fun (e : ℕ) (c : List Int) => (e : ℚ) / c.length) es chunks, s') ∧
      List.Forall₂ (LeastErrors (bitAt (getPolynomial p) seed)) chunks es ∧
      s'.accErrors = a + es.sum ∧ s'.accSymbols = n + chunks.flatten.length by
    obtain ⟨s', es, h1, h2, h3, h4⟩ := h 0 0
    exact ⟨_, s', es, berInit_eq p seed hseed, h1, h2, by simpa using h3, by simpa using h4⟩
  induction chunks with
  | nil => exact fun a n => ⟨_, [], rfl, List.Forall₂.nil, rfl, rfl⟩
  | cons c cs ih =>
    intro a n
    obtain ⟨φ, h1, h2⟩ := checkBer_min p seed hseed a n c (hbin c (by simp)) (hne c (by simp))
    rw [Nat.min_eq_right (hlen c (by simp))] at h2
    obtain ⟨s', es, g1, g2, g3, g4⟩ := ih (fun c hc => hbin c (by simp [hc])) (fun c hc => hne c (by simp [hc]))
      (fun c hc => hlen c (by simp [hc]))
      (a + mismatches c.length (stream c) (fun i => bitAt (getPolynomial p) seed (φ + i))) (n + c.length)
    refine ⟨s', _ :: es, ?_, List.Forall₂.cons ⟨⟨φ, rfl⟩, h2⟩ g2, ?_, ?_⟩
    · simp only [checkBers, h1, bind, Except.bind, g1]
      rfl
    · rw [g3, List.sum_cons, Nat.add_assoc]
    · rw [g4, List.flatten_cons, List.length_append, Nat.add_assoc]

/-- chunks within the shipped sizes: 128 bits are less than a period of PRBS13 -/
example : 128 ≤ 2 ^ PrbsEnum.prbs13.value - 1 := by decide

/-- an empty chunk raises -/
theorem C73_empty (p : PrbsEnum) (s : BerState) (hs : s.prbsVec ≠ []) :
    checkBer p s [] = .error .valueError := by
  simp [checkBer, prbsChecker, lockPatternBinary, hs, bind, Except.bind, pure, Except.pure]

/-- **C73**, chunks of at least one period: if the chunk is the stream at some phase with fewer than `2^(n-2)` errors
in its first period, the reported ratio is exactly the ratio of errors in the chunk. -/
theorem C73_full_period (p : PrbsEnum) (seed : List Int) (hseed : seed.length = p.value)
    (hne : ∃ x ∈ seed, x % 2 = 1) (b : ℕ → Int) (hb : LfsrStream (getPolynomial p) seed b) (φ : ℕ)
    (data : List Int) (hbin : ∀ x ∈ data, x = 0 ∨ x = 1) (hlen : 2 ^ p.value - 1 ≤ data.length)
    (herr : mismatches (2 ^ p.value - 1) (stream data) (fun i => b (φ + i)) < 2 ^ (p.value - 2)) :
    ∃ s s', berInit p seed = .ok s ∧
      checkBer p s data = .ok ((mismatches data.length (stream data) (fun i => b (φ + i)) : ℚ) / data.length, s') ∧
      s'.accErrors = mismatches data.length (stream data) (fun i => b (φ + i)) ∧ s'.accSymbols = data.length := by
  have hP := two_pow_sub_pos (value_pos p)
  rw [lfsrStream_unique hb (lfsrStream_bitAt _ _ (by rw [poly_length, hseed]))] at herr ⊢
  obtain ⟨ψ, h1, h2⟩ := checkBer_min p seed hseed 0 0 data hbin (List.ne_nil_of_length_pos (by omega))
  rw [Nat.min_eq_left hlen] at h2
  have hphase : ψ % (2 ^ p.value - 1) = φ % (2 ^ p.value - 1) := by
    by_contra hdiff
    have h3 := bitAt_phase_ne p _ hseed hne ψ φ hdiff
    have h4 := mismatches_triangle (2 ^ p.value - 1) (fun i => bitAt (getPolynomial p) seed (ψ + i)) (stream data)
      (fun i => bitAt (getPolynomial p) seed (φ + i))
    have h5 := mismatches_comm (2 ^ p.value - 1) (stream data) (fun i => bitAt (getPolynomial p) seed (ψ + i))
    have h6 : 2 ^ (p.value - 1) = 2 * 2 ^ (p.value - 2) := by
      rw [← Nat.pow_succ']; congr 1; cases p <;> rfl
    have h7 := h2 φ
    omega
  have hsame : (fun i => bitAt (getPolynomial p) seed (ψ + i)) = fun i => bitAt (getPolynomial p) seed (φ + i) := by
    funext i
    rw [← bitAt_mod p _ hseed, ← bitAt_mod p _ hseed (φ + i)]
    congr 1
    exact Nat.ModEq.add_right i hphase
  rw [hsame] at h1
  exact ⟨_, _, berInit_eq p seed hseed, h1, by simp, by simp⟩

/-- a received period of PRBS7 with one error meets the hypotheses -/
example : mismatches (2 ^ PrbsEnum.prbs7.value - 1)
    (stream (((List.range 127).map (bitAt (getPolynomial .prbs7) (List.replicate 7 1))).set 5 0))
    (fun i => bitAt (getPolynomial .prbs7) (List.replicate 7 1) (0 + i)) < 2 ^ (PrbsEnum.prbs7.value - 2) := by
  decide +kernel

/-- **C73**, *violated* for slips: every chunk is locked again on its own, so chunks cut out of the stream at arbitrary,
unrelated positions (bits lost, repeated or reordered between the chunks) are all reported as free of errors. -/
theorem C73_negative_slips (p : PrbsEnum) (seed : List Int) (hseed : seed.length = p.value)
    (b : ℕ → Int) (hb : LfsrStream (getPolynomial p) seed b) (cuts : List (ℕ × ℕ))
    (hlen : ∀ c ∈ cuts, 0 < c.2 ∧ c.2 ≤ 2 ^ p.value - 1) :
    ∃ s s', berInit p seed = .ok s ∧
      checkBers p s (cuts.map (fun c => (List.range c.2).map (fun (i : ℕ) => b (c.1 + i))))
        = .ok (cuts.map (fun _ => (0 : ℚ)), s') ∧ s'.accErrors = 0 := by
  have hb' := lfsrStream_unique hb (lfsrStream_bitAt _ _ (by rw [poly_length, hseed]))
  obtain ⟨s, s', es, h1, h2, h3, h4, h5⟩ := C73_least_errors_partial p seed hseed b hb
    (cuts.map (fun c => (List.range c.2).map (fun (i : ℕ) => b (c.1 + i))))
    (by
      intro c hc x hx
      obtain ⟨d, -, rfl⟩ := List.mem_map.1 hc
      obtain ⟨i, -, rfl⟩ := List.mem_map.1 hx
      rw [hb']; exact bitAt_mem _ _ _)
    (by
      intro c hc
      obtain ⟨d, hd, rfl⟩ := List.mem_map.1 hc
      have := (hlen d hd).1
      exact List.ne_nil_of_length_pos (by simpa using this))
    (by
      intro c hc
      obtain ⟨d, hd, rfl⟩ := List.mem_map.1 hc
      simpa using (hlen d hd).2)
  have hz : es = cuts.map (fun _ => 0) := by
    clear h2 h4 h5
    rw [List.forall₂_map_left_iff] at h3
    induction h3 with
    | nil => rfl
    | @cons c e cs es h _ ih =>
      rw [List.map_cons, ih (fun c hc => hlen c (by simp [hc]))]
      congr 1
      have h0 := h.2 c.1
      have hm : mismatches ((List.range c.2).map (fun (i : ℕ) => b (c.1 + i))).length
          (stream ((List.range c.2).map (fun (i : ℕ) => b (c.1 + i)))) (fun i => b (c.1 + i)) = 0 := by
        rw [mismatches_eq_zero]
        intro i hi
        rw [List.length_map, List.length_range] at hi
        simp [stream, hi]
      omega
  refine ⟨s, s', h1, ?_, ?_⟩
  · rw [h2, hz]
    congr 2
    clear h2 h3 h4 h5 hz hlen
    induction cuts with
    | nil => rfl
    | cons c cs ih => rw [List.map_cons, List.map_cons, List.zipWith_cons_cons, ih]; simp
  · rw [h4, hz]; simp

/-- cuts at unrelated positions of PRBS13 -/
example : ∀ c ∈ [(0, 128), (7000, 100), (3, 64)], 0 < c.2 ∧ c.2 ≤ 2 ^ PrbsEnum.prbs13.value - 1 := by decide

/-- **C73**, *violated* for short chunks: whatever was received, a chunk shorter than the register (or of its length and
not all zero) is reported as free of errors. -/
theorem C73_negative_short (p : PrbsEnum) (seed : List Int) (hseed : seed.length = p.value)
    (hne : ∃ x ∈ seed, x % 2 = 1) (data : List Int) (hbin : ∀ x ∈ data, x = 0 ∨ x = 1) (hd : data ≠ [])
    (hshort : data.length < p.value ∨ (data.length = p.value ∧ (1 : Int) ∈ data)) :
    ∃ s s', berInit p seed = .ok s ∧ checkBer p s data = .ok (0, s') ∧ s'.accErrors = 0 ∧
      s'.accSymbols = data.length := by
  have hle : p.value ≤ 2 ^ p.value - 1 := by
    have := @Nat.lt_two_pow_self p.value
    omega
  obtain ⟨ψ, h1, h2⟩ := checkBer_min p seed hseed 0 0 data hbin hd
  rw [Nat.min_eq_right (by omega)] at h2
  obtain ⟨φ, hφ⟩ : ∃ φ, ∀ i < data.length, stream data i = bitAt (getPolynomial p) seed (φ + i) := by
    rcases hshort with h | ⟨h, h1⟩
    · obtain ⟨φ, hφ⟩ := window_exists p seed (data ++ List.replicate (p.value - data.length) 1) hseed hne
        (by simp; omega)
        (by
          intro x hx
          rcases List.mem_append.1 hx with hx | hx
          · exact hbin x hx
          · exact Or.inr (List.eq_of_mem_replicate hx))
        (by simp; omega)
      refine ⟨φ, fun i hi => ?_⟩
      rw [hφ i (by omega)]
      simp only [stream, List.getD_eq_getElem?_getD]
      rw [List.getElem?_append_left hi]
    · obtain ⟨φ, hφ⟩ := window_exists p seed data hseed hne h hbin h1
      exact ⟨φ, fun i hi => (hφ i (by omega)).symm⟩
  have hz : mismatches data.length (stream data) (fun i => bitAt (getPolynomial p) seed (ψ + i)) = 0 := by
    have h3 := h2 φ
    rw [mismatches_eq_zero.2 hφ] at h3
    omega
  rw [hz] at h1
  exact ⟨_, _, berInit_eq p seed hseed, by simpa using h1, rfl, by simp⟩

example : ([0, 1, 1, 0, 1] : List Int).length < PrbsEnum.prbs13.value := by decide

/-- **C73**: however bad the link, a chunk of at most one period is never reported with more than `2^(n-1)/(2^n-1)`
(just over one half) of its bits in error. -/
theorem C73_at_most_half (p : PrbsEnum) (seed : List Int) (hseed : seed.length = p.value)
    (hne : ∃ x ∈ seed, x % 2 = 1) (data : List Int) (hbin : ∀ x ∈ data, x = 0 ∨ x = 1) (hd : data ≠ [])
    (hlen : data.length ≤ 2 ^ p.value - 1) :
    ∃ s s' ber, berInit p seed = .ok s ∧ checkBer p s data = .ok (ber, s') ∧
      ber ≤ 2 ^ (p.value - 1) / (2 ^ p.value - 1) := by
  have hP := two_pow_sub_pos (value_pos p)
  obtain ⟨ψ, h1, h2⟩ := checkBer_min p seed hseed 0 0 data hbin hd
  rw [Nat.min_eq_right hlen] at h2
  obtain ⟨φ, hφ⟩ := exists_phase_half p seed hseed hne data.length (stream data) (mem_of_stream data hbin)
  refine ⟨_, _, _, berInit_eq p seed hseed, h1, ?_⟩
  have hl : (0 : ℚ) < data.length := by exact_mod_cast List.length_pos_iff.2 hd
  have hPq : (2 : ℚ) ^ p.value - 1 = ((2 ^ p.value - 1 : ℕ) : ℚ) := by
    rw [Nat.cast_sub Nat.one_le_two_pow]; push_cast; ring
  have hPp : (0 : ℚ) < ((2 ^ p.value - 1 : ℕ) : ℚ) := by exact_mod_cast hP
  rw [hPq, div_le_div_iff₀ hl hPp]
  have := Nat.mul_le_mul_right (2 ^ p.value - 1) (h2 φ)
  have h3 := this.trans hφ
  rw [Nat.mul_comm data.length] at h3
  exact_mod_cast h3

/-- a received sequence that is wrong everywhere meets the hypotheses -/
example : (((List.range 128).map (fun t => 1 - bitAt (getPolynomial .prbs13) (List.replicate 13 1) t)) : List Int).length
    ≤ 2 ^ PrbsEnum.prbs13.value - 1 := by simp [PrbsEnum.value]

end Verif
