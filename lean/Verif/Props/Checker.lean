import Verif.Lemmas.Checker
import Mathlib.Algebra.Order.BigOperators.Ring.Finset

/-!
# Pattern lock and PRBS checker properties (C07 - C11)
-/

namespace Verif
open Spec

/-- **C07.** With `init_lock=True` and a reference of one period, `prbs_checker` flags exactly the
positions `i` where `data[i]` differs from reference bit `i mod (2^n-1)`, counts the correct bits,
and reports lost lock exactly when the number of errors reaches the threshold. -/
theorem C07_checker_exact (p : PrbsEnum) (data ref : List Int) (th : Int)
    (href : ref.length = 2 ^ p.value - 1) :
    ∃ r, prbsChecker p data true th (some ref) = .ok r ∧
      ExactReport data (fun i => ref.getD (i % (2 ^ p.value - 1)) 0) th
        r.lostLock r.correctBitCount r.errorBit := by
  have hP := two_pow_sub_pos (value_pos p)
  obtain ⟨h1, h2⟩ := tile_ceil_take ref data.length (2 ^ p.value - 1) hP (by omega)
  simp only [prbsChecker, List.length_replicate, pure, Except.pure, bind, Except.bind]
  obtain ⟨r, hr, hrep⟩ := compareBits_spec data _ h1.symm th
    (fun i => ref.getD (i % (2 ^ p.value - 1)) 0) (fun i hi => by rw [h2 i hi, href]; rfl)
  exact ⟨r, hr, hrep⟩

/-- **C07**, default reference: with `prbs_seq=None` the reference is the LFSR stream started from
the all-ones register. -/
theorem C07_checker_exact_default (p : PrbsEnum) (data : List Int) (th : Int) (b : ℕ → Int)
    (hb : LfsrStream (getPolynomial p) (List.replicate p.value 1) b) :
    ∃ r, prbsChecker p data true th none = .ok r ∧
      ExactReport data b th r.lostLock r.correctBitCount r.errorBit := by
  have hP := two_pow_sub_pos (value_pos p)
  have hol : (List.replicate p.value (1:Int)).length = p.value := by simp
  rw [lfsrStream_unique hb (lfsrStream_bitAt _ _ (by rw [poly_length, hol]))]
  simp only [prbsChecker, hol, prbsGenerator_supported p _ hol, pure, Except.pure, bind, Except.bind,
    if_true]
  obtain ⟨h1, h2⟩ := tile_ceil_take ((List.range (2 ^ p.value - 1)).map
    (bitAt (getPolynomial p) (List.replicate p.value 1))) data.length (2 ^ p.value - 1) hP (by simp)
  refine compareBits_spec data _ h1.symm th _ (fun i hi => ?_)
  rw [h2 i hi]
  have hm := Nat.mod_lt i hP
  simp only [stream, List.length_map, List.length_range, List.getD_eq_getElem?_getD,
    map_range_getElem?, if_pos hm, Option.getD_some]
  exact bitAt_mod p _ hol i

example : (List.replicate 127 (0:Int)).length = 2 ^ PrbsEnum.prbs7.value - 1 := by
  simp [PrbsEnum.value]
example : (prbsChecker .prbs7 ((List.replicate 127 0).set 3 1 ++ [1, 0]) true 2
    (some (List.replicate 127 0))).map (fun r => (r.lostLock, r.correctBitCount)) = .ok (true, 127) := by
  decide +kernel

/-- **C08.** Unlocked: if the data (at least one period) is the PRBS stream of *any* non-zero seed at
any phase, with arbitrary bit errors of which fewer than `2^(n-2)` lie in the first period, the
checker reports exactly the injected errors. -/
theorem C08_checker_locks (p : PrbsEnum) (seed : List Int) (hseed : seed.length = p.value)
    (hne : ∃ x ∈ seed, x % 2 = 1) (b : ℕ → Int) (hb : LfsrStream (getPolynomial p) seed b)
    (φ : ℕ) (data : List Int) (hbin : ∀ x ∈ data, x = 0 ∨ x = 1)
    (hlen : 2 ^ p.value - 1 ≤ data.length)
    (herr : mismatches (2 ^ p.value - 1) (stream data) (fun i => b (φ + i)) < 2 ^ (p.value - 2))
    (th : Int) :
    ∃ r, prbsChecker p data false th none = .ok r ∧
      ExactReport data (fun i => b (φ + i)) th r.lostLock r.correctBitCount r.errorBit := by
  have hv := value_pos p
  have hP := two_pow_sub_pos hv
  have hol : (List.replicate p.value (1:Int)).length = p.value := by simp
  have hone : ∃ x ∈ List.replicate p.value (1:Int), x % 2 = 1 := ⟨1, by simp; omega, rfl⟩
  rw [lfsrStream_unique hb (lfsrStream_bitAt _ _ (by rw [poly_length, hseed]))] at herr ⊢
  obtain ⟨φ', hφ'⟩ := exists_phase p seed hseed hne
  set c := bitAt (getPolynomial p) (List.replicate p.value (1:Int)) with hc
  have hcm : ∀ t, c (t % (2 ^ p.value - 1)) = c t := fun t => bitAt_mod p _ hol t
  have hrew : (fun i => bitAt (getPolynomial p) seed (φ + i)) = fun i => c (φ' + φ + i) := by
    funext i; rw [hφ', Nat.add_assoc]
  rw [hrew] at herr ⊢
  set ψ := φ' + φ with hψ
  -- the lock
  set seq := (List.range (2 ^ p.value - 1)).map c with hseq
  have hsl : seq.length = 2 ^ p.value - 1 := by simp [hseq]
  have hsbin : ∀ x ∈ seq, x = 0 ∨ x = 1 := by
    intro x hx
    rw [hseq, List.mem_map] at hx
    obtain ⟨t, -, rfl⟩ := hx
    exact bitAt_mem _ _ _
  obtain ⟨s, xc, hs, hlock, hmin⟩ := lockBinary_spec seq data
    (List.ne_nil_of_length_pos (by omega)) (List.ne_nil_of_length_pos (by omega)) hsbin hbin
  rw [hsl, Nat.min_eq_left hlen] at hmin
  have hstr : ∀ k i, i < 2 ^ p.value - 1 → stream (seq.rotate k) i = c (k + i) := by
    intro k i hi
    rw [stream_rotate _ _ _ (by omega), hsl]
    have hm := Nat.mod_lt (k + i) hP
    simp only [stream, hseq, List.getD_eq_getElem?_getD, map_range_getElem?, if_pos hm,
      Option.getD_some]
    exact hcm _
  have hphase : s % (2 ^ p.value - 1) = ψ % (2 ^ p.value - 1) := by
    by_contra hdiff
    have h1 := bitAt_phase_ne p _ hol hone s ψ hdiff
    have h2 := hmin ψ
    rw [mismatches_congr (f := stream (seq.rotate s)) (hstr s) (fun i _ => rfl),
      mismatches_congr (f := stream (seq.rotate ψ)) (hstr ψ) (fun i _ => rfl)] at h2
    have h3 := mismatches_triangle (2 ^ p.value - 1) (fun i => c (s + i)) (stream data)
      (fun i => c (ψ + i))
    have h4 := mismatches_comm (2 ^ p.value - 1) (stream data) (fun i => c (ψ + i))
    have h5 : 2 ^ (p.value - 1) = 2 * 2 ^ (p.value - 2) := by
      rw [← Nat.pow_succ']; congr 1; cases p <;> rfl
    rw [← hc] at h1
    omega
  have hgen := prbsGenerator_supported p _ hol (2 ^ p.value - 1)
  simp only [prbsChecker, hol, hgen, pure, Except.pure, bind, Except.bind, Bool.false_eq_true,
    if_false]
  rw [← hc, ← hseq, hlock]
  obtain ⟨h1, h2⟩ := tile_ceil_take (seq.rotate s) data.length (2 ^ p.value - 1) hP (by simp [hsl])
  refine compareBits_spec data _ h1.symm th _ (fun i hi => ?_)
  have hm := Nat.mod_lt i hP
  rw [h2 i hi, List.length_rotate, hsl, hstr _ _ hm]
  rw [← hcm, ← hcm (ψ + i)]
  congr 1
  rw [Nat.add_mod_mod]
  exact Nat.ModEq.add_right i hphase

/-- the bound of C08 leaves room: for PRBS7, 31 errors per period are allowed -/
example : (31 : ℕ) < 2 ^ (PrbsEnum.prbs7.value - 2) := by decide
example : ∃ b, LfsrStream (getPolynomial .prbs7) [1, 0, 0, 1, 0, 0, 0] b :=
  ⟨_, lfsrStream_bitAt _ _ rfl⟩

/-- **C09**, main part: if the first `n` received bits are error free bits of an LFSR stream (any
seed, any phase) and the number of later errors is below the threshold, the economy checker keeps
lock and reports exactly those errors. (With no errors at all this is the clean-segment claim.) -/
theorem C09_economy_exact_partial (p : PrbsEnum) (seed : List Int) (hseed : seed.length = p.value)
    (b : ℕ → Int) (hb : LfsrStream (getPolynomial p) seed b) (φ : ℕ) (data : List Int) (th : Int)
    (hfirst : ∀ i < p.value, i < data.length → stream data i = b (φ + i))
    (herr : (mismatches data.length (stream data) (fun i => b (φ + i)) : ℕ) < th) :
    ∃ r, prbsCheckerEconomy p data th = .ok r ∧ r.lostLock = false ∧
      ExactReport data (fun i => b (φ + i)) th r.lostLock r.correctBitCount r.errorBit := by
  have hv := value_pos p
  rw [lfsrStream_unique hb (lfsrStream_bitAt _ _ (by rw [poly_length, hseed]))] at hfirst herr ⊢
  obtain ⟨r, hr, hcnt, c, hrep⟩ := econStep_spec p data th 0
  rw [List.drop_zero] at hrep
  have hsame : ∀ i < data.length, (if i < p.value then stream data (0 + i) else
      bitAt (getPolynomial p) ((data.take p.value)).reverse (i - p.value))
      = bitAt (getPolynomial p) seed (φ + i) := by
    intro i hi
    by_cases h : i < p.value
    · rw [if_pos h, Nat.zero_add, hfirst i h hi]
    · rw [if_neg h, window_reg (getPolynomial p) seed (data.take p.value) φ (by omega)
        (by simp; omega) (fun j hj => by
          rw [← hfirst j (by omega) (by omega)]
          apply getD_eq_of_getElem?
          rw [List.getElem?_take, if_pos (by omega)]),
        ← bitAt_add]
      congr 1; omega
  have hrep' : ExactReport data (fun i => bitAt (getPolynomial p) seed (φ + i)) th
      r.lostLock r.correctBitCount r.errorBit := by
    have hmm := mismatches_congr (n := data.length) (f := stream data) (f' := stream data)
      (fun i _ => rfl) hsame
    refine ⟨hrep.length, fun i hi => ?_, ?_, ?_⟩
    · rw [hrep.flags i hi, hsame i hi]
    · have herrb : r.errorBit.count true = mismatches data.length (stream data)
          (fun i => bitAt (getPolynomial p) seed (φ + i)) := by
        have : r.errorBit = (List.range data.length).map
            (fun i => decide (stream data i ≠ bitAt (getPolynomial p) seed (φ + i))) := by
          apply List.ext_getElem?
          intro i
          rw [map_range_getElem?]
          by_cases hi : i < data.length
          · rw [if_pos hi, hrep.flags i hi, hsame i hi]
          · rw [if_neg hi, List.getElem?_eq_none (by rw [hrep.length]; omega)]
        rw [this, count_true_map_range]
        unfold mismatches
        congr 1
        apply Finset.filter_congr
        intro i _; simp
      have := match_count data.length (stream data) (fun i => bitAt (getPolynomial p) seed (φ + i))
      rw [hcnt, herrb]; omega
    · rw [hrep.lost, hmm]
  have hl : r.lostLock = false := by
    rw [← Bool.not_eq_true, hrep'.lost]; omega
  exact ⟨r, econ_first p data th r hr hl, hl, hrep'⟩

/-- **C09**, soundness for arbitrary data: the economy checker never raises; its report is the exact
report of `data[s:]` against the LFSR stream seeded by the `n` bits at some start `s < n` (bits at
positions `≥ n` after `s` are compared with the recurrence), and if it reports lost lock, all `n`
start positions were tried. -/
theorem C09_economy_sound (p : PrbsEnum) (data : List Int) (th : Int) :
    ∃ r s, prbsCheckerEconomy p data th = .ok r ∧ s < p.value ∧
      (r.lostLock = true → s = p.value - 1) ∧
      r.correctBitCount = data.length - r.errorBit.count true ∧
      ∀ b : ℕ → Int, LfsrStream (getPolynomial p) ((data.drop s).take p.value).reverse b →
        s + p.value ≤ data.length →
        ∃ c, ExactReport (data.drop s)
          (fun i => if i < p.value then stream data (s + i) else b (i - p.value)) th
          r.lostLock c r.errorBit := by
  obtain ⟨r, s, h1, -, h3, h4, h5⟩ := econLoop_spec p data th p.value 0 none (value_pos p)
  obtain ⟨r', hr', hcnt, c, hrep⟩ := econStep_spec p data th s
  rw [h4] at hr'
  cases hr'
  refine ⟨r, s, h1, by omega, fun h => by have := h5 h; omega, hcnt, fun b hb hlen => ⟨c, ?_⟩⟩
  have hpl := poly_length p
  rw [lfsrStream_unique hb (lfsrStream_bitAt _ _ (by simp [hpl]; omega))]
  exact hrep

/-- **C09**, the last sentence of the claim is *violated* by the code: a dead (all-zero) line of any
length is reported as locked with zero errors, for every threshold ≥ 1. -/
theorem C09_negative_dead_line (p : PrbsEnum) (D : ℕ) (th : Int) (hth : 1 ≤ th) :
    ∃ r, prbsCheckerEconomy p (List.replicate D 0) th = .ok r ∧ r.lostLock = false ∧
      r.correctBitCount = D := by
  have hz : ∀ t, bitAt (getPolynomial p) (List.replicate p.value 0) t = 0 := fun t =>
    bitAt_zero_seed _ _ (by rw [poly_length]; simp) (by simp; exact value_pos p) (by simp) t
  have hst : ∀ i, stream (List.replicate D (0:Int)) i = 0 := by
    intro i; simp only [stream, List.getD_eq_getElem?_getD, List.getElem?_replicate]; split <;> rfl
  have hmm : mismatches (List.replicate D (0:Int)).length (stream (List.replicate D (0:Int)))
      (fun i => bitAt (getPolynomial p) (List.replicate p.value 0) (0 + i)) = 0 := by
    rw [mismatches_eq_zero]; intro i _; rw [hst, hz]
  obtain ⟨r, h1, h2, h3⟩ := C09_economy_exact_partial p (List.replicate p.value 0) (by simp) _
    (lfsrStream_bitAt _ _ (by rw [poly_length]; simp)) 0 (List.replicate D 0) th
    (fun i _ _ => by rw [hst, hz]) (by rw [hmm]; omega)
  refine ⟨r, h1, h2, ?_⟩
  have := match_count (List.replicate D (0:Int)).length (stream (List.replicate D (0:Int)))
      (fun i => bitAt (getPolynomial p) (List.replicate p.value 0) (0 + i))
  rw [h3.count]
  rw [hmm, List.length_replicate] at this
  simp only [List.length_replicate]
  omega

/-- same for data no longer than the register: nothing is ever compared -/
theorem C09_negative_short (p : PrbsEnum) (data : List Int) (hlen : data.length ≤ p.value) (th : Int)
    (hth : 1 ≤ th) :
    ∃ r, prbsCheckerEconomy p data th = .ok r ∧ r.lostLock = false ∧
      r.correctBitCount = data.length := by
  obtain ⟨r, hr, hcnt, c, hrep⟩ := econStep_spec p data th 0
  rw [List.drop_zero] at hrep
  have hmm : mismatches data.length (stream data) (fun i => if i < p.value then stream data (0 + i) else
          bitAt (getPolynomial p) (data.take p.value).reverse (i - p.value)) = 0 := by
    rw [mismatches_eq_zero]
    intro i hi
    rw [if_pos (by omega), Nat.zero_add]
  have hl : r.lostLock = false := by
    rw [← Bool.not_eq_true, hrep.lost, hmm]; omega
  refine ⟨r, econ_first p data th r hr hl, hl, ?_⟩
  have : r.errorBit.count true = 0 := by
    rw [List.count_eq_zero]
    intro hmem
    obtain ⟨i, hi, hget⟩ := List.getElem_of_mem hmem
    have hi' : i < data.length := by rw [← hrep.length]; exact hi
    have := hrep.flags i hi'
    rw [List.getElem?_eq_getElem hi, hget, if_pos (by omega), Nat.zero_add] at this
    simp at this
  rw [hcnt, this]; simp

/-- **C10.** For every binary pattern and every non-empty binary signal, the lock returns a rotation
of the pattern, and it is the rotation with the fewest disagreements with the first
`min(len(pattern), len(signal))` signal bits. -/
theorem C10_lock_minimises (pat sig : List Int) (hp : pat ≠ []) (hs : sig ≠ [])
    (hpb : ∀ x ∈ pat, x = 0 ∨ x = 1) (hsb : ∀ x ∈ sig, x = 0 ∨ x = 1) :
    ∃ s xc, s < pat.length ∧ lockPatternBinary pat sig = .ok (pat.rotate s, xc) ∧
      ∀ k, mismatches (min pat.length sig.length) (stream (pat.rotate s)) (stream sig)
        ≤ mismatches (min pat.length sig.length) (stream (pat.rotate k)) (stream sig) :=
  lockBinary_spec pat sig hp hs hpb hsb

/-- **C10.** If the signal is a window (of any length, shorter or longer than a period) of the
repeated pattern at any phase `φ`, the returned rotation agrees with the signal everywhere. -/
theorem C10_lock_finds_phase (pat sig : List Int) (hp : pat ≠ []) (hs : sig ≠ [])
    (hpb : ∀ x ∈ pat, x = 0 ∨ x = 1) (φ : ℕ)
    (hsig : ∀ i < sig.length, sig[i]? = pat[(φ + i) % pat.length]?) :
    ∃ rot xc, lockPatternBinary pat sig = .ok (rot, xc) ∧ rot.length = pat.length ∧
      ∀ i < sig.length, rot[i % pat.length]? = sig[i]? := by
  have hp0 : 0 < pat.length := List.length_pos_iff.2 hp
  have hsb : ∀ x ∈ sig, x = 0 ∨ x = 1 := by
    intro x hx
    obtain ⟨i, hi, rfl⟩ := List.getElem_of_mem hx
    have h := hsig i hi
    rw [List.getElem?_eq_getElem hi] at h
    exact hpb _ (List.mem_of_getElem? h.symm)
  obtain ⟨s, xc, hs', hlock, hmin⟩ := lockBinary_spec pat sig hp hs hpb hsb
  refine ⟨_, xc, hlock, by simp, ?_⟩
  have h0 := hmin φ
  have hz : mismatches (min pat.length sig.length) (stream (pat.rotate φ)) (stream sig) = 0 := by
    rw [mismatches_eq_zero]
    intro i hi
    rw [stream_rotate _ _ _ (by omega)]
    apply getD_eq_of_getElem?
    rw [hsig i (by omega)]
  rw [hz, Nat.le_zero, mismatches_eq_zero] at h0
  have key : ∀ i, i < pat.length → i < sig.length → (pat.rotate s)[i]? = sig[i]? := by
    intro i hi1 hi2
    have := h0 i (by omega)
    have hl : i < (pat.rotate s).length := by simpa using hi1
    simp only [stream, List.getD_eq_getElem?_getD, List.getElem?_eq_getElem hl,
      List.getElem?_eq_getElem hi2, Option.getD_some] at this
    rw [List.getElem?_eq_getElem hl, List.getElem?_eq_getElem hi2, this]
  intro i hi
  have hm := Nat.mod_lt i hp0
  have hle := Nat.mod_le i pat.length
  rw [key _ hm (by omega), hsig _ (by omega), hsig _ hi, Nat.add_mod_mod]

/-- **C10**, unconditional part: on every non-empty input (any integers) the result is a rotation of
the pattern, of full length. -/
theorem C10_lock_rotation (pat sig : List Int) (hp : pat ≠ []) (hs : sig ≠ []) :
    ∃ s xc, s < pat.length ∧ lockPatternBinary pat sig = .ok (pat.rotate s, xc) := by
  have hp0 : 0 < pat.length := List.length_pos_iff.2 hp
  have hs0 : 0 < sig.length := List.length_pos_iff.2 hs
  unfold lockPatternBinary
  rw [if_neg (by omega)]
  simp only [tile_map]
  obtain ⟨h1, -⟩ := lock_core (pat.map (fun x => x * 2 - 1))
    ((sig.take (min pat.length sig.length)).map (fun x => x * 2 - 1)) (by simpa using hp0) (by simp)
  rw [List.length_map] at h1
  exact ⟨_, _, h1, by rw [tile_slice _ _ h1]⟩

example : (lockPatternBinary [0, 0, 1, 1, 0] [1, 0, 0, 0]).map (·.1) = .ok [1, 0, 0, 0, 1] ∧
    ∀ i < 4, ([1, 0, 0, 0] : List Int)[i]? = ([0, 0, 1, 1, 0] : List Int)[(3 + i) % 5]? := by
  decide

/-- **C11.** Multi-level lock: over any ordered field (reals), if the signal covers at least one
period and equals `g * pattern + c` at phase `φ` with positive gain `g` and any offset `c`, then the
returned rotation is the pattern in phase with the signal. -/
theorem C11_lock_finds_phase_partial {K : Type} [Field K] [LinearOrder K] [IsStrictOrderedRing K]
    (pat sig : List K) (hp : pat ≠ []) (hlen : pat.length ≤ sig.length) (φ : ℕ) (g c : K) (hg : 0 < g)
    (hsig : ∀ i < sig.length, sig[i]? = (pat[(φ + i) % pat.length]?).map (fun x => g * x + c)) :
    ∃ rot xc, lockPattern pat sig = .ok (rot, xc) ∧ rot.length = pat.length ∧
      (∀ i < pat.length, rot[i]? = pat[(φ + i) % pat.length]?) ∧
      ∀ i < sig.length, (rot[i % pat.length]?).map (fun x => g * x + c) = sig[i]? := by
  have hp0 : 0 < pat.length := List.length_pos_iff.2 hp
  unfold lockPattern
  rw [if_neg (by omega)]
  simp only [Nat.min_eq_left hlen]
  have hvl : (sig.take pat.length).length = pat.length := by simp [hlen]
  obtain ⟨h1, h2⟩ := lock_core pat (sig.take pat.length) hp0 (by omega)
  generalize argmax (correlateValid (tile pat 2) (sig.take pat.length)) = s at *
  -- periodic extension of the pattern
  obtain ⟨q, hq⟩ : ∃ q : ℕ → K, q = fun i => pat.getD (i % pat.length) 0 := ⟨_, rfl⟩
  have hqp : ∀ i, q (i + pat.length) = q i := by intro i; simp [hq]
  have hv : ∀ i < pat.length, (sig.take pat.length).getD i 0 = g * q (φ + i) + c := by
    intro i hi
    have hm := Nat.mod_lt (φ + i) hp0
    rw [List.getD_eq_getElem?_getD, List.getElem?_take, if_pos hi, hsig i (by omega), hq]
    simp [hm]
  have hcorr : ∀ k, corr pat (sig.take pat.length) k
      = g * ∑ i ∈ Finset.range pat.length, q (k + i) * q (φ + i)
        + c * ∑ i ∈ Finset.range pat.length, q i := by
    intro k
    unfold corr
    rw [hvl, ← sum_shift_period q pat.length hqp k, Finset.mul_sum, Finset.mul_sum,
      ← Finset.sum_add_distrib]
    apply Finset.sum_congr rfl
    intro i hi
    rw [Finset.mem_range] at hi
    rw [hv i hi]
    simp only [hq]; ring
  have h3 := h2 φ
  rw [hcorr, hcorr] at h3
  have h4 : ∑ i ∈ Finset.range pat.length, q (φ + i) * q (φ + i)
      ≤ ∑ i ∈ Finset.range pat.length, q (s + i) * q (φ + i) := by
    have := (add_le_add_iff_right _).1 h3
    exact le_of_mul_le_mul_left this hg
  have hsq : ∀ k, ∑ i ∈ Finset.range pat.length, q (k + i) * q (k + i)
      = ∑ i ∈ Finset.range pat.length, q i * q i := fun k =>
    sum_shift_period (fun i => q i * q i) pat.length (fun i => by simp only [hqp]) k
  have h5 : ∑ i ∈ Finset.range pat.length, (q (s + i) - q (φ + i)) ^ 2 = 0 := by
    apply le_antisymm
    · have : ∑ i ∈ Finset.range pat.length, (q (s + i) - q (φ + i)) ^ 2
          = ∑ i ∈ Finset.range pat.length, q (s + i) * q (s + i)
            - 2 * ∑ i ∈ Finset.range pat.length, q (s + i) * q (φ + i)
            + ∑ i ∈ Finset.range pat.length, q (φ + i) * q (φ + i) := by
        rw [Finset.mul_sum, ← Finset.sum_sub_distrib, ← Finset.sum_add_distrib]
        apply Finset.sum_congr rfl
        intro i _; ring
      rw [this]
      rw [hsq φ] at h4 ⊢
      rw [hsq s]
      linarith
    · exact Finset.sum_nonneg (fun i _ => sq_nonneg _)
  have h6 : ∀ i < pat.length, q (s + i) = q (φ + i) := by
    intro i hi
    have := (Finset.sum_eq_zero_iff_of_nonneg (fun i _ => sq_nonneg _)).1 h5 i (by simpa using hi)
    exact sub_eq_zero.1 (pow_eq_zero_iff (two_ne_zero)|>.1 this)
  have hrot : ∀ i < pat.length, (pat.rotate s)[i]? = pat[(φ + i) % pat.length]? := by
    intro i hi
    have := h6 i hi
    have hm1 := Nat.mod_lt (s + i) hp0
    have hm2 := Nat.mod_lt (φ + i) hp0
    rw [List.getElem?_rotate hi, Nat.add_comm i s]
    simp only [hq, List.getD_eq_getElem?_getD, List.getElem?_eq_getElem hm1,
      List.getElem?_eq_getElem hm2, Option.getD_some] at this
    rw [List.getElem?_eq_getElem hm1, List.getElem?_eq_getElem hm2, this]
  refine ⟨_, _, rfl, ?_, ?_, ?_⟩
  · rw [tile_slice _ _ h1]; simp
  · intro i hi; rw [tile_slice _ _ h1]; exact hrot i hi
  · intro i hi
    rw [tile_slice _ _ h1, hrot _ (Nat.mod_lt _ hp0), hsig i hi, Nat.add_mod_mod]

/-- **C11**, unconditional part: the result is always a rotation of the pattern. -/
theorem C11_lock_rotation {K : Type} [Semiring K] [LinearOrder K] (pat sig : List K) (hp : pat ≠ [])
    (hs : sig ≠ []) :
    ∃ s xc, s < pat.length ∧ lockPattern pat sig = .ok (pat.rotate s, xc) := by
  have hp0 : 0 < pat.length := List.length_pos_iff.2 hp
  have hs0 : 0 < sig.length := List.length_pos_iff.2 hs
  unfold lockPattern
  rw [if_neg (by omega)]
  simp only []
  obtain ⟨h1, -⟩ := lock_core pat (sig.take (min pat.length sig.length)) hp0 (by simp)
  exact ⟨_, _, h1, by rw [tile_slice _ _ h1]⟩

/-- **C11**, last sentence *violated*: a signal shorter than a period that is an exact window of the
pattern at phase 0 is locked to a different, disagreeing phase. -/
theorem C11_negative_short :
    ∃ pat sig : List Int, sig ≠ [] ∧ sig.length < pat.length ∧
      (∀ i < sig.length, sig[i]? = pat[(0 + i) % pat.length]?) ∧
      ∃ rot xc, lockPattern pat sig = .ok (rot, xc) ∧ ∃ i < sig.length, rot[i]? ≠ sig[i]? :=
  ⟨[1, 1, 3, 3], [1, 1], by decide, by decide, by decide, [3, 3, 1, 1], [2, 4, 6, 4, 2, 4, 6],
    by decide, 0, by decide, by decide⟩

example : (2 : ℚ) > 0 ∧ ∀ i < 3, ([7, 1, 3] : List ℚ)[i]? =
    (([0, 1, 3] : List ℚ)[(2 + i) % 3]?).map (fun x => 2 * x + 1) := by
  refine ⟨by norm_num, ?_⟩
  intro i hi
  have : i = 0 ∨ i = 1 ∨ i = 2 := by omega
  rcases this with rfl | rfl | rfl <;> norm_num

end Verif
