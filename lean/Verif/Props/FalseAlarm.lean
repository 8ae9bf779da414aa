import Verif.Lemmas.FalseAlarm
import Verif.Props.LockTests
import Verif.Props.PrbsTests

/-!
# How often the randomized tests raise a false alarm (C121)
-/

open Finset

namespace Verif
open Spec

theorem csvData_length (p : PrbsEnum) (ref : List Int) (h : csvData p = some ref) : ref.length = 2 ^ p.value - 1 := by
  rw [csvData_eq p ref h]; simp

theorem period_pos (p : PrbsEnum) : 0 < 2 ^ p.value - 1 ∧ 2 ^ p.value = 4 * 2 ^ (p.value - 2) ∧ 2 ^ p.value = 8 * 2 ^ (p.value - 3) := by
  cases p <;> decide

/-- **C121**: with bit errors of probability 1/100, as in the suite, `prbs_analysis_test` accepts the library with a probability
of at least `1 - (4/25)^(2^(n-2))`; for PRBS7 the exponent is 32. -/
theorem C121_analysis (p : PrbsEnum) (ref : List Int) (h : csvData p = some ref) (th : Int) :
    1 - (4 / 25 : ℝ) ^ (2 ^ (p.value - 2))
      ≤ drawProb ref.length (ref.length + 1) (1 / 100) (fun errs s => prbsAnalysisTest p ref s errs th = .ok true) := by
  obtain ⟨h1, h2, -⟩ := period_pos p
  have hN := csvData_length p ref h
  have hge := drawProb_ge ref.length (ref.length + 1) ref.length (2 ^ (p.value - 2)) (1 / 100) (by norm_num) (by norm_num) le_rfl
    (fun errs s => prbsAnalysisTest p ref s errs th = .ok true) ∅ (empty_subset _) (by omega) (by
      intro mask hl hc s hs _
      rw [← hl, List.take_length] at hc
      exact C86_analysis_test p ref h s (by omega) mask hl hc th)
  have ht := choose_tail ref.length (2 ^ (p.value - 2)) 4 (1 / 100) (by norm_num) (by omega)
  rw [show (2 : ℝ) ^ 4 * (1 / 100) = 4 / 25 by norm_num] at ht
  rw [card_empty, Nat.cast_zero, zero_div, sub_zero, one_mul] at hge
  linarith

/-- **C121**: the lock tests on two periods. The binary test rejects with probability at most `(1/625)^(2^(n-2))`; the other one also rejects the
shift 0, that is one draw out of `2^n - 1`. -/
theorem C121_two_periods (p : PrbsEnum) (seq : List Int) (h : lockSeq p = .ok seq ∨ csvData p = some seq) :
    1 - (1 / 625 : ℝ) ^ (2 ^ (p.value - 2))
      ≤ drawProb (2 * seq.length) seq.length (1 / 10000) (fun errs s => lockRun1 lockBinaryTest seq errs s = .ok true) ∧
    (1 - 1 / (seq.length : ℝ)) * (1 - (1 / 625 : ℝ) ^ (2 ^ (p.value - 2)))
      ≤ drawProb (2 * seq.length) seq.length (1 / 10000) (fun errs s => lockRun1 lockTest seq errs s = .ok true) ∧
    drawProb (2 * seq.length) seq.length (1 / 10000) (fun errs s => lockRun1 lockTest seq errs s = .ok true)
      ≤ 1 - 1 / (seq.length : ℝ) := by
  obtain ⟨h1, h2, -⟩ := period_pos p
  have hN : seq.length = 2 ^ p.value - 1 := by rw [lockSeq_eq p seq h]; simp
  have hpos : 0 < seq.length := by omega
  have ht := choose_tail seq.length (2 ^ (p.value - 2)) 4 (1 / 10000) (by norm_num) (by omega)
  rw [show (2 : ℝ) ^ 4 * (1 / 10000) = 1 / 625 by norm_num] at ht
  have hL : (1 : ℝ) ≤ seq.length := by exact_mod_cast hpos
  refine ⟨?_, ?_, ?_⟩
  · have hge := drawProb_ge (2 * seq.length) seq.length seq.length (2 ^ (p.value - 2)) (1 / 10000) (by norm_num) (by norm_num) (by omega)
      (fun errs s => lockRun1 lockBinaryTest seq errs s = .ok true) ∅ (empty_subset _) hpos
      (fun mask hl hc s hs _ => (C88_two_periods p seq h mask hl hc s hs).2)
    rw [card_empty, Nat.cast_zero, zero_div, sub_zero, one_mul] at hge
    linarith
  · have hge := drawProb_ge (2 * seq.length) seq.length seq.length (2 ^ (p.value - 2)) (1 / 10000) (by norm_num) (by norm_num) (by omega)
      (fun errs s => lockRun1 lockTest seq errs s = .ok true) {0} (by simpa using hpos) hpos
      (fun mask hl hc s hs hse => by
        rw [(C88_two_periods p seq h mask hl hc s hs).1]
        simpa using hse)
    rw [card_singleton, Nat.cast_one] at hge
    refine le_trans (mul_le_mul_of_nonneg_left (by linarith) ?_) hge
    rw [sub_nonneg, div_le_one (by linarith)]
    exact hL
  · refine drawProb_le _ _ _ (by norm_num) (by norm_num) _ hpos fun mask hl => ?_
    unfold lockRun1
    rw [C88_negative_shift_zero _ _ (by simpa using hpos) (by simp [flipBits, tile_length, hl]; omega)]
    simp

/-- **C121**: the lock tests on one period, where the errors also reach the pattern. -/
theorem C121_one_period (p : PrbsEnum) (seq : List Int) (h : lockSeq p = .ok seq ∨ csvData p = some seq) :
    1 - (16 / 625 : ℝ) ^ (2 ^ (p.value - 3))
      ≤ drawProb seq.length seq.length (1 / 10000) (fun errs s => lockRun2 lockBinaryTest seq errs s = .ok true) ∧
    (1 - 1 / (seq.length : ℝ)) * (1 - (16 / 625 : ℝ) ^ (2 ^ (p.value - 3)))
      ≤ drawProb seq.length seq.length (1 / 10000) (fun errs s => lockRun2 lockTest seq errs s = .ok true) ∧
    drawProb seq.length seq.length (1 / 10000) (fun errs s => lockRun2 lockTest seq errs s = .ok true)
      ≤ 1 - 1 / (seq.length : ℝ) := by
  obtain ⟨h1, -, h2⟩ := period_pos p
  have hN : seq.length = 2 ^ p.value - 1 := by rw [lockSeq_eq p seq h]; simp
  have hpos : 0 < seq.length := by omega
  have ht := choose_tail seq.length (2 ^ (p.value - 3)) 8 (1 / 10000) (by norm_num) (by omega)
  rw [show (2 : ℝ) ^ 8 * (1 / 10000) = 16 / 625 by norm_num] at ht
  have hL : (1 : ℝ) ≤ seq.length := by exact_mod_cast hpos
  refine ⟨?_, ?_, ?_⟩
  · have hge := drawProb_ge seq.length seq.length seq.length (2 ^ (p.value - 3)) (1 / 10000) (by norm_num) (by norm_num) le_rfl
      (fun errs s => lockRun2 lockBinaryTest seq errs s = .ok true) ∅ (empty_subset _) hpos
      (fun mask hl hc s hs _ => by
        rw [← hl, List.take_length] at hc
        exact (C88_one_period p seq h mask hl hc s hs).2)
    rw [card_empty, Nat.cast_zero, zero_div, sub_zero, one_mul] at hge
    linarith
  · have hge := drawProb_ge seq.length seq.length seq.length (2 ^ (p.value - 3)) (1 / 10000) (by norm_num) (by norm_num) le_rfl
      (fun errs s => lockRun2 lockTest seq errs s = .ok true) {0} (by simpa using hpos) hpos
      (fun mask hl hc s hs hse => by
        rw [← hl, List.take_length] at hc
        rw [(C88_one_period p seq h mask hl hc s hs).1]
        simpa using hse)
    rw [card_singleton, Nat.cast_one] at hge
    refine le_trans (mul_le_mul_of_nonneg_left (by linarith) ?_) hge
    rw [sub_nonneg, div_le_one (by linarith)]
    exact hL
  · refine drawProb_le _ _ _ (by norm_num) (by norm_num) _ hpos fun mask hl => ?_
    unfold lockRun2
    rw [C88_negative_shift_zero _ _ (by simp [flipBits, hl]; omega) (by simp [flipBits, hl]; omega)]
    simp

/-- **C121**: the lock tests on the first `m` bits of a period, `m` between a quarter and the whole. -/
theorem C121_part_period (p : PrbsEnum) (seq : List Int) (h : lockSeq p = .ok seq ∨ csvData p = some seq) (m : ℕ)
    (hm : seq.length / 4 ≤ m) (hm2 : m ≤ seq.length) :
    1 - (m.choose ((quarterMiss p + 1) / 2) : ℝ) * (1 / 10000) ^ ((quarterMiss p + 1) / 2)
      ≤ drawProb m seq.length (1 / 10000) (fun errs s => lockRun3 lockBinaryTest seq errs s = .ok true) ∧
    (1 - 1 / (seq.length : ℝ)) * (1 - (m.choose ((quarterMiss p + 1) / 2) : ℝ) * (1 / 10000) ^ ((quarterMiss p + 1) / 2))
      ≤ drawProb m seq.length (1 / 10000) (fun errs s => lockRun3 lockTest seq errs s = .ok true) ∧
    drawProb m seq.length (1 / 10000) (fun errs s => lockRun3 lockTest seq errs s = .ok true) ≤ 1 - 1 / (seq.length : ℝ) := by
  have h128 : 128 ≤ 2 ^ p.value := Nat.pow_le_pow_right (n := 2) (by norm_num) (show 7 ≤ p.value by cases p <;> decide)
  have hN : seq.length = 2 ^ p.value - 1 := by rw [lockSeq_eq p seq h]; simp
  have hpos : 0 < seq.length := by omega
  refine ⟨?_, ?_, ?_⟩
  · have hge := drawProb_ge m seq.length m ((quarterMiss p + 1) / 2) (1 / 10000) (by norm_num) (by norm_num) le_rfl
      (fun errs s => lockRun3 lockBinaryTest seq errs s = .ok true) ∅ (empty_subset _) hpos
      (fun mask hl hc s hs _ => by
        rw [← hl, List.take_length] at hc
        exact (C88_part_period p seq h mask (by omega) (by omega) (by omega) s hs).2)
    rw [card_empty, Nat.cast_zero, zero_div, sub_zero, one_mul] at hge
    exact hge
  · have hge := drawProb_ge m seq.length m ((quarterMiss p + 1) / 2) (1 / 10000) (by norm_num) (by norm_num) le_rfl
      (fun errs s => lockRun3 lockTest seq errs s = .ok true) {0} (by simpa using hpos) hpos
      (fun mask hl hc s hs hse => by
        rw [← hl, List.take_length] at hc
        rw [(C88_part_period p seq h mask (by omega) (by omega) (by omega) s hs).1]
        simpa using hse)
    rw [card_singleton, Nat.cast_one] at hge
    exact hge
  · refine drawProb_le _ _ _ (by norm_num) (by norm_num) _ hpos fun mask hl => ?_
    unfold lockRun3
    rw [C88_negative_shift_zero _ _ (by simp [flipBits, hl]; omega) (by simp [flipBits, hl]; omega)]
    simp

/-- the types in the loops of the tests, test/test_main.py 10 -/
def suiteTypes : List PrbsEnum := [.prbs7, .prbs9, .prbs11, .prbs13, .prbs15]

/-- the probability that the three lock tests with the checks `test` accept one type: all draws are independent, and the length of
the third one is uniform between a quarter and three quarters of the period (test/test_main.py 185, 266) -/
noncomputable def lockPass (test : List Int → List Int → ℕ → Py Bool) (seq : List Int) : ℝ :=
  drawProb (2 * seq.length) seq.length (1 / 10000) (fun errs s => lockRun1 test seq errs s = .ok true) *
  drawProb seq.length seq.length (1 / 10000) (fun errs s => lockRun2 test seq errs s = .ok true) *
  ((∑ m ∈ Icc (seq.length / 4) (seq.length * 3 / 4),
    drawProb m seq.length (1 / 10000) (fun errs s => lockRun3 test seq errs s = .ok true)) /
      (seq.length * 3 / 4 + 1 - seq.length / 4 : ℕ))

theorem mean_ge (a b : ℕ) (h : a ≤ b) (f : ℕ → ℝ) (c : ℝ) (hf : ∀ m, a ≤ m → m ≤ b → c ≤ f m) :
    c ≤ (∑ m ∈ Icc a b, f m) / (b + 1 - a : ℕ) := by
  have hc : (0 : ℝ) < (b + 1 - a : ℕ) := by exact_mod_cast (by omega : 0 < b + 1 - a)
  rw [le_div_iff₀ hc]
  have := sum_le_sum (s := Icc a b) (f := fun _ => c) (g := f) (fun m hm => hf m (mem_Icc.1 hm).1 (mem_Icc.1 hm).2)
  rw [sum_const, Nat.card_Icc, nsmul_eq_mul] at this
  linarith

theorem mean_le (a b : ℕ) (h : a ≤ b) (f : ℕ → ℝ) (c : ℝ) (hf : ∀ m, a ≤ m → m ≤ b → f m ≤ c) :
    (∑ m ∈ Icc a b, f m) / (b + 1 - a : ℕ) ≤ c := by
  have hc : (0 : ℝ) < (b + 1 - a : ℕ) := by exact_mod_cast (by omega : 0 < b + 1 - a)
  rw [div_le_iff₀ hc]
  have := sum_le_sum (s := Icc a b) (f := f) (g := fun _ => c) (fun m hm => hf m (mem_Icc.1 hm).1 (mem_Icc.1 hm).2)
  rw [sum_const, Nat.card_Icc, nsmul_eq_mul] at this
  linarith

/-- an upper bound for the tail of the third test -/
noncomputable def partAlarm : PrbsEnum → ℝ
  | .prbs7 => 96 / 10000
  | _ => 1 / 10000

theorem part_tail (p : PrbsEnum) (hp : p ∈ suiteTypes) (m : ℕ) (hm : m ≤ (2 ^ p.value - 1) * 3 / 4) :
    (m.choose ((quarterMiss p + 1) / 2) : ℝ) * (1 / 10000) ^ ((quarterMiss p + 1) / 2) ≤ partAlarm p := by
  have key : ∀ k M : ℕ, m ≤ M → (m.choose k : ℝ) * (1 / 10000) ^ k ≤ (M / 10000 : ℝ) ^ k / k.factorial := by
    intro k M hM
    have h1 := Nat.choose_le_pow_div (α := ℝ) k m
    have h2 : (m : ℝ) ^ k ≤ (M : ℝ) ^ k := by
      gcongr
    calc (m.choose k : ℝ) * (1 / 10000) ^ k ≤ ((M : ℝ) ^ k / k.factorial) * (1 / 10000) ^ k := by
          gcongr
          exact h1.trans (by gcongr)
      _ = _ := by rw [div_pow, div_pow]; ring
  simp only [suiteTypes, List.mem_cons, List.not_mem_nil, or_false] at hp
  rcases hp with rfl | rfl | rfl | rfl | rfl
  · refine (key _ 95 (by simpa [PrbsEnum.value] using hm)).trans ?_
    norm_num [quarterMiss, partAlarm, Nat.factorial]
  · refine (key _ 383 (by simpa [PrbsEnum.value] using hm)).trans ?_
    norm_num [quarterMiss, partAlarm, Nat.factorial]
  · refine (key _ 1535 (by simpa [PrbsEnum.value] using hm)).trans ?_
    norm_num [quarterMiss, partAlarm, Nat.factorial]
  · refine (key _ 6143 (by simpa [PrbsEnum.value] using hm)).trans ?_
    norm_num [quarterMiss, partAlarm, Nat.factorial]
  · refine (key _ 24575 (by simpa [PrbsEnum.value] using hm)).trans ?_
    norm_num [quarterMiss, partAlarm, Nat.factorial]

theorem small_tails (p : PrbsEnum) : (1 / 625 : ℝ) ^ (2 ^ (p.value - 2)) ≤ 1 / 1000000 ∧ (16 / 625 : ℝ) ^ (2 ^ (p.value - 3)) ≤ 1 / 1000000 := by
  have h7 : 7 ≤ p.value := by cases p <;> decide
  have h1 : 2 ^ 5 ≤ 2 ^ (p.value - 2) := Nat.pow_le_pow_right (by norm_num) (by omega)
  have h2 : 2 ^ 4 ≤ 2 ^ (p.value - 3) := Nat.pow_le_pow_right (by norm_num) (by omega)
  constructor
  · exact (pow_le_pow_of_le_one (by norm_num) (by norm_num) h1).trans (by norm_num)
  · exact (pow_le_pow_of_le_one (by norm_num) (by norm_num) h2).trans (by norm_num)

theorem lockPass_bounds (p : PrbsEnum) (hp : p ∈ suiteTypes) (seq : List Int) (h : lockSeq p = .ok seq ∨ csvData p = some seq) :
    (1 - 1 / 1000000) * (1 - 1 / 1000000) * (1 - partAlarm p) ≤ lockPass lockBinaryTest seq ∧
    (1 - 1 / ((2 ^ p.value - 1 : ℕ) : ℝ)) ^ 3 * ((1 - 1 / 1000000) * (1 - 1 / 1000000) * (1 - partAlarm p)) ≤ lockPass lockTest seq ∧
    lockPass lockTest seq ≤ (1 - 1 / ((2 ^ p.value - 1 : ℕ) : ℝ)) ^ 3 := by
  have h128 : 128 ≤ 2 ^ p.value := Nat.pow_le_pow_right (n := 2) (by norm_num) (show 7 ≤ p.value by cases p <;> decide)
  have hN : seq.length = 2 ^ p.value - 1 := by rw [lockSeq_eq p seq h]; simp
  obtain ⟨t1, t2⟩ := small_tails p
  obtain ⟨a1, a2, a3⟩ := C121_two_periods p seq h
  obtain ⟨b1, b2, b3⟩ := C121_one_period p seq h
  have hq : 0 ≤ 1 - partAlarm p := by cases p <;> norm_num [partAlarm]
  have hL : (1 : ℝ) ≤ seq.length := by exact_mod_cast (by omega : 1 ≤ seq.length)
  have hu : 0 ≤ 1 - 1 / (seq.length : ℝ) := by
    rw [sub_nonneg, div_le_one (by linarith)]
    exact hL
  have hpart : ∀ m, seq.length / 4 ≤ m → m ≤ seq.length * 3 / 4 →
      (m.choose ((quarterMiss p + 1) / 2) : ℝ) * (1 / 10000) ^ ((quarterMiss p + 1) / 2) ≤ partAlarm p := by
    intro m _ hm
    rw [hN] at hm
    exact part_tail p hp m hm
  have hr : seq.length / 4 ≤ seq.length * 3 / 4 := by omega
  have nn : ∀ (n M : ℕ) (A : List Bool → ℕ → Prop), 0 ≤ drawProb n M (1 / 10000) A := fun n M A =>
    drawProb_nonneg n M _ (by norm_num) (by norm_num) A
  have c1 := mean_ge _ _ hr (fun m => drawProb m seq.length (1 / 10000) (fun errs s => lockRun3 lockBinaryTest seq errs s = .ok true))
    (1 - partAlarm p) (fun m h1 h2 => by
      have := (C121_part_period p seq h m h1 (by omega)).1
      have := hpart m h1 h2
      linarith)
  have c2 := mean_ge _ _ hr (fun m => drawProb m seq.length (1 / 10000) (fun errs s => lockRun3 lockTest seq errs s = .ok true))
    ((1 - 1 / (seq.length : ℝ)) * (1 - partAlarm p)) (fun m h1 h2 => by
      refine le_trans (mul_le_mul_of_nonneg_left ?_ hu) (C121_part_period p seq h m h1 (by omega)).2.1
      have := hpart m h1 h2
      linarith)
  have c3 := mean_le _ _ hr (fun m => drawProb m seq.length (1 / 10000) (fun errs s => lockRun3 lockTest seq errs s = .ok true))
    (1 - 1 / (seq.length : ℝ)) (fun m h1 h2 => (C121_part_period p seq h m h1 (by omega)).2.2)
  rw [← hN]
  unfold lockPass
  refine ⟨?_, ?_, ?_⟩
  · refine mul_le_mul (mul_le_mul (by linarith) (by linarith) (by norm_num) (nn _ _ _)) c1 hq (mul_nonneg (nn _ _ _) (nn _ _ _))
  · have e1 : (1 - 1 / (seq.length : ℝ)) * (1 - 1 / 1000000) ≤ _ := (mul_le_mul_of_nonneg_left (by linarith) hu).trans a2
    have e2 : (1 - 1 / (seq.length : ℝ)) * (1 - 1 / 1000000) ≤ _ := (mul_le_mul_of_nonneg_left (by linarith) hu).trans b2
    refine le_trans (le_of_eq ?_) (mul_le_mul (mul_le_mul e1 e2 (mul_nonneg hu (by norm_num)) (nn _ _ _)) c2 (mul_nonneg hu hq)
      (mul_nonneg (nn _ _ _) (nn _ _ _)))
    ring
  · refine le_trans (mul_le_mul (mul_le_mul a3 b3 (nn _ _ _) hu) c3 ?_ (mul_nonneg hu hu)) (le_of_eq (by ring))
    exact div_nonneg (sum_nonneg fun m _ => nn _ _ _) (Nat.cast_nonneg _)

/-- **C121**: one run of the suite. The three tests of the binary lock accept the library with a probability of at least 0.98. The
three tests of the general lock accept it with a probability of at most 0.97 (and at least 0.95): they raise a false alarm in one run
out of thirty or so, whatever the library does. -/
theorem C121_suite (seqs : PrbsEnum → List Int) (h : ∀ p ∈ suiteTypes, lockSeq p = .ok (seqs p) ∨ csvData p = some (seqs p)) :
    98 / 100 ≤ (suiteTypes.map fun p => lockPass lockBinaryTest (seqs p)).prod ∧
    95 / 100 ≤ (suiteTypes.map fun p => lockPass lockTest (seqs p)).prod ∧
    (suiteTypes.map fun p => lockPass lockTest (seqs p)).prod ≤ 97 / 100 := by
  have B := fun p hp => lockPass_bounds p hp (seqs p) (h p hp)
  obtain ⟨a1, a2, a3⟩ := B .prbs7 (by decide)
  obtain ⟨b1, b2, b3⟩ := B .prbs9 (by decide)
  obtain ⟨c1, c2, c3⟩ := B .prbs11 (by decide)
  obtain ⟨d1, d2, d3⟩ := B .prbs13 (by decide)
  obtain ⟨e1, e2, e3⟩ := B .prbs15 (by decide)
  norm_num [PrbsEnum.value, partAlarm] at a1 a2 a3 b1 b2 b3 c1 c2 c3 d1 d2 d3 e1 e2 e3
  simp only [suiteTypes, List.map_cons, List.map_nil, List.prod_cons, List.prod_nil, mul_one]
  generalize lockPass lockBinaryTest (seqs .prbs7) = x1 at *
  generalize lockPass lockBinaryTest (seqs .prbs9) = x2 at *
  generalize lockPass lockBinaryTest (seqs .prbs11) = x3 at *
  generalize lockPass lockBinaryTest (seqs .prbs13) = x4 at *
  generalize lockPass lockBinaryTest (seqs .prbs15) = x5 at *
  generalize lockPass lockTest (seqs .prbs7) = y1 at *
  generalize lockPass lockTest (seqs .prbs9) = y2 at *
  generalize lockPass lockTest (seqs .prbs11) = y3 at *
  generalize lockPass lockTest (seqs .prbs13) = y4 at *
  generalize lockPass lockTest (seqs .prbs15) = y5 at *
  have lo : ∀ {u v a b : ℝ}, 0 ≤ u → 0 ≤ v → u ≤ a → v ≤ b → u * v ≤ a * b := fun hu hv h1 h2 => mul_le_mul h1 h2 hv (hu.trans h1)
  refine ⟨?_, ?_, ?_⟩
  · refine le_trans ?_ (lo (by norm_num) (by norm_num) a1 (lo (by norm_num) (by norm_num) b1 (lo (by norm_num) (by norm_num) c1
      (lo (by norm_num) (by norm_num) d1 e1))))
    norm_num
  · refine le_trans ?_ (lo (by norm_num) (by norm_num) a2 (lo (by norm_num) (by norm_num) b2 (lo (by norm_num) (by norm_num) c2
      (lo (by norm_num) (by norm_num) d2 e2))))
    norm_num
  · have f1 : 0 ≤ y1 := le_trans (by norm_num) a2
    have f2 : 0 ≤ y2 := le_trans (by norm_num) b2
    have f3 : 0 ≤ y3 := le_trans (by norm_num) c2
    have f4 : 0 ≤ y4 := le_trans (by norm_num) d2
    have f5 : 0 ≤ y5 := le_trans (by norm_num) e2
    refine le_trans (lo f1 (by positivity) a3 (lo f2 (by positivity) b3 (lo f3 (by positivity) c3 (lo f4 f5 d3 e3)))) ?_
    norm_num

/-- the sequences exist: the reference files -/
example : ∃ seqs : PrbsEnum → List Int, ∀ p ∈ suiteTypes, lockSeq p = .ok (seqs p) ∨ csvData p = some (seqs p) := by
  refine ⟨fun p => (csvData p).getD [], fun p hp => Or.inr ?_⟩
  simp only [suiteTypes, List.mem_cons, List.not_mem_nil, or_false] at hp
  rcases hp with rfl | rfl | rfl | rfl | rfl <;> simp only [csvData, Option.getD_some]

end Verif
