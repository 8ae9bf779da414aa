import Verif.Lemmas.LockTests
import Verif.Props.PrbsTests
import Verif.Lemmas.BitErrors

/-! C88: the project's tests of the pattern lock. -/

namespace Verif
open Spec Finset

/-! ### two sums over a window -/

theorem window_clean (c v : ℕ → Int) (m k : ℕ) (err : ℕ → Bool) (hc : ∀ i, c i = 0 ∨ c i = 1)
    (hv : ∀ i < m, v i = if err i then 1 - c i else c i) :
    ∑ i ∈ range m, c i * (1 - c (k + i)) - ∑ i ∈ range m, (if err i then 1 else 0)
      ≤ ∑ i ∈ range m, c i * v i - ∑ i ∈ range m, c (k + i) * v i := by
  rw [← sum_sub_distrib, ← sum_sub_distrib]
  apply sum_le_sum
  intro i hi
  rw [hv i (mem_range.1 hi)]
  rcases hc i with h | h <;> rcases hc (k + i) with h' | h' <;> cases err i <;> simp [h, h']

theorem window_clean_nrz (c v : ℕ → Int) (m k : ℕ) (err : ℕ → Bool) (hc : ∀ i, c i = 0 ∨ c i = 1)
    (hv : ∀ i < m, v i = if err i then 1 - c i else c i) :
    2 * (∑ i ∈ range m, c i * (1 - c (k + i)) + ∑ i ∈ range m, c (k + i) * (1 - c i)
        - 2 * ∑ i ∈ range m, (if err i then 1 else 0))
      ≤ ∑ i ∈ range m, (c i * 2 - 1) * (v i * 2 - 1) - ∑ i ∈ range m, (c (k + i) * 2 - 1) * (v i * 2 - 1) := by
  rw [mul_sum, ← sum_add_distrib, ← sum_sub_distrib, mul_sum, ← sum_sub_distrib]
  apply sum_le_sum
  intro i hi
  rw [hv i (mem_range.1 hi)]
  rcases hc i with h | h <;> rcases hc (k + i) with h' | h' <;> cases err i <;> simp [h, h']

theorem window_own (c q : ℕ → Int) (m k : ℕ) (err : ℕ → Bool) (hc : ∀ i, c i = 0 ∨ c i = 1)
    (hq : ∀ i, q i = if err i then 1 - c i else c i) :
    ∑ i ∈ range m, c i * (1 - c (k + i)) - ∑ i ∈ range m, (if err i then 1 else 0)
        - ∑ i ∈ range m, (if err (k + i) then 1 else 0)
      ≤ ∑ i ∈ range m, q i * q i - ∑ i ∈ range m, q (k + i) * q i := by
  rw [← sum_sub_distrib, ← sum_sub_distrib, ← sum_sub_distrib]
  apply sum_le_sum
  intro i hi
  rw [hq i, hq (k + i)]
  rcases hc i with h | h <;> rcases hc (k + i) with h' | h' <;> cases err i <;> cases err (k + i) <;> simp [h, h']

theorem window_own_nrz (q : ℕ → Int) (m k : ℕ) (hq : ∀ i, q i = 0 ∨ q i = 1) :
    2 * (∑ i ∈ range m, q i * q i - ∑ i ∈ range m, q (k + i) * q i)
      ≤ ∑ i ∈ range m, (q i * 2 - 1) * (q i * 2 - 1) - ∑ i ∈ range m, (q (k + i) * 2 - 1) * (q i * 2 - 1) := by
  rw [← sum_sub_distrib, ← sum_sub_distrib, mul_sum]
  apply sum_le_sum
  intro i hi
  rcases hq i with h | h <;> rcases hq (k + i) with h' | h' <;> simp [h, h']

/-- over one period every other phase misses a quarter of the ones, and adds as many -/
theorem period_miss (p : PrbsEnum) (k : ℕ) (hk0 : 0 < k) (hk : k < 2 ^ p.value - 1) :
    ∑ i ∈ range (2 ^ p.value - 1), bitAt (getPolynomial p) (List.replicate p.value 1) i *
        (1 - bitAt (getPolynomial p) (List.replicate p.value 1) (k + i)) = 2 ^ (p.value - 2) ∧
    ∑ i ∈ range (2 ^ p.value - 1), bitAt (getPolynomial p) (List.replicate p.value 1) (k + i) *
        (1 - bitAt (getPolynomial p) (List.replicate p.value 1) i) = 2 ^ (p.value - 2) := by
  have hv : 7 ≤ p.value := by cases p <;> decide
  have hol : (List.replicate p.value (1:Int)).length = p.value := by simp
  have hne := bitAt_phase_ne p (List.replicate p.value 1) hol ⟨1, by simp; omega, rfl⟩ 0 k (by
    rw [Nat.zero_mod, Nat.mod_eq_of_lt hk]
    omega)
  have hper := sum_shift_period (bitAt (getPolynomial p) (List.replicate p.value 1)) (2 ^ p.value - 1)
    (bitAt_period p _ hol) k
  generalize hc : bitAt (getPolynomial p) (List.replicate p.value 1) = c at *
  have hbin : ∀ i, c i = 0 ∨ c i = 1 := fun i => by rw [← hc]; exact bitAt_bin _ _ i
  rw [mismatches_sum] at hne
  have hsum : ∑ i ∈ range (2 ^ p.value - 1), c i * (1 - c (k + i))
      + ∑ i ∈ range (2 ^ p.value - 1), c (k + i) * (1 - c i) = 2 ^ (p.value - 1) := by
    have := congrArg (fun x : ℕ => (x : Int)) hne
    push_cast at this
    rw [← this, ← sum_add_distrib]
    apply sum_congr rfl
    intro i _
    rw [Nat.zero_add]
    rcases hbin i with h | h <;> rcases hbin (k + i) with h' | h' <;> simp [h, h']
  have hdiff : ∑ i ∈ range (2 ^ p.value - 1), c i * (1 - c (k + i))
      - ∑ i ∈ range (2 ^ p.value - 1), c (k + i) * (1 - c i) = 0 := by
    rw [← sum_sub_distrib]
    rw [show (0 : Int) = ∑ i ∈ range (2 ^ p.value - 1), c i - ∑ i ∈ range (2 ^ p.value - 1), c (k + i) by
      rw [hper, sub_self], ← sum_sub_distrib]
    apply sum_congr rfl
    intro i _
    ring
  have h2 : (2 : Int) ^ (p.value - 1) = 2 * 2 ^ (p.value - 2) := by
    rw [show p.value - 1 = (p.value - 2) + 1 by omega, pow_succ]
    ring
  constructor <;> linarith

/-- smallest number of ones that another phase misses in the first quarter of the period -/
def quarterMiss : PrbsEnum → ℕ
  | .prbs7 => 1
  | .prbs9 => 5
  | .prbs11 => 19
  | .prbs13 => 67
  | .prbs15 => 204
  | .prbs31 => 0

theorem csv_testBit (N S i : ℕ) (c : ℕ → Int) (hc : ∀ t < N, (if S.testBit t then 1 else 0) = c t)
    (hper : ∀ t, c (t + N) = c t) (hS : S < 2 ^ N) (hi : i < 2 * N) :
    (S + S * 2 ^ N).testBit i = decide (c i = 1) := by
  rw [show S + S * 2 ^ N = 2 ^ N * S + S by ring, Nat.testBit_two_pow_mul_add _ hS]
  have key : ∀ t < N, S.testBit t = decide (c t = 1) := by
    intro t ht
    rw [← hc t ht]
    cases S.testBit t <;> simp
  split
  · rename_i h
    exact key i h
  · rename_i h
    rw [key _ (by omega)]
    congr 2
    rw [← hper, show i - N + N = i by omega]

theorem quarter_of (p : PrbsEnum) (S D : ℕ) (hcsv : csvData p = some (csvBits (2 ^ p.value - 1) S))
    (hS : S < 2 ^ (2 ^ p.value - 1)) (hD : segCount (2 ^ p.value - 1) ((2 ^ p.value - 1) / 4) S = D)
    (m : ℕ) (hm : (2 ^ p.value - 1) / 4 ≤ m) (hm2 : m ≤ 2 ^ p.value - 1)
    (k : ℕ) (hk0 : 0 < k) (hk : k < 2 ^ p.value - 1) :
    (D : Int) ≤ ∑ i ∈ range m, bitAt (getPolynomial p) (List.replicate p.value 1) i *
        (1 - bitAt (getPolynomial p) (List.replicate p.value 1) (k + i)) := by
  have hol : (List.replicate p.value (1:Int)).length = p.value := by simp
  have hcsv' := csvData_eq p _ hcsv
  have hper := bitAt_period p (List.replicate p.value 1) hol
  generalize hc : bitAt (getPolynomial p) (List.replicate p.value 1) = c at *
  have hbin : ∀ i, c i = 0 ∨ c i = 1 := fun i => by rw [← hc]; exact bitAt_bin _ _ i
  generalize 2 ^ p.value - 1 = N at *
  have hct : ∀ t < N, (if S.testBit t then 1 else 0) = c t := by
    intro t ht
    have := congrArg (fun l => l.getD t 0) hcsv'
    unfold csvBits at this
    rw [map_range_getD _ _ _ _ ht, map_range_getD _ _ _ _ ht] at this
    exact this
  have hseg := segCount_sound N (N / 4) S k hk0 hk
  rw [hD] at hseg
  calc (D : Int) ≤ ((∑ i ∈ range (N / 4), if (S + S * 2 ^ N).testBit i = true ∧
        (S + S * 2 ^ N).testBit (i + k) = false then 1 else 0 : ℕ) : Int) := by exact_mod_cast hseg
    _ = ∑ i ∈ range (N / 4), c i * (1 - c (k + i)) := by
        push_cast
        apply sum_congr rfl
        intro i hi
        rw [mem_range] at hi
        rw [csv_testBit N S i c hct hper hS (by omega), csv_testBit N S (i + k) c hct hper hS (by omega),
          Nat.add_comm i k]
        rcases hbin i with h | h <;> rcases hbin (k + i) with h' | h' <;> simp [h, h']
    _ ≤ _ := by
        apply sum_le_sum_of_subset_of_nonneg (range_subset_range.2 hm)
        intro i _ _
        rcases hbin i with h | h <;> rcases hbin (k + i) with h' | h' <;> simp [h, h']

theorem quarter_miss (p : PrbsEnum) (m : ℕ) (hm : (2 ^ p.value - 1) / 4 ≤ m) (hm2 : m ≤ 2 ^ p.value - 1)
    (k : ℕ) (hk0 : 0 < k) (hk : k < 2 ^ p.value - 1) :
    (quarterMiss p : Int) ≤ ∑ i ∈ range m, bitAt (getPolynomial p) (List.replicate p.value 1) i *
        (1 - bitAt (getPolynomial p) (List.replicate p.value 1) (k + i)) := by
  cases p with
  | prbs31 =>
    apply sum_nonneg
    intro i _
    rcases bitAt_bin (getPolynomial .prbs31) (List.replicate PrbsEnum.prbs31.value 1) i with h | h <;>
    rcases bitAt_bin (getPolynomial .prbs31) (List.replicate PrbsEnum.prbs31.value 1) (k + i) with h' | h' <;>
    simp only [h, h'] <;> norm_num
  | prbs7 => exact quarter_of .prbs7 csvPrbs7 1 rfl (by decide +kernel) (by decide +kernel) m hm hm2 k hk0 hk
  | prbs9 => exact quarter_of .prbs9 csvPrbs9 5 rfl (by decide +kernel) (by decide +kernel) m hm hm2 k hk0 hk
  | prbs11 => exact quarter_of .prbs11 csvPrbs11 19 rfl (by decide +kernel) (by decide +kernel) m hm hm2 k hk0 hk
  | prbs13 => exact quarter_of .prbs13 csvPrbs13 67 rfl (by decide +kernel) (by decide +kernel) m hm hm2 k hk0 hk
  | prbs15 => exact quarter_of .prbs15 csvPrbs15 204 rfl (by decide +kernel) (by decide +kernel) m hm hm2 k hk0 hk

/-! ### the runs -/

theorem lockSeq_eq (p : PrbsEnum) (seq : List Int) (h : lockSeq p = .ok seq ∨ csvData p = some seq) :
    seq = (List.range (2 ^ p.value - 1)).map (bitAt (getPolynomial p) (List.replicate p.value 1)) := by
  rcases h with h | h
  · unfold lockSeq at h
    rw [prbsGenerator_supported p _ (by simp)] at h
    simp only [bind, Except.bind, pure, Except.pure] at h
    exact (Except.ok.inj h).symm
  · exact csvData_eq p seq h

theorem sum_errs (errs : List Bool) (m : ℕ) (hm : m ≤ errs.length) :
    ∑ i ∈ range m, (if errs.getD i false then (1 : Int) else 0) = ((errs.take m).count true : ℕ) := by
  induction m with
  | zero => simp
  | succ m ih =>
    rw [sum_range_succ, ih (by omega), List.take_succ_eq_append_getElem (by omega), List.count_append]
    rw [List.getD_eq_getElem?_getD, List.getElem?_eq_getElem (by omega)]
    cases errs[m] <;> simp

theorem corr_nrz (base v : List Int) (hb : 0 < base.length) (k : ℕ) :
    corr (base.map (fun x => x * 2 - 1)) (v.map (fun x => x * 2 - 1)) k
      = ∑ i ∈ range v.length, (base.getD ((k + i) % base.length) 0 * 2 - 1) * (v.getD i 0 * 2 - 1) := by
  unfold corr
  rw [List.length_map, List.length_map]
  apply sum_congr rfl
  intro i hi
  rw [mem_range] at hi
  have h1 : (k + i) % base.length < base.length := Nat.mod_lt _ hb
  simp [List.getD_eq_getElem?_getD, hi, h1]

/-- **C88**, two periods: with fewer than 2^(n-2) errors in the first period both tests find the alignment; the
non-binary test then still fails for shift 0. -/
theorem C88_two_periods (p : PrbsEnum) (seq : List Int) (h : lockSeq p = .ok seq ∨ csvData p = some seq)
    (errs : List Bool) (hl : errs.length = 2 * seq.length)
    (he : (errs.take seq.length).count true < 2 ^ (p.value - 2)) (shift : ℕ) (hs : shift < seq.length) :
    lockRun1 lockTest seq errs shift = .ok (decide (shift ≠ 0)) ∧
    lockRun1 lockBinaryTest seq errs shift = .ok true := by
  have hseq := lockSeq_eq p seq h
  have hol : (List.replicate p.value (1:Int)).length = p.value := by simp
  have hper := bitAt_period p (List.replicate p.value 1) hol
  have hmiss := period_miss p
  have hN : seq.length = 2 ^ p.value - 1 := by rw [hseq]; simp
  generalize hc : bitAt (getPolynomial p) (List.replicate p.value 1) = c at *
  have hbin : ∀ i, c i = 0 ∨ c i = 1 := fun i => by rw [← hc]; exact bitAt_bin _ _ i
  rw [← hN] at hmiss hseq hper
  have hpm : ∀ i, c (i % seq.length) = c i := by
    intro i
    exact Function.Periodic.map_mod_nat (f := c) hper i
  have hq : ∀ j, seq.getD (j % seq.length) 0 = c j := by
    intro j
    rw [← hpm j]
    conv_lhs => rw [hseq]
    rw [map_range_getD _ _ _ _ (by simpa using Nat.mod_lt _ (by omega))]
    congr 1
    simp
  have hsl : (flipBits errs (tile seq 2)).length = 2 * seq.length := by
    unfold flipBits
    rw [List.length_zipWith, tile_length, hl]
    omega
  have hvl : ((flipBits errs (tile seq 2)).take seq.length).length = seq.length := by
    rw [List.length_take, hsl]
    omega
  have hv : ∀ i < seq.length, ((flipBits errs (tile seq 2)).take seq.length).getD i 0
      = if errs.getD i false then 1 - c i else c i := by
    intro i hi
    rw [List.getD_eq_getElem?_getD, List.getElem?_take, if_pos hi, ← List.getD_eq_getElem?_getD,
      flipBits_getD _ _ (by rw [tile_length, hl]) _ (by rw [tile_length]; omega)]
    have : (tile seq 2).getD i 0 = c i := by
      rw [← hq i, Nat.mod_eq_of_lt hi]
      unfold tile
      simp [List.replicate, List.getD_eq_getElem?_getD, List.getElem?_append, hi]
    rw [this]
  have herr := sum_errs errs seq.length (by omega)
  have hhe : ((errs.take seq.length).count true : Int) < 2 ^ (p.value - 2) := by exact_mod_cast he
  unfold lockRun1
  rw [drop_take_rotate _ _ hs.le]
  constructor
  · apply lockTest_eq _ _ (by omega) (by omega) _ _ hs
    intro k hk0 hk
    rw [hsl, show min seq.length (2 * seq.length) = seq.length by omega]
    unfold corr
    rw [hvl]
    simp only [hq, Nat.zero_add]
    have := window_clean c (fun i => ((flipBits errs (tile seq 2)).take seq.length).getD i 0) seq.length k
      (fun i => errs.getD i false) hbin hv
    rw [herr, (hmiss k hk0 hk).1] at this
    linarith
  · apply lockBinaryTest_eq _ _ (by omega) (by omega) _ _ hs
    intro k hk0 hk
    rw [hsl, show min seq.length (2 * seq.length) = seq.length by omega]
    rw [corr_nrz _ _ (by omega), corr_nrz _ _ (by omega), hvl]
    simp only [hq, Nat.zero_add]
    have := window_clean_nrz c (fun i => ((flipBits errs (tile seq 2)).take seq.length).getD i 0) seq.length k
      (fun i => errs.getD i false) hbin hv
    rw [herr, (hmiss k hk0 hk).1, (hmiss k hk0 hk).2] at this
    linarith

/-- errors in the sequence itself, which is also the source of the signal -/
theorem lock_own (p : PrbsEnum) (seq : List Int) (h : lockSeq p = .ok seq ∨ csvData p = some seq)
    (errs : List Bool) (hl : errs.length ≤ seq.length) (hl0 : 0 < errs.length) (D : ℕ)
    (hD : ∀ k, 0 < k → k < 2 ^ p.value - 1 → (D : Int) ≤ ∑ i ∈ range errs.length,
      bitAt (getPolynomial p) (List.replicate p.value 1) i *
        (1 - bitAt (getPolynomial p) (List.replicate p.value 1) (k + i)))
    (he : 2 * errs.count true < D) (shift : ℕ) (hs : shift < seq.length) :
    lockRun3 lockTest seq errs shift = .ok (decide (shift ≠ 0)) ∧
    lockRun3 lockBinaryTest seq errs shift = .ok true := by
  have hseq := lockSeq_eq p seq h
  have hol : (List.replicate p.value (1:Int)).length = p.value := by simp
  have hper := bitAt_period p (List.replicate p.value 1) hol
  have hN : seq.length = 2 ^ p.value - 1 := by rw [hseq]; simp
  generalize hc : bitAt (getPolynomial p) (List.replicate p.value 1) = c at *
  have hbin : ∀ i, c i = 0 ∨ c i = 1 := fun i => by rw [← hc]; exact bitAt_bin _ _ i
  rw [← hN] at hD hseq hper
  have hpm : ∀ i, c (i % seq.length) = c i := by
    intro i
    exact Function.Periodic.map_mod_nat (f := c) hper i
  have hfl : (flipBits errs (seq.take errs.length)).length = errs.length := by
    unfold flipBits
    rw [List.length_zipWith, List.length_take]
    omega
  unfold lockRun3
  simp only
  generalize hbase : flipBits errs (seq.take errs.length) ++ seq.drop errs.length = base
  have hbl : base.length = seq.length := by
    rw [← hbase, List.length_append, hfl, List.length_drop]
    omega
  -- the erroneous sequence, repeated
  obtain ⟨err, herr⟩ : ∃ err : ℕ → Bool, ∀ i, err i = errs.getD (i % seq.length) false := ⟨_, fun _ => rfl⟩
  obtain ⟨q, hqdef⟩ : ∃ q : ℕ → Int, ∀ i, q i = if err i then 1 - c i else c i := ⟨_, fun _ => rfl⟩
  have hseqv : ∀ i < seq.length, seq.getD i 0 = c i := by
    intro i hi
    conv_lhs => rw [hseq]
    rw [map_range_getD _ _ _ _ hi]
  have hq : ∀ j, base.getD (j % base.length) 0 = q j := by
    intro j
    have hj : j % seq.length < seq.length := Nat.mod_lt _ (by omega)
    rw [hqdef, herr, ← hpm j, hbl]
    generalize j % seq.length = i at hj
    rw [← hbase]
    by_cases hi : i < errs.length
    · rw [List.getD_append _ _ _ _ (by omega), flipBits_getD _ _ (by rw [List.length_take]; omega) _
        (by rw [List.length_take]; omega)]
      have : (seq.take errs.length).getD i 0 = c i := by
        rw [← hseqv i hj]
        simp [List.getD_eq_getElem?_getD, List.getElem?_take, hi]
      rw [this]
    · rw [List.getD_append_right _ _ _ _ (by omega), hfl]
      have h1 : errs.getD i false = false := by
        rw [List.getD_eq_getElem?_getD, List.getElem?_eq_none (by omega)]
        rfl
      rw [h1, ← hseqv i hj]
      simp [List.getD_eq_getElem?_getD, List.getElem?_drop, show errs.length + (i - errs.length) = i by omega]
  have hqbin : ∀ i, q i = 0 ∨ q i = 1 := by
    intro i
    rw [hqdef]
    rcases hbin i with h | h <;> cases err i <;> simp [h]
  have hvl : (base.take errs.length).length = errs.length := by
    rw [List.length_take]
    omega
  have hvtake : (base.take errs.length).take (min base.length (base.take errs.length).length)
      = base.take errs.length := by
    rw [hvl, List.take_take]
    congr 1
    omega
  have hv : ∀ i < errs.length, (base.take errs.length).getD i 0 = q i := by
    intro i hi
    rw [← hq i, Nat.mod_eq_of_lt (by omega)]
    simp [List.getD_eq_getElem?_getD, List.getElem?_take, hi]
  -- number of errors in any window
  have hsum1 : ∑ i ∈ range errs.length, (if err i then (1 : Int) else 0) = (errs.count true : ℕ) := by
    have := sum_errs errs errs.length le_rfl
    rw [List.take_length] at this
    rw [← this]
    apply sum_congr rfl
    intro i hi
    rw [mem_range] at hi
    rw [herr, Nat.mod_eq_of_lt (by omega)]
  have hsum2 : ∀ k, ∑ i ∈ range errs.length, (if err (k + i) then (1 : Int) else 0) ≤ (errs.count true : ℕ) := by
    intro k
    have hnn : ∀ i, (0 : Int) ≤ if err i then 1 else 0 := by
      intro i
      split <;> norm_num
    have h1 : ∑ i ∈ range errs.length, (if err (k + i) then (1 : Int) else 0)
        ≤ ∑ i ∈ range seq.length, (if err (k + i) then (1 : Int) else 0) :=
      sum_le_sum_of_subset_of_nonneg (range_subset_range.2 hl) (fun i _ _ => hnn _)
    rw [sum_shift_period (fun i => if err i then (1 : Int) else 0) seq.length (by
      intro i
      simp only [herr, Nat.add_mod_right]) k] at h1
    have h2 : ∑ i ∈ range seq.length, (if err i then (1 : Int) else 0)
        = ∑ i ∈ range errs.length, (if err i then (1 : Int) else 0) := by
      symm
      apply sum_subset (range_subset_range.2 hl)
      intro i hi hi2
      rw [mem_range] at hi hi2
      rw [herr, Nat.mod_eq_of_lt hi, List.getD_eq_getElem?_getD, List.getElem?_eq_none (by omega)]
      rfl
    rw [h2, hsum1] at h1
    exact h1
  have hmain : ∀ k, 0 < k → k < seq.length →
      0 < ∑ i ∈ range errs.length, q i * q i - ∑ i ∈ range errs.length, q (k + i) * q i := by
    intro k hk0 hk
    have h1 := window_own c q errs.length k err hbin hqdef
    have h2 := hD k hk0 hk
    have h3 := hsum2 k
    have h4 : (2 * errs.count true : Int) < D := by exact_mod_cast he
    rw [hsum1] at h1
    linarith
  rw [drop_take_rotate _ _ (by omega)]
  constructor
  · apply lockTest_eq _ _ (by omega) (by omega) _ _ (by omega)
    intro k hk0 hk
    rw [hvtake]
    unfold corr
    rw [hvl]
    have e : ∀ k, ∑ i ∈ range errs.length, base.getD ((k + i) % base.length) 0 * (base.take errs.length).getD i 0
        = ∑ i ∈ range errs.length, q (k + i) * q i := by
      intro k
      apply sum_congr rfl
      intro i hi
      rw [hq, hv i (mem_range.1 hi)]
    rw [e, e]
    simp only [Nat.zero_add]
    have := hmain k hk0 (by omega)
    linarith
  · apply lockBinaryTest_eq _ _ (by omega) (by omega) _ _ (by omega)
    intro k hk0 hk
    rw [hvtake, corr_nrz _ _ (by omega), corr_nrz _ _ (by omega), hvl]
    have e : ∀ k, ∑ i ∈ range errs.length,
        (base.getD ((k + i) % base.length) 0 * 2 - 1) * ((base.take errs.length).getD i 0 * 2 - 1)
        = ∑ i ∈ range errs.length, (q (k + i) * 2 - 1) * (q i * 2 - 1) := by
      intro k
      apply sum_congr rfl
      intro i hi
      rw [hq, hv i (mem_range.1 hi)]
    rw [e, e]
    simp only [Nat.zero_add]
    have h1 := hmain k hk0 (by omega)
    have h2 := window_own_nrz q errs.length k hqbin
    linarith

/-- **C88**, one period: with fewer than 2^(n-3) errors both tests find the alignment (the errors are in the pattern as
well); the non-binary test then still fails for shift 0. -/
theorem C88_one_period (p : PrbsEnum) (seq : List Int) (h : lockSeq p = .ok seq ∨ csvData p = some seq)
    (errs : List Bool) (hl : errs.length = seq.length) (he : errs.count true < 2 ^ (p.value - 3))
    (shift : ℕ) (hs : shift < seq.length) :
    lockRun2 lockTest seq errs shift = .ok (decide (shift ≠ 0)) ∧
    lockRun2 lockBinaryTest seq errs shift = .ok true := by
  have hv : 7 ≤ p.value := by cases p <;> decide
  have hN : seq.length = 2 ^ p.value - 1 := by rw [lockSeq_eq p seq h]; simp
  have h2 : 2 ^ (p.value - 2) = 2 * 2 ^ (p.value - 3) := by
    rw [show p.value - 2 = (p.value - 3) + 1 by omega, pow_succ]
    ring
  have := lock_own p seq h errs hl.le (by omega) (2 ^ (p.value - 2)) (by
    intro k hk0 hk
    rw [hl, hN, (period_miss p k hk0 hk).1]
    push_cast
    exact le_rfl) (by omega) shift hs
  have hfl : (flipBits errs seq).length = errs.length := by
    unfold flipBits
    rw [List.length_zipWith]
    omega
  have e : ∀ t, lockRun2 t seq errs shift = lockRun3 t seq errs shift := by
    intro t
    unfold lockRun2 lockRun3
    simp only
    rw [List.take_of_length_le (by omega : seq.length ≤ errs.length), (List.drop_eq_nil_of_le (by omega) : seq.drop errs.length = []),
      List.append_nil, List.take_of_length_le (by omega : (flipBits errs seq).length ≤ errs.length)]
  rw [e, e]
  exact this

/-- **C88**, part of a period: for every window the suite can draw (a quarter of the period or more), both tests find the
alignment if twice the number of errors is below the number of ones that another phase misses in a quarter. For PRBS7
this is the error-free case, for PRBS15 up to 101 errors. -/
theorem C88_part_period (p : PrbsEnum) (seq : List Int) (h : lockSeq p = .ok seq ∨ csvData p = some seq)
    (errs : List Bool) (hl : seq.length / 4 ≤ errs.length) (hl2 : errs.length ≤ seq.length)
    (he : 2 * errs.count true < quarterMiss p) (shift : ℕ) (hs : shift < seq.length) :
    lockRun3 lockTest seq errs shift = .ok (decide (shift ≠ 0)) ∧
    lockRun3 lockBinaryTest seq errs shift = .ok true := by
  have hN : seq.length = 2 ^ p.value - 1 := by rw [lockSeq_eq p seq h]; simp
  have h7 : 2 ^ 7 ≤ 2 ^ p.value := Nat.pow_le_pow_right (by norm_num) (by cases p <;> decide)
  exact lock_own p seq h errs hl2 (by omega) (quarterMiss p)
    (quarter_miss p errs.length (by rw [← hN]; exact hl) (by omega)) he shift hs

example : quarterMiss .prbs7 = 1 ∧ quarterMiss .prbs15 = 204 := by decide

/-- the hypotheses of the three runs are met, e.g. by PRBS9 with two periods, one period, or a third of it, each with
one error -/
example : ∃ seq, csvData .prbs9 = some seq ∧ seq.length = 511
    ∧ (true :: List.replicate 1021 false).length = 2 * seq.length
    ∧ ((true :: List.replicate 1021 false).take seq.length).count true < 2 ^ (PrbsEnum.prbs9.value - 2)
    ∧ (true :: List.replicate 510 false).length = seq.length
    ∧ (true :: List.replicate 510 false).count true < 2 ^ (PrbsEnum.prbs9.value - 3)
    ∧ seq.length / 4 ≤ (true :: List.replicate 170 false).length
    ∧ 2 * (true :: List.replicate 170 false).count true < quarterMiss .prbs9 :=
  ⟨_, rfl, by decide +kernel⟩

/-- **C88**, negative: `lock_pattern_to_signal_test` fails for the drawn shift 0, whatever the pattern and the signal. -/
theorem C88_negative_shift_zero (pattern signal : List Int) (hp : 0 < pattern.length) (hs : 0 < signal.length) :
    lockTest pattern signal 0 = .ok false := lockTest_zero pattern signal hp hs

example : lockTest [0, 0, 1, 0, 1, 1, 1] [0, 0, 1, 0, 1, 1, 1] 0 = .ok false
    ∧ lockTest [0, 1, 0, 1, 1, 1, 0] [0, 0, 1, 0, 1, 1, 1] 1 = .ok true := by decide +kernel

/-- **C88**, negative: many errors can hide the alignment. Errors at all ones (2^(n-1) of them per period) leave a zero
signal, and the test fails for every shift. -/
theorem C88_negative_errors (p : PrbsEnum) (seq : List Int) (h : lockSeq p = .ok seq ∨ csvData p = some seq)
    (shift : ℕ) (hs : shift < seq.length) :
    lockRun1 lockTest seq ((tile seq 2).map (fun x => decide (x = 1))) shift = .ok false := by
  have hseq := lockSeq_eq p seq h
  have hz : flipBits ((tile seq 2).map (fun x => decide (x = 1))) (tile seq 2)
      = List.replicate (2 * seq.length) 0 := by
    rw [List.eq_replicate_iff]
    constructor
    · unfold flipBits
      simp [tile_length]
    · intro x hx
      unfold flipBits at hx
      rw [List.zipWith_map_left, List.zipWith_self, List.mem_map] at hx
      obtain ⟨a, ha, rfl⟩ := hx
      have ha' : a ∈ seq := by
        unfold tile at ha
        simpa using ha
      rw [hseq, List.mem_map] at ha'
      obtain ⟨i, -, rfl⟩ := ha'
      rcases bitAt_bin (getPolynomial p) (List.replicate p.value 1) i with h | h <;> simp [h]
  unfold lockRun1
  rw [hz, drop_take_rotate _ _ hs.le]
  unfold lockTest lockTestOf lockPattern
  rw [if_neg (by rw [List.length_rotate, List.length_replicate]; omega)]
  simp only [bind, Except.bind, pure, Except.pure, List.length_rotate, List.length_replicate, List.take_replicate]
  have h0 : argmax (correlateValid (tile (seq.rotate shift) 2)
      (List.replicate (min (min seq.length (2 * seq.length)) (2 * seq.length)) (0 : Int))) = 0 := by
    rw [correlateValid_tile _ _ (by simp)]
    obtain ⟨h1, h2, h3⟩ := argmax_map_range (corr (seq.rotate shift)
      (List.replicate (min (min seq.length (2 * seq.length)) (2 * seq.length)) (0 : Int)))
      (2 * (seq.rotate shift).length
        - (List.replicate (min (min seq.length (2 * seq.length)) (2 * seq.length)) (0 : Int)).length + 1) (by omega)
    by_contra hne
    have h4 := h3 0 (Nat.pos_of_ne_zero hne)
    have hc : ∀ k, corr (seq.rotate shift)
        (List.replicate (min (min seq.length (2 * seq.length)) (2 * seq.length)) (0 : Int)) k = 0 := by
      intro k
      unfold corr
      apply sum_eq_zero
      intro i _
      have : (List.replicate (min (min seq.length (2 * seq.length)) (2 * seq.length)) (0 : Int)).getD i 0 = 0 := by
        rw [List.getD_eq_getElem?_getD, List.getElem?_replicate]
        split <;> rfl
      rw [this, mul_zero]
    rw [hc, hc] at h4
    exact absurd h4 (lt_irrefl _)
  rw [h0]
  congr 1
  rw [Bool.and_eq_false_iff]
  right
  rw [beq_eq_false_iff_ne]
  intro he
  have : (seq.length : Int) - shift = 0 := by simpa using he
  omega

example : ∃ seq, csvData .prbs7 = some seq ∧ 5 < seq.length := ⟨_, rfl, by decide +kernel⟩

end Verif
