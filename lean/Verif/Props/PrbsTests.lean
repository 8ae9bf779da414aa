import Verif.Model.PrbsTests
import Verif.Lemmas.PrbsData
import Verif.Props.Prbs
import Verif.Props.Checker
import Verif.Lemmas.Delay

/-! **C86**: the project's PRBS tests and their reference data. -/

namespace Verif
open Spec

/-- **C86**, the reference files: every value of every file is the bit the shift register produces from the all-ones
seed, and a file holds exactly one period. -/
theorem C86_data (p : PrbsEnum) (ref : List Int) (h : csvData p = some ref) (b : ℕ → Int)
    (hb : LfsrStream (getPolynomial p) (List.replicate p.value 1) b) :
    ref.length = 2 ^ p.value - 1 ∧ ∀ t < ref.length, ref.getD t 0 = b t := by
  rw [lfsrStream_unique hb (lfsrStream_bitAt _ _ (by simp [poly_length])), csvData_eq p ref h]
  refine ⟨by simp, fun t ht => ?_⟩
  rw [List.length_map, List.length_range] at ht
  rw [map_range_getD _ _ _ _ ht]

example : (∃ r, csvData .prbs15 = some r) ∧ (csvBits 127 csvPrbs7).take 10 = [0, 0, 0, 0, 0, 0, 1, 0, 0, 0] := by
  refine ⟨⟨_, rfl⟩, by decide +kernel⟩

/-- **C86**, `prbs_gen_test` succeeds for every type with a reference file and every length (the suite uses at most two
periods). -/
theorem C86_gen_test (p : PrbsEnum) (ref : List Int) (h : csvData p = some ref) (L : ℕ) :
    prbsGenTest p ref L = .ok true := by
  have hv := value_pos p
  have hP := two_pow_sub_pos hv
  have hol : (List.replicate p.value (1:Int)).length = p.value := by simp
  have href := csvData_eq p ref h
  have hrl : ref.length = 2 ^ p.value - 1 := by rw [href]; simp
  -- the reference pattern
  have hpat : (if (L + (2 ^ p.value - 1) - 1) / (2 ^ p.value - 1) > 1 then
      tile ref ((L + (2 ^ p.value - 1) - 1) / (2 ^ p.value - 1)) else ref).take L
      = (List.range L).map (bitAt (getPolynomial p) (List.replicate p.value 1)) := by
    have hval : ∀ i, ref.getD (i % ref.length) 0 = bitAt (getPolynomial p) (List.replicate p.value 1) i := by
      intro i
      have hm : i % (2 ^ p.value - 1) < 2 ^ p.value - 1 := Nat.mod_lt _ hP
      rw [hrl, href, map_range_getD _ _ _ _ hm, bitAt_mod p _ hol]
    split
    · obtain ⟨h1, h2⟩ := tile_ceil_take ref L (2 ^ p.value - 1) hP hrl.ge
      apply ext_getD 0 (by rw [h1]; simp)
      intro i hi
      rw [h1] at hi
      rw [map_range_getD _ _ _ _ hi, ← hval i]
      exact h2 i hi
    · have hle : L ≤ 2 ^ p.value - 1 := by
        by_contra hc
        have h2 : 2 ≤ (L + (2 ^ p.value - 1) - 1) / (2 ^ p.value - 1) := by
          rw [Nat.le_div_iff_mul_le hP]
          omega
        omega
      rw [href, ← List.map_take, List.take_range, Nat.min_eq_left hle]
  unfold prbsGenTest prbsGenTestOf
  simp only [List.length_replicate]
  rw [prbsGenerator_supported p _ hol L]
  simp only [bind, Except.bind, pure, Except.pure]
  rw [hpat]
  have hreg : (if L ≥ p.value then (lastN p.value ((List.range L).map
        (bitAt (getPolynomial p) (List.replicate p.value 1)))).reverse
      else (((List.range L).map (bitAt (getPolynomial p) (List.replicate p.value 1))).reverse
        ++ List.replicate p.value 1).take p.value) = reg (getPolynomial p) (List.replicate p.value 1) L := by
    have hrlen : (reg (getPolynomial p) (List.replicate p.value 1) L).length = p.value := by
      rw [reg_length _ _ _ (by simp; omega), hol]
    apply ext_getD 0
    · rw [hrlen]
      split <;> simp [lastN] <;> omega
    · intro i hi
      have hi' : i < p.value := by
        split at hi <;> simp [lastN] at hi <;> omega
      rw [reg_getD _ _ _ _ (by simpa using hi')]
      split
      · rename_i hL
        rw [if_pos (by omega)]
        unfold lastN
        rw [List.getD_eq_getElem?_getD, List.getElem?_reverse (by simp; omega)]
        simp only [List.length_drop, List.length_map, List.length_range, List.getElem?_drop]
        rw [← List.getD_eq_getElem?_getD, map_range_getD _ _ _ _ (by omega)]
        congr 1
        omega
      · by_cases hiL : i < L
        · rw [if_pos hiL, List.getD_eq_getElem?_getD, List.getElem?_take, if_pos hi',
            List.getElem?_append_left (by simp; exact hiL), List.getElem?_reverse (by simp; exact hiL),
            ← List.getD_eq_getElem?_getD, map_range_getD _ _ _ _ (by simp; omega)]
          congr 1
          simp
        · rw [if_neg hiL, List.getD_eq_getElem?_getD, List.getElem?_take, if_pos hi',
            List.getElem?_append_right (by simp; omega), ← List.getD_eq_getElem?_getD]
          simp
  rw [hreg]
  simp

/-! ### the checker test -/

theorem flip_report {N : ℕ} (data : List Int) (errs : List Bool) (f : ℕ → Int) (hf : ∀ i, f i = 0 ∨ f i = 1)
    (hd : data.length = N) (he : errs.length = N)
    (hflip : ∀ i < N, data.getD i 0 = if errs.getD i false then 1 - f i else f i)
    (th : Int) (r : CheckResult) (h : ExactReport data f th r.lostLock r.correctBitCount r.errorBit) :
    mismatches N (stream data) f = errs.count true ∧ r.errorBit = errs ∧
      r.correctBitCount = (N : Int) - errs.count true ∧ r.lostLock = decide ((errs.count true : Int) ≥ th) := by
  have hne : ∀ i < N, (stream data i ≠ f i ↔ errs.getD i false = true) := by
    intro i hi
    unfold stream
    rw [hflip i hi]
    rcases hf i with e | e <;> rw [e] <;> cases errs.getD i false <;> simp
  have herr : errs = (List.range N).map (fun i => errs.getD i false) := by
    apply ext_getD false (by simp [he])
    intro i hi
    rw [map_range_getD _ _ _ _ (by omega)]
  have hc : mismatches N (stream data) f = errs.count true := by
    conv_rhs => rw [herr]
    rw [count_true_map_range]
    unfold mismatches
    congr 1
    apply Finset.filter_congr
    intro i hi
    exact hne i (Finset.mem_range.1 hi)
  refine ⟨hc, ?_, ?_, ?_⟩
  · apply List.ext_getElem?
    intro i
    by_cases hi : i < N
    · rw [h.flags i (by omega), List.getElem?_eq_getElem (by omega)]
      congr 1
      have := hne i hi
      rw [List.getD_eq_getElem?_getD, List.getElem?_eq_getElem (by omega : i < errs.length)] at this
      simp only [Option.getD_some] at this
      by_cases hb : errs[i] = true
      · rw [hb]
        exact decide_eq_true (this.2 hb)
      · rw [Bool.not_eq_true] at hb
        rw [hb]
        apply decide_eq_false
        intro hn
        rw [this.1 hn] at hb
        exact absurd hb (by simp)
    · rw [List.getElem?_eq_none (by rw [h.length]; omega), List.getElem?_eq_none (by omega)]
  · have := match_count N (stream data) f
    rw [h.count, hd]
    omega
  · rw [Bool.eq_iff_iff, h.lost, hd, hc, decide_eq_true_eq]

theorem flipBits_getD (errs : List Bool) (x : List Int) (hl : errs.length = x.length) (i : ℕ) (hi : i < x.length) :
    (flipBits errs x).getD i 0 = if errs.getD i false then 1 - x.getD i 0 else x.getD i 0 := by
  unfold flipBits
  simp [List.getD_eq_getElem?_getD, List.getElem?_zipWith, hi, (by omega : i < errs.length)]

theorem rotated_getD (p : PrbsEnum) (ref : List Int) (h : csvData p = some ref) (shift : ℕ) (hs : shift ≤ ref.length)
    (i : ℕ) (hi : i < ref.length) : (ref.drop shift ++ ref.take shift).getD i 0
      = bitAt (getPolynomial p) (List.replicate p.value 1) (shift + i) := by
  have hol : (List.replicate p.value (1:Int)).length = p.value := by simp
  have href := csvData_eq p ref h
  have hrl : ref.length = 2 ^ p.value - 1 := by rw [href]; simp
  have hval : ∀ i < ref.length, ref.getD i 0 = bitAt (getPolynomial p) (List.replicate p.value 1) i := by
    intro i hi
    rw [href, map_range_getD _ _ _ _ (by omega)]
  by_cases hlt : shift + i < ref.length
  · rw [List.getD_eq_getElem?_getD, List.getElem?_append_left (by simp; omega), List.getElem?_drop,
      ← List.getD_eq_getElem?_getD, hval _ hlt]
  · rw [List.getD_eq_getElem?_getD, List.getElem?_append_right (by simp; omega), List.length_drop,
      List.getElem?_take, if_pos (by omega), ← List.getD_eq_getElem?_getD, hval _ (by omega),
      ← bitAt_period p _ hol]
    congr 1
    omega

theorem bitAt_bin (poly seed : List Int) (t : ℕ) : bitAt poly seed t = 0 ∨ bitAt poly seed t = 1 := by
  unfold bitAt
  omega

/-- **C86**, `prbs_analysis_test` (without the economy checker) succeeds for every shift, every threshold and every
error pattern with fewer than `2 ^ (n - 2)` errors. -/
theorem C86_analysis_test (p : PrbsEnum) (ref : List Int) (h : csvData p = some ref) (shift : ℕ)
    (hs : shift ≤ ref.length) (errs : List Bool) (hl : errs.length = ref.length)
    (he : errs.count true < 2 ^ (p.value - 2)) (th : Int) : prbsAnalysisTest p ref shift errs th = .ok true := by
  have hv := value_pos p
  have hol : (List.replicate p.value (1:Int)).length = p.value := by simp
  have hone : ∃ x ∈ List.replicate p.value (1:Int), x % 2 = 1 := ⟨1, by simp; omega, rfl⟩
  have hrl : ref.length = 2 ^ p.value - 1 := by rw [csvData_eq p ref h]; simp
  have hst := lfsrStream_bitAt (getPolynomial p) (List.replicate p.value 1) (by rw [poly_length, hol])
  set b := bitAt (getPolynomial p) (List.replicate p.value 1) with hb
  have hbin : ∀ i, b i = 0 ∨ b i = 1 := fun i => bitAt_bin _ _ i
  have hlr : (ref.drop shift ++ ref.take shift).length = ref.length := by simp; omega
  -- the shifted data
  have hd1 : (flipBits errs (ref.drop shift ++ ref.take shift)).length = ref.length := by
    unfold flipBits
    rw [List.length_zipWith, hlr, hl, Nat.min_self]
  have hf1 : ∀ i < ref.length, (flipBits errs (ref.drop shift ++ ref.take shift)).getD i 0
      = if errs.getD i false then 1 - b (shift + i) else b (shift + i) := by
    intro i hi
    rw [flipBits_getD _ _ (by rw [hl, hlr]) i (by omega), rotated_getD p ref h shift hs i hi]
  have hb1 : ∀ x ∈ flipBits errs (ref.drop shift ++ ref.take shift), x = 0 ∨ x = 1 := by
    intro x hx
    obtain ⟨i, hi, rfl⟩ := List.getElem_of_mem hx
    have := hf1 i (by omega)
    rw [getD_of_lt 0 _ hi] at this
    rw [this]
    rcases hbin (shift + i) with e | e <;> rw [e] <;> cases errs.getD i false <;> simp
  have hm1 : mismatches (2 ^ p.value - 1) (stream (flipBits errs (ref.drop shift ++ ref.take shift)))
      (fun i => b (shift + i)) = errs.count true := by
    obtain ⟨r0, -, hr0⟩ := compareBits_spec (flipBits errs (ref.drop shift ++ ref.take shift))
      ((List.range ref.length).map (fun i => b (shift + i))) (by rw [hd1]; simp) th (fun i => b (shift + i))
      (fun i hi => by unfold stream; rw [map_range_getD _ _ _ _ (by omega)])
    rw [← hrl]
    exact (flip_report _ errs _ (fun i => hbin _) hd1 hl hf1 th r0 hr0).1
  obtain ⟨r, hr, hrep⟩ := C08_checker_locks p (List.replicate p.value 1) hol hone b hst shift _ hb1
    (by rw [hd1, hrl]) (by rw [hm1]; exact he) th
  obtain ⟨-, e1, e2, e3⟩ := flip_report _ errs _ (fun i => hbin _) hd1 hl hf1 th r hrep
  -- the data in phase
  have hd2 : (flipBits errs ref).length = ref.length := by
    unfold flipBits
    rw [List.length_zipWith, hl, Nat.min_self]
  have hf2 : ∀ i < ref.length, (flipBits errs ref).getD i 0 = if errs.getD i false then 1 - b i else b i := by
    intro i hi
    have := rotated_getD p ref h 0 (by omega) i hi
    rw [List.drop_zero, List.take_zero, List.append_nil, Nat.zero_add] at this
    rw [flipBits_getD _ _ hl i hi, this]
  obtain ⟨r', hr', hrep'⟩ := C07_checker_exact_default p (flipBits errs ref) th b hst
  obtain ⟨-, e1', e2', e3'⟩ := flip_report _ errs _ hbin hd2 hl hf2 th r' hrep'
  unfold prbsAnalysisTest prbsAnalysisTestOf
  beta_reduce
  simp only [bind, Except.bind]
  rw [hr]
  simp only [e1, e2, e3, beq_self_eq_true, Bool.and_self, if_true]
  rw [hr']
  simp [e1', e2', e3', pure, Except.pure]

/-- **C86** *violated* without the bound: some draws fail, and then the assertion message itself raises TypeError. For
every type the errors that turn the sequence into itself one step later do it, `2 ^ (n - 1)` in number. -/
theorem C86_negative_analysis (p : PrbsEnum) (ref : List Int) (h : csvData p = some ref) (th : Int) :
    ∃ errs : List Bool, errs.length = ref.length ∧ errs.count true = 2 ^ (p.value - 1) ∧
      prbsAnalysisTest p ref 0 errs th = .error .typeError := by
  have hv := value_pos p
  have hv7 : 7 ≤ p.value := by cases p <;> decide
  have hol : (List.replicate p.value (1:Int)).length = p.value := by simp
  have hone : ∃ x ∈ List.replicate p.value (1:Int), x % 2 = 1 := ⟨1, by simp; omega, rfl⟩
  have hrl : ref.length = 2 ^ p.value - 1 := by rw [csvData_eq p ref h]; simp
  have hst := lfsrStream_bitAt (getPolynomial p) (List.replicate p.value 1) (by rw [poly_length, hol])
  set b := bitAt (getPolynomial p) (List.replicate p.value 1) with hb
  have hbin : ∀ i, b i = 0 ∨ b i = 1 := fun i => bitAt_bin _ _ i
  have h2 : 2 ^ 7 ≤ 2 ^ p.value := Nat.pow_le_pow_right (by norm_num) hv7
  have hcount : ((List.range ref.length).map (fun i => decide (b (1 + i) ≠ b (0 + i)))).count true = 2 ^ (p.value - 1) := by
    rw [count_true_map_range, ← bitAt_phase_ne p (List.replicate p.value 1) hol hone 1 0 (by
      rw [Nat.zero_mod, Nat.mod_eq_of_lt (by omega)]; omega), hrl]
    unfold mismatches
    congr 1
    apply Finset.filter_congr
    intro i _
    simp [hb]
  refine ⟨(List.range ref.length).map (fun i => decide (b (1 + i) ≠ b (0 + i))), by simp, hcount, ?_⟩
  set errs := (List.range ref.length).map (fun i => decide (b (1 + i) ≠ b (0 + i))) with herrs
  have hel : errs.length = ref.length := by simp [herrs]
  have hd1 : (flipBits errs (ref.drop 0 ++ ref.take 0)).length = ref.length := by
    unfold flipBits
    rw [List.length_zipWith, hel]
    simp
  have hf1 : ∀ i < ref.length, (flipBits errs (ref.drop 0 ++ ref.take 0)).getD i 0 = b (1 + i) := by
    intro i hi
    rw [flipBits_getD _ _ (by rw [hel]; simp) i (by simpa using hi), rotated_getD p ref h 0 (by omega) i hi, herrs,
      map_range_getD _ _ _ _ hi]
    rcases hbin (1 + i) with e1 | e1 <;> rcases hbin (0 + i) with e0 | e0 <;> rw [← hb] <;> rw [e1, e0] <;> decide
  have hm : mismatches ref.length (stream (flipBits errs (ref.drop 0 ++ ref.take 0))) (fun i => b (1 + i)) = 0 := by
    rw [mismatches_eq_zero]
    intro i hi
    exact hf1 i hi
  obtain ⟨r, hr, hrep⟩ := C08_checker_locks p (List.replicate p.value 1) hol hone b hst 1
    (flipBits errs (ref.drop 0 ++ ref.take 0)) (by
      intro x hx
      obtain ⟨i, hi, rfl⟩ := List.getElem_of_mem hx
      have := hf1 i (by omega)
      rw [getD_of_lt 0 _ hi] at this
      rw [this]
      exact hbin _) (by rw [hd1, hrl]) (by rw [← hrl, hm]; positivity) th
  have hcnt : r.correctBitCount = ref.length := by
    have := match_count ref.length (stream (flipBits errs (ref.drop 0 ++ ref.take 0))) (fun i => b (1 + i))
    rw [hrep.count, hd1]
    omega
  have hne : ((ref.length : Int) - errs.count true == r.correctBitCount) = false := by
    rw [hcnt, beq_eq_false_iff_ne]
    have : 0 < errs.count true := by rw [hcount]; positivity
    omega
  unfold prbsAnalysisTest prbsAnalysisTestOf
  beta_reduce
  simp only [bind, Except.bind]
  rw [hr]
  simp only [hne, Bool.and_false, Bool.false_and, Bool.false_eq_true, if_false]

/-- a drawn case: one error, shift equal to the length -/
example : ∃ ref, csvData .prbs7 = some ref ∧ ref.length = 127 ∧
    prbsAnalysisTest .prbs7 ref 127 (true :: List.replicate 126 false) 10 = .ok true := by
  refine ⟨csvBits 127 csvPrbs7, rfl, by simp [csvBits], ?_⟩
  exact C86_analysis_test .prbs7 _ rfl 127 (by simp [csvBits]) _ (by simp [csvBits]) (by decide +kernel) 10

end Verif
