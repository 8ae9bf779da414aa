import Verif.Model.PrbsData
import Verif.Lemmas.PrbsPeriod
import Mathlib.Algebra.BigOperators.Group.Finset.Piecewise

/-! One comparison of large numbers shows that a stored bit sequence obeys a shift register recurrence. -/

namespace Verif

/-- tap positions of the polynomials, as in `getPolynomial` -/
def tapsOf : PrbsEnum → List ℕ
  | .prbs7 => [5, 6] | .prbs9 => [4, 8] | .prbs11 => [8, 10] | .prbs13 => [0, 1, 11, 12] | .prbs15 => [13, 14]
  | .prbs31 => [27, 30]

theorem getPolynomial_taps (p : PrbsEnum) : getPolynomial p = onesAt p.value (tapsOf p) := by cases p <;> rfl

theorem parity_foldr (T : List ℕ) (g : ℕ → Bool) :
    ((T.map (fun i => if g i then (1 : Int) else 0)).sum) % 2 = if T.foldr (fun i a => xor (g i) a) false then 1 else 0 := by
  induction T with
  | nil => rfl
  | cons i T ih =>
    rw [List.map_cons, List.sum_cons, List.foldr_cons, Int.add_emod, ih]
    cases g i <;> cases T.foldr (fun i a => xor (g i) a) false <;> rfl

theorem testBit_foldr (T : List ℕ) (W n t : ℕ) :
    (T.foldr (fun i a => (W >>> (n - 1 - i)) ^^^ a) 0).testBit t
      = T.foldr (fun i a => xor (W.testBit (n - 1 - i + t)) a) false := by
  induction T with
  | nil => simp
  | cons i T ih => rw [List.foldr_cons, List.foldr_cons, Nat.testBit_xor, ih, Nat.testBit_shiftRight]

theorem testBit_prefix (N n m : ℕ) : (N * 2 ^ n + (2 ^ n - 1)).testBit m = if m < n then true else N.testBit (m - n) := by
  have h : 2 ^ n - 1 < 2 ^ n := by have := Nat.two_pow_pos n; omega
  rw [Nat.mul_comm, Nat.testBit_two_pow_mul_add _ h]
  split
  · rw [Nat.testBit_two_pow_sub_one]
    simpa using by assumption
  · rfl

/-- the comparison -/
def recurrenceHolds (T : List ℕ) (n L N : ℕ) : Bool :=
  (N % 2 ^ L == (T.foldr (fun i a => ((N * 2 ^ n + (2 ^ n - 1)) >>> (n - 1 - i)) ^^^ a) 0) % 2 ^ L)

theorem recurrence_sound (T : List ℕ) (n L N : ℕ) (hT : T.Nodup) (hTn : ∀ i ∈ T, i < n)
    (h : recurrenceHolds T n L N = true) (t : ℕ) (ht : t < L) :
    bitAt (onesAt n T) (List.replicate n 1) t = if N.testBit t then 1 else 0 := by
  have hpl : (onesAt n T).length = n := by simp [onesAt]
  have hstream := lfsrStream_bitAt (onesAt n T) (List.replicate n 1) (by simp [hpl])
  induction t using Nat.strong_induction_on with
  | _ t ih =>
    rw [hstream t, hpl]
    have hterm : ∀ i ∈ Finset.range n, (onesAt n T).getD i 0 *
        (if i < t then bitAt (onesAt n T) (List.replicate n 1) (t - 1 - i) else (List.replicate n (1 : Int)).getD (i - t) 0)
        = if i ∈ T.toFinset then (if (N * 2 ^ n + (2 ^ n - 1)).testBit (n - 1 - i + t) then (1 : Int) else 0) else 0 := by
      intro i hi
      rw [Finset.mem_range] at hi
      have h1 : (onesAt n T).getD i 0 = if i ∈ T then 1 else 0 := by
        unfold onesAt
        simp [List.getD_eq_getElem?_getD, hi]
      rw [h1, testBit_prefix]
      simp only [List.mem_toFinset]
      by_cases hiT : i ∈ T
      · rw [if_pos hiT, if_pos hiT, one_mul]
        by_cases hit : i < t
        · have h2 : ¬ (n - 1 - i + t < n) := by omega
          rw [if_pos hit, ih (t - 1 - i) (by omega) (by omega)]
          simp only [if_neg h2]
          rw [show n - 1 - i + t - n = t - 1 - i by omega]
        · have h2 : n - 1 - i + t < n := by omega
          have h3 : i - t < n := by omega
          rw [if_neg hit]
          simp only [if_pos h2, if_true]
          rw [List.getD_eq_getElem?_getD, List.getElem?_replicate, if_pos h3]
          rfl
      · rw [if_neg hiT, if_neg hiT, zero_mul]
    rw [Finset.sum_congr rfl hterm, Finset.sum_ite_mem]
    have hsub : Finset.range n ∩ T.toFinset = T.toFinset := by
      apply Finset.inter_eq_right.2
      intro i hi
      rw [List.mem_toFinset] at hi
      exact Finset.mem_range.2 (hTn i hi)
    rw [hsub, List.sum_toFinset _ hT, parity_foldr, ← testBit_foldr]
    unfold recurrenceHolds at h
    rw [beq_iff_eq] at h
    have := congrArg (fun x => x.testBit t) h
    simp only [Nat.testBit_mod_two_pow, ht, decide_true, Bool.true_and] at this
    rw [this]

theorem csv_eq (p : PrbsEnum) (L N : ℕ) (h : recurrenceHolds (tapsOf p) p.value L N = true) :
    csvBits L N = (List.range L).map (bitAt (getPolynomial p) (List.replicate p.value 1)) := by
  unfold csvBits
  apply List.map_congr_left
  intro t ht
  rw [List.mem_range] at ht
  rw [getPolynomial_taps, recurrence_sound (tapsOf p) p.value L N (by cases p <;> decide) (by cases p <;> decide) h t ht]

theorem csvData_eq (p : PrbsEnum) (d : List Int) (hd : csvData p = some d) :
    d = (List.range (2 ^ p.value - 1)).map (bitAt (getPolynomial p) (List.replicate p.value 1)) := by
  cases p with
  | prbs31 => exact absurd hd (by simp [csvData])
  | prbs7 => rw [← Option.some.inj hd]; exact csv_eq .prbs7 127 csvPrbs7 (by decide +kernel)
  | prbs9 => rw [← Option.some.inj hd]; exact csv_eq .prbs9 511 csvPrbs9 (by decide +kernel)
  | prbs11 => rw [← Option.some.inj hd]; exact csv_eq .prbs11 2047 csvPrbs11 (by decide +kernel)
  | prbs13 => rw [← Option.some.inj hd]; exact csv_eq .prbs13 8191 csvPrbs13 (by decide +kernel)
  | prbs15 => rw [← Option.some.inj hd]; exact csv_eq .prbs15 32767 csvPrbs15 (by decide +kernel)

end Verif
