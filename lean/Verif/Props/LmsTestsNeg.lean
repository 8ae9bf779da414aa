import Verif.Lemmas.LmsFfe
import Verif.Lemmas.FfeWitness2
import Verif.Props.LmsTests

/-!
# A draw for which the project's FFE training test fails (C106)
-/

open Finset

namespace Verif
open Spec (txLevel periodic BestPhase withPast firAt)

/-- the symbols of the witness -/
theorem bit7_symbol (z : ℤ) (hz : 0 ≤ z) :
    refZ .prbs7 .ook false false false false false (z : ZMod (2 ^ PrbsEnum.prbs7.value - 1)) = (bit7 z.toNat : ℝ) := by
  have h1 := wit7_symbol z hz
  rw [refZ_int, refZ_nrz, one_mul, add_zero] at h1
  rw [refZ_ook, h1, wit7, bit7]
  split_ifs <;> norm_num

theorem bit7_mod (i r : ℕ) : bit7 (i + r % 127) = bit7 (i + r) := by
  rw [bit7, bit7]
  congr 3
  omega

/-- the samples behind the channel -/
theorem ffe_record (S : ℝ) (hS : S = ((10 ^ 230 : ℕ) : ℝ)) (y : ℤ → ℝ) (hy0 : ∀ n < 0, y n = 0)
    (hy : ∀ n : ℕ, n < 230 → y n - 9 / 10 * y (n - 1) + 27 / 100 * y (n - 2) - 27 / 1000 * y (n - 3) = (bit7 n : ℝ)) :
    ∀ n : ℕ, n < 230 → y n * S = (ffeY n : ℝ) := by
  intro n
  induction n using Nat.strong_induction_on with
  | _ n ih =>
    intro hn
    have hat : ∀ k : ℕ, 1 ≤ k → y ((n : ℤ) - k) * S = (ffeAt n k : ℝ) := by
      intro k hk
      rw [ffeAt]
      split_ifs with h
      · rw [← ih (n - k) (by omega) (by omega), show ((n - k : ℕ) : ℤ) = (n : ℤ) - k by omega]
      · rw [hy0 _ (by omega), zero_mul, Nat.cast_zero]
    have h1 := hat 1 le_rfl
    have h2 := hat 2 (by norm_num)
    have h3 := hat 3 (by norm_num)
    have h4 : ((1000 * ffeY n + 270 * ffeAt n 2 : ℕ) : ℝ) = ((1000 * 10 ^ 230 * bit7 n + 900 * ffeAt n 1 + 27 * ffeAt n 3 : ℕ) : ℝ) := by
      rw [ffeWit_rec n hn]
    rw [Nat.cast_add, Nat.cast_add, Nat.cast_add, Nat.cast_mul, Nat.cast_mul, Nat.cast_mul, Nat.cast_mul, Nat.cast_mul, Nat.cast_mul, ← hS] at h4
    push_cast at h1 h2 h3 h4
    have h5 := hy n hn
    rw [← h1, ← h2, ← h3, ← h5] at h4
    linarith

theorem nat_list_sum (n : ℕ) (f : ℕ → ℕ) : ((List.range n).map f).sum = ∑ i ∈ range n, f i := by
  induction n with
  | zero => rfl
  | succ n ih => rw [List.range_succ, List.map_append, List.sum_append, ih, sum_range_succ]; simp

/-- the matrix of the gradient -/
theorem ffe_cov (S : ℝ) (hS : S = ((10 ^ 230 : ℕ) : ℝ)) (hS0 : 0 < S) (u : ℕ → ℝ) (hu : ∀ n < 230, u n * S = (ffeY n : ℝ)) (j l : ℕ)
    (hj : j < 4) (hl : l < 4) :
    |(∑ n ∈ Ico j 221, u (n + 9 - l) * u (n + 9 - j)) / ((221 - j : ℕ) : ℝ) - (ffeB j l : ℝ) / 10 ^ 12| ≤ 1 / 10 ^ 12 := by
  obtain ⟨T, hT⟩ : ∃ T, T = ∑ n ∈ Ico j 221, u (n + 9 - l) * u (n + 9 - j) := ⟨_, rfl⟩
  have h1 : T * (S * S) = (ffeProd j l : ℝ) := by
    rw [hT, ffeProd, nat_list_sum, Nat.cast_sum, sum_Ico_eq_sum_range, sum_mul]
    refine sum_congr rfl fun m hm => ?_
    rw [mem_range] at hm
    rw [show j + m + 9 - j = m + 9 by omega, show j + m + 9 - l = m + j + 9 - l by omega, Nat.cast_mul, ← hu (m + 9) (by omega),
      ← hu (m + j + 9 - l) (by omega)]
    ring
  obtain ⟨N, hN⟩ : ∃ N : ℝ, N = ((221 - j : ℕ) : ℝ) := ⟨_, rfl⟩
  have hN0 : 0 < N := by rw [hN]; exact_mod_cast (show 0 < 221 - j by omega)
  have h2 : |(10 ^ 12 * (ffeProd j l : ℝ)) - ffeB j l * N * (S * S)| ≤ N * (S * S) := by
    have h3 : ((((10 ^ 12 * ffeProd j l : ℤ) - (ffeB j l * (221 - j : ℕ) * (10 ^ 230 * 10 ^ 230) : ℤ)).natAbs : ℕ) : ℝ)
        ≤ (((221 - j) * (10 ^ 230 * 10 ^ 230) : ℕ) : ℝ) := by exact_mod_cast ffeWit_cov j hj l hl
    rw [Nat.cast_natAbs, Int.cast_abs, Int.cast_sub, Int.cast_mul, Int.cast_mul, Int.cast_mul, Nat.cast_mul, Nat.cast_mul, ← hS, ← hN,
      Int.cast_mul] at h3
    have h4 : ((10 ^ 230 : ℤ) : ℝ) = S := by rw [hS]; push_cast; rfl
    rw [h4] at h3
    push_cast at h3
    rw [← hN] at h3
    norm_num only
    exact h3
  rw [← h1] at h2
  rw [← hT, ← hN]
  have hSS : 0 < S * S := by positivity
  have h5 : |T / N - ffeB j l / 10 ^ 12| = |10 ^ 12 * (T * (S * S)) - ffeB j l * N * (S * S)| / (10 ^ 12 * (N * (S * S))) := by
    have h6 : T / N - ffeB j l / 10 ^ 12 = (10 ^ 12 * (T * (S * S)) - ffeB j l * N * (S * S)) / (10 ^ 12 * (N * (S * S))) := by
      field_simp
    rw [h6, abs_div, abs_of_pos (show (0 : ℝ) < 10 ^ 12 * (N * (S * S)) by positivity)]
  rw [h5, div_le_div_iff₀ (by positivity) (by positivity)]
  linarith

/-- the gradient -/
theorem ffe_grad (S : ℝ) (hS : S = ((10 ^ 230 : ℕ) : ℝ)) (hS0 : 0 < S) (u : ℕ → ℝ) (hu : ∀ n < 230, u n * S = (ffeY n : ℝ)) (j : ℕ)
    (hj : j < 4) (a b c d : ℝ) (h : (|a| ≤ 1 ∧ |b| ≤ 1) ∧ (|c| ≤ 1 ∧ |d| ≤ 1)) :
    |(∑ n ∈ Ico j 221, (a * u (n + 9) + b * u (n + 9 - 1) + c * u (n + 9 - 2) + d * u (n + 9 - 3)) * u (n + 9 - j)) / ((221 - j : ℕ) : ℝ)
      - (ffeB j 0 * a + ffeB j 1 * b + ffeB j 2 * c + ffeB j 3 * d) / 10 ^ 12| ≤ 4 / 10 ^ 12 := by
  have h0 := ffe_cov S hS hS0 u hu j 0 hj (by norm_num)
  have h1 := ffe_cov S hS hS0 u hu j 1 hj (by norm_num)
  have h2 := ffe_cov S hS hS0 u hu j 2 hj (by norm_num)
  have h3 := ffe_cov S hS hS0 u hu j 3 hj (by norm_num)
  rw [sum_congr rfl (g := fun n => a * (u (n + 9 - 0) * u (n + 9 - j)) + b * (u (n + 9 - 1) * u (n + 9 - j))
    + c * (u (n + 9 - 2) * u (n + 9 - j)) + d * (u (n + 9 - 3) * u (n + 9 - j))) (fun n _ => by rw [Nat.sub_zero]; ring),
    sum_add_distrib, sum_add_distrib, sum_add_distrib, ← mul_sum, ← mul_sum, ← mul_sum, ← mul_sum]
  generalize ∑ n ∈ Ico j 221, u (n + 9 - 0) * u (n + 9 - j) = T0 at *
  generalize ∑ n ∈ Ico j 221, u (n + 9 - 1) * u (n + 9 - j) = T1 at *
  generalize ∑ n ∈ Ico j 221, u (n + 9 - 2) * u (n + 9 - j) = T2 at *
  generalize ∑ n ∈ Ico j 221, u (n + 9 - 3) * u (n + 9 - j) = T3 at *
  have hm : ∀ f e : ℝ, |f| ≤ 1 → |e| ≤ 1 / 10 ^ 12 → |f * e| ≤ 1 / 10 ^ 12 := by
    intro f e e1 e2
    rw [abs_mul]
    exact (mul_le_of_le_one_left (abs_nonneg _) e1).trans e2
  have g0 := abs_le.1 (hm a _ h.1.1 h0)
  have g1 := abs_le.1 (hm b _ h.1.2 h1)
  have g2 := abs_le.1 (hm c _ h.2.1 h2)
  have g3 := abs_le.1 (hm d _ h.2.2 h3)
  have e : (a * T0 + b * T1 + c * T2 + d * T3) / ((221 - j : ℕ) : ℝ)
      - (ffeB j 0 * a + ffeB j 1 * b + ffeB j 2 * c + ffeB j 3 * d) / 10 ^ 12
      = a * (T0 / ((221 - j : ℕ) : ℝ) - ffeB j 0 / 10 ^ 12) + b * (T1 / ((221 - j : ℕ) : ℝ) - ffeB j 1 / 10 ^ 12)
        + c * (T2 / ((221 - j : ℕ) : ℝ) - ffeB j 2 / 10 ^ 12) + d * (T3 / ((221 - j : ℕ) : ℝ) - ffeB j 3 / 10 ^ 12) := by ring
  rw [e, abs_le]
  constructor <;> linarith [g0.1, g0.2, g1.1, g1.2, g2.1, g2.2, g3.1, g3.2]

/-- the correlations with the samples -/
theorem ffe_corr (S : ℝ) (hS : S = ((10 ^ 230 : ℕ) : ℝ)) (hS0 : 0 < S) (u : ℕ → ℝ) (hu : ∀ n < 230, u n * S = (ffeY n : ℝ)) (s : ℕ)
    (hs : s ≤ 127) (j : ℕ) (hj : j < 4) :
    (ffeCorr12 s j : ℝ) ≤ 10 ^ 12 * ∑ i ∈ range 127, (bit7 (i + s) : ℝ) * u (i + 9 - j) ∧
      10 ^ 12 * ∑ i ∈ range 127, (bit7 (i + s) : ℝ) * u (i + 9 - j) ≤ ffeCorr12 s j + 1 := by
  obtain ⟨T, hT⟩ : ∃ T, T = ∑ i ∈ range 127, (bit7 (i + s) : ℝ) * u (i + 9 - j) := ⟨_, rfl⟩
  obtain ⟨P, hP⟩ : ∃ P : ℕ, P = 10 ^ 218 := ⟨_, rfl⟩
  have hP0 : 0 < P := by rw [hP]; positivity
  have hSP : S = 10 ^ 12 * (P : ℝ) := by
    rw [hS, hP, show (230 : ℕ) = 12 + 218 from rfl, pow_add, Nat.cast_mul]; norm_num
  have h1 : T * S = (ffeCorr s j : ℝ) := by
    rw [hT, ffeCorr_eq s hs j (by omega), Nat.cast_sum, sum_mul]
    refine sum_congr rfl fun i hi => ?_
    rw [mem_range] at hi
    rw [Nat.cast_mul, ← hu _ (by omega)]
    ring
  rw [← hT, ffeCorr12, ← hP]
  have h2 : ((ffeCorr s j / P * P : ℕ) : ℝ) ≤ ffeCorr s j := by exact_mod_cast Nat.div_mul_le_self _ _
  have h3 : (ffeCorr s j : ℝ) ≤ ((ffeCorr s j / P * P + P : ℕ) : ℝ) := by exact_mod_cast (Nat.lt_div_mul_add hP0).le
  have hPr : (0 : ℝ) < P := by exact_mod_cast hP0
  rw [← h1, hSP] at h2 h3
  push_cast at h2 h3
  constructor
  · refine le_of_mul_le_mul_right ?_ hPr
    linarith
  · refine le_of_mul_le_mul_right ?_ hPr
    linarith

/-- in the whole box the lock finds the transmitted sequence -/
theorem ffe_lock (S : ℝ) (hS : S = ((10 ^ 230 : ℕ) : ℝ)) (hS0 : 0 < S) (u : ℕ → ℝ) (hu : ∀ n < 230, u n * S = (ffeY n : ℝ))
    (k : ℕ) (hk : k ≤ 100000) (a b c d : ℝ) (h : FfeInv k a b c d) (sig : ℕ → ℝ)
    (hsig : ∀ n < 127, sig n = bit7 (n + 9) + (a * u (n + 9) + b * u (n + 9 - 1) + c * u (n + 9 - 2) + d * u (n + 9 - 3)))
    (s : ℕ) (hs : s < 127) (hne : s ≠ 9) :
    ∑ i ∈ range 127, (bit7 (i + s) : ℝ) * sig i < ∑ i ∈ range 127, (bit7 (i + 9) : ℝ) * sig i := by
  have hform : ∀ r ≤ 127, ∑ i ∈ range 127, (bit7 (i + r) : ℝ) * sig i = ffeSelf r
      + (a * ∑ i ∈ range 127, (bit7 (i + r) : ℝ) * u (i + 9 - 0) + b * ∑ i ∈ range 127, (bit7 (i + r) : ℝ) * u (i + 9 - 1)
        + c * ∑ i ∈ range 127, (bit7 (i + r) : ℝ) * u (i + 9 - 2) + d * ∑ i ∈ range 127, (bit7 (i + r) : ℝ) * u (i + 9 - 3)) := by
    intro r hr
    rw [ffeSelf_eq r hr, Nat.cast_sum, mul_sum, mul_sum, mul_sum, mul_sum, ← sum_add_distrib, ← sum_add_distrib, ← sum_add_distrib,
      ← sum_add_distrib]
    refine sum_congr rfl fun i hi => ?_
    rw [hsig i (mem_range.1 hi), Nat.cast_mul, Nat.sub_zero]
    ring
  rw [hform s hs.le, hform 9 (by norm_num)]
  have hc : ∀ j < 4, |10 ^ 12 * (∑ i ∈ range 127, (bit7 (i + 9) : ℝ) * u (i + 9 - j) - ∑ i ∈ range 127, (bit7 (i + s) : ℝ) * u (i + 9 - j))
      - (((ffeCorr12 9 j : ℤ) - (ffeCorr12 s j : ℤ) : ℤ) : ℝ)| ≤ 1 := by
    intro j hj
    have h1 := ffe_corr S hS hS0 u hu 9 (by norm_num) j hj
    have h2 := ffe_corr S hS hS0 u hu s hs.le j hj
    rw [abs_le]
    push_cast
    constructor <;> linarith [h1.1, h1.2, h2.1, h2.2]
  have hcheck := ffeWit_lock s hs hne
  simp only [ffeCheck, withNat_eq] at hcheck
  have := ffe_margin _ _ _ _ _ hcheck k hk a b c d h _ _ _ _ (hc 0 (by norm_num)) (hc 1 (by norm_num)) (hc 2 (by norm_num))
    (hc 3 (by norm_num))
  rw [Int.cast_sub, Int.cast_natCast, Int.cast_natCast] at this
  linarith

/-- the drawn roots of the counterexample -/
noncomputable def ffeWitRoots : List ℝ := [3 / 10, 3 / 10, 3 / 10]

theorem ffeWit_poly : npPoly ffeWitRoots = [1, -9 / 10, 27 / 100, -27 / 1000] := by
  norm_num [npPoly, ffeWitRoots]

/-- **C106, disagreement.** The FFE training test can fail in exact arithmetic: with PRBS7, OOK, two repetitions, cutoff 24 and
three roots 3/10, which the test accepts, the pattern lock is right in every pass, but the taps approach the channel polynomial
so slowly that after the 100000 passes the loop admits the second one is still more than 1e-2 away from it. -/
theorem C106_negative_ffe (bits : List Int) (hd : csvData .prbs7 = some bits) :
    (∀ r ∈ ffeWitRoots, |r| ≤ 1 / 2) ∧ arAccepted ffeWitRoots ∧ lmsFfeTest false .prbs7 bits ffeWitRoots 2 24 = .ok false := by
  refine ⟨?_, ?_, ?_⟩
  · intro r hr
    simp only [ffeWitRoots, List.mem_cons, List.not_mem_nil, or_false] at hr
    rcases hr with rfl | rfl | rfl <;> norm_num [abs_le]
  · rw [arAccepted, ffeWit_poly]
    norm_num [maxL, abs_of_neg, abs_of_pos]
  have h127 : 2 ^ PrbsEnum.prbs7.value - 1 = 127 := rfl
  obtain ⟨yl, z, h1, h2, h3⟩ := ar_pattern .prbs7 .ook ffeWitRoots 230 (by norm_num)
  obtain ⟨S, hS⟩ : ∃ S : ℝ, S = ((10 ^ 230 : ℕ) : ℝ) := ⟨_, rfl⟩
  have hS0 : 0 < S := by rw [hS]; exact_mod_cast (show 0 < 10 ^ 230 by positivity)
  have hrec := ffe_record S hS (withPast [] yl) (fun n hn => by rw [withPast, if_neg (by omega)]; simp) (fun n hn => by
    have e := h3 n (by positivity) (by exact_mod_cast hn)
    rw [refZ_int, bit7_symbol _ (by positivity), Int.toNat_natCast, firAt, ffeWit_poly] at e
    rw [← e]
    simp [sum_range_succ]
    ring)
  obtain ⟨u, hu⟩ : ∃ u : ℕ → ℝ, u = fun n => yl.getD n 0 := ⟨_, rfl⟩
  have huS : ∀ n < 230, u n * S = (ffeY n : ℝ) := fun n hn => by
    rw [← hrec n hn, withPast_nat, hu]
  have hur : ∀ n, 3 ≤ n → n < 230 → u n - 9 / 10 * u (n - 1) + 27 / 100 * u (n - 2) - 27 / 1000 * u (n - 3) = (bit7 n : ℝ) := by
    intro n h0 hn
    have e := h3 n (by positivity) (by exact_mod_cast hn)
    rw [refZ_int, bit7_symbol _ (by positivity), Int.toNat_natCast, firAt, ffeWit_poly] at e
    have e2 : ∀ k : ℕ, k ≤ 3 → withPast [] yl ((n : ℤ) - k) = u (n - k) := by
      intro k hk
      rw [show (n : ℤ) - k = ((n - k : ℕ) : ℤ) by omega, withPast_nat, hu]
    have e20 := e2 0 (by norm_num)
    have e21 := e2 1 (by norm_num)
    have e22 := e2 2 (by norm_num)
    have e23 := e2 3 (by norm_num)
    simp only [List.length_cons, List.length_nil, sum_range_succ, range_zero, sum_empty, e20, e21, e22, e23] at e
    rw [← e]
    simp
    ring
  obtain ⟨y, hy⟩ : ∃ y, y = yl.drop 5 := ⟨_, rfl⟩
  have hyl : y.length = 225 := by rw [hy, List.length_drop, h2]
  have hyu : ∀ n, y.getD n 0 = u (n + 5) := by
    intro n; rw [hy, drop_getD, hu, add_comm]
  have hlv : getLevels .ook false ≠ [] := by
    rw [show getLevels .ook false = [0, 1] by simp [getLevels, intLevels]]; simp
  obtain ⟨P, hP⟩ : ∃ P : ℕ → List ℝ → Prop, P = fun k t => t.length = 4 ∧
    FfeInv k (t.getD 0 0 - 1) (t.getD 1 0 + 9 / 10) (t.getD 2 0 - 27 / 100) (t.getD 3 0 + 27 / 1000) := ⟨_, rfl⟩
  have hstep : ∀ m t, m < 100000 → P m t → ∃ l t', lmsFfeTestPass false 0
      ((List.range 230).map (txLevel .ook false false false false false (bitAt (getPolynomial .prbs7) (onesSeed .prbs7))))
      (2 ^ PrbsEnum.prbs7.value - 1) y (getLevels .ook false) (1 / 1000) t = .ok (some l, t') ∧ P (m + 1) t' := by
    intro m t hm hPm
    rw [hP] at hPm
    obtain ⟨ht, hinv⟩ := hPm
    obtain ⟨sig, hsig⟩ : ∃ sig : ℕ → ℝ, ∀ n, sig n = ∑ j ∈ range t.length, t.getD j 0 * y.getD (n + t.length - j) 0 := ⟨_, fun _ => rfl⟩
    have hs4 : ∀ n, sig n = t.getD 0 0 * u (n + 9) + t.getD 1 0 * u (n + 9 - 1) + t.getD 2 0 * u (n + 9 - 2) + t.getD 3 0 * u (n + 9 - 3) := by
      intro n
      rw [hsig, ht]
      simp only [sum_range_succ, range_zero, sum_empty, hyu, zero_add]
      rfl
    have hse : ∀ n < 221, sig n = bit7 (n + 9) + ((t.getD 0 0 - 1) * u (n + 9) + (t.getD 1 0 + 9 / 10) * u (n + 9 - 1)
        + (t.getD 2 0 - 27 / 100) * u (n + 9 - 2) + (t.getD 3 0 + 27 / 1000) * u (n + 9 - 3)) := by
      intro n hn
      rw [hs4, ← hur (n + 9) (by omega) (by omega)]
      ring
    obtain ⟨l, t', hp, hl', hg⟩ := lmsFfeTestPass_run .prbs7 230 y t (getLevels .ook false) (1 / 1000) 9 (by omega)
      (by rw [ht]; decide) hlv (by rw [hyl, ht]; decide) (by rw [hyl]; norm_num) sig hsig (fun s hb => by
        by_contra hne
        have hs9 : s % 127 ≠ 9 := by
          intro h
          refine hne ?_
          have : (s : ZMod 127) = (9 : ℕ) := (ZMod.natCast_eq_natCast_iff s 9 127).2 h
          push_cast
          exact this
        have e1 := hb 9
        have e2 : ∀ r : ℕ, ∑ i ∈ range (2 ^ PrbsEnum.prbs7.value - 1),
            refZ .prbs7 .ook false false false false false (((i : ℤ) + (r : ℤ) : ℤ) : ZMod (2 ^ PrbsEnum.prbs7.value - 1)) * sig i
            = ∑ i ∈ range 127, (bit7 (i + r % 127) : ℝ) * sig i := by
          intro r
          refine sum_congr rfl fun i _ => ?_
          rw [bit7_mod]
          congr 1
          exact (bit7_symbol _ (by positivity)).trans (by congr 2)
        have e3 := ffe_lock S hS hS0 u huS m hm.le _ _ _ _ hinv sig (fun n hn => hse n (by omega)) (s % 127) (Nat.mod_lt _ (by norm_num)) hs9
        have e4 := e2 s
        have e5 := e2 9
        rw [Nat.cast_ofNat] at e5
        rw [e4, e5, show 9 % 127 = 9 from rfl] at e1
        exact absurd e1 (not_le.2 e3))
    refine ⟨l, t', hp, ?_⟩
    rw [hP]
    refine ⟨by rw [hl', ht], ?_⟩
    have hbox := ffe_box m hm.le _ _ _ _ hinv
    have hE : ∀ j < 4, t'.getD j 0 = t.getD j 0 - ((∑ n ∈ Ico j 221, ((t.getD 0 0 - 1) * u (n + 9) + (t.getD 1 0 + 9 / 10) * u (n + 9 - 1)
        + (t.getD 2 0 - 27 / 100) * u (n + 9 - 2) + (t.getD 3 0 + 27 / 1000) * u (n + 9 - 3)) * u (n + 9 - j)) / ((221 - j : ℕ) : ℝ)) / 2000 := by
      intro j hj
      rw [hg j (by omega), hyl, ht, show 225 - 4 = 221 from rfl]
      have : ∑ n ∈ Ico j 221, (sig n - refZ .prbs7 .ook false false false false false ((n + 9 : ℤ) : ZMod (2 ^ PrbsEnum.prbs7.value - 1)))
          * y.getD (n + 4 - j) 0 = ∑ n ∈ Ico j 221, ((t.getD 0 0 - 1) * u (n + 9) + (t.getD 1 0 + 9 / 10) * u (n + 9 - 1)
        + (t.getD 2 0 - 27 / 100) * u (n + 9 - 2) + (t.getD 3 0 + 27 / 1000) * u (n + 9 - 3)) * u (n + 9 - j) := by
        refine sum_congr rfl fun n hn => ?_
        rw [mem_Ico] at hn
        rw [bit7_symbol _ (by positivity), hse n hn.2, hyu, show ((n : ℤ) + 9).toNat = n + 9 by omega, show n + 4 - j + 5 = n + 9 - j by omega,
          add_sub_cancel_left]
      rw [this]
      ring
    have hgr := fun j hj => ffe_grad S hS hS0 u huS j hj _ _ _ _ hbox
    have k0 := hgr 0 (by norm_num)
    have k1 := hgr 1 (by norm_num)
    have k2 := hgr 2 (by norm_num)
    have k3 := hgr 3 (by norm_num)
    have hfin := ffe_step m hm _ _ _ _ _ _ _ _ hinv k0 k1 k2 k3
    rw [hE 0 (by norm_num), hE 1 (by norm_num), hE 2 (by norm_num), hE 3 (by norm_num)]
    convert hfin using 1 <;> ring
  obtain ⟨m, t, ht1, ht2, ht3⟩ := trainLoop_invariant _ (2 / 10 ^ 9) P 100000 hstep 100000 0 1000 ([1, 0, 0, 0] : List ℝ) rfl (by
    rw [hP]
    refine ⟨rfl, ?_⟩
    have := ffe_start
    norm_num at this ⊢
    exact this)
  rw [hP] at ht3
  have hb := ffe_final m ht2 _ _ _ _ ht3.2
  rw [lmsFfeTest, genPattern_eq .prbs7 bits hd .ook (by decide) 2 24, py_ok_bind]
  dsimp only
  rw [show 2 * (2 ^ PrbsEnum.prbs7.value - 1) - 24 = 230 from rfl, h1, py_ok_bind]
  dsimp only
  rw [show (npPoly ffeWitRoots).length = 4 by rw [npPoly_length]; rfl, show argmax ((npPoly ffeWitRoots).map fun v => |v|) = 0 by
    rw [ffeWit_poly]; norm_num [argmax, abs_of_neg, abs_of_pos, List.findIdx_cons], ← hy, show (List.replicate 4 (0 : ℝ)).set 0 1 = [1, 0, 0, 0] from rfl, ht1,
    py_ok_bind]
  have hno : ¬ ∀ i < 4, |(npPoly ffeWitRoots).getD i 0 - t.getD i 0| < 1 / 100 := by
    intro hall
    have e := hall 1 (by norm_num)
    rw [ffeWit_poly, show ([1, -9 / 10, 27 / 100, -27 / 1000] : List ℝ).getD 1 0 = -9 / 10 from rfl, abs_lt] at e
    linarith [e.1]
  rw [decide_eq_false hno]
  rfl

end Verif
