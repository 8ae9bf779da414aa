import Verif.Props.EqTests
import Verif.Lemmas.EqWitness

/-!
# A draw for which the project's test of the equalization estimation fails (C96)
-/

open Finset

namespace Verif
open Spec (unitScale flipBit txLevel periodic chanOut IsLs periodAvg BestPhase withPast eqAt poleGain OpenEye firAt)

/-- the hypotheses of `C96_success_partial` are met: two poles, every constellation has a pole it admits -/
theorem two_poles_accepted : arAccepted [1 / 4, -1 / 4] ∧ OpenEye .nrz [1 / 4, -1 / 4] ∧ OpenEye .pam4 [1 / 5] := by
  refine ⟨?_, ?_, ?_⟩
  · rw [arAccepted, show npPoly [(1 / 4 : ℝ), -1 / 4] = [1, 0, -1 / 16] by norm_num [npPoly]]
    norm_num [maxL, abs_of_neg]
  · show poleGain _ < 2
    norm_num [poleGain, abs_of_neg]
  · show poleGain _ < 4 / 3
    norm_num [poleGain, abs_of_pos]

example (ls : Solver ℝ) (hls : IsLs (solveWith ls .none 0) 3) :
    ∃ bits, equalizationPrbsTest ls .prbs7 bits .nrz [1 / 4, -1 / 4] 2 63 = .ok true := by
  refine ⟨_, C96_success_partial ls .prbs7 _ rfl .nrz (by decide) _ (by simp) (by simp) ?_ two_poles_accepted.1 two_poles_accepted.2.1
    2 63 le_rfl (by decide) (by simp) hls⟩
  intro v hv
  simp only [List.mem_cons, List.not_mem_nil, or_false] at hv
  rcases hv with rfl | rfl <;> rw [abs_le] <;> norm_num

/-- the drawn roots of the counterexample -/
noncomputable def eqWitRoots : List ℝ := [1 / 2, 1 / 2, 1 / 2, 1 / 2, -1 / 2, -1 / 2]

theorem eqWit_poly : npPoly eqWitRoots = [1, -1, -1 / 4, 1 / 2, -1 / 16, -1 / 16, 1 / 64] := by
  norm_num [npPoly, eqWitRoots]

theorem eqWit_gain : poleGain eqWitRoots = 64 := by
  norm_num [poleGain, eqWitRoots, abs_of_neg, abs_of_pos]

theorem eqWit_firAt (y : ℤ → ℝ) (n : ℤ) : firAt (npPoly eqWitRoots) y n
    = y n - y (n - 1) - 1 / 4 * y (n - 2) + 1 / 2 * y (n - 3) - 1 / 16 * y (n - 4) - 1 / 16 * y (n - 5) + 1 / 64 * y (n - 6) := by
  rw [firAt, eqWit_poly]
  simp [sum_range_succ]
  ring

/-- the samples are known to one part in a thousand -/
theorem eqWit_close (y : ℤ → ℝ) (hy0 : ∀ n < 0, y n = 0)
    (hy : ∀ n : ℤ, 0 ≤ n → n < 262 → firAt (npPoly eqWitRoots) y n = (wit7 n.toNat : ℝ)) :
    ∀ n : ℕ, n < 262 → |y n - (eqWitOut.getD n 0 : ℝ) / 65536| ≤ 1 / 1024 := by
  obtain ⟨T, hT⟩ : ∃ T : ℤ → ℝ, ∀ n, T n = if n < 0 then 0 else ((eqWitOut.getD n.toNat 0 : ℤ) : ℝ) / 65536 := ⟨_, fun _ => rfl⟩
  have hTk : ∀ (n : ℕ) (k : ℕ), T ((n : ℤ) - k) = (eqWitAt n k : ℝ) / 65536 := by
    intro n k
    rw [hT, eqWitAt]
    split_ifs with h1 h2 h2
    · omega
    · simp
    · rw [show ((n : ℤ) - k).toNat = n - k by omega]
    · omega
  obtain ⟨e, he⟩ : ∃ e : ℤ → ℝ, ∀ n, e n = y n - T n := ⟨_, fun _ => rfl⟩
  have he0 : ∀ n < 0, e n = 0 := fun n hn => by rw [he, hy0 n hn, hT, if_pos hn, sub_zero]
  have hr1 : ∀ r ∈ eqWitRoots, |r| < 1 := by
    intro r hr
    simp only [eqWitRoots, List.mem_cons, List.not_mem_nil, or_false] at hr
    rcases hr with rfl | rfl | rfl | rfl | rfl | rfl <;> norm_num [abs_lt]
  have hres : ∀ n : ℤ, 0 ≤ n → n < 262 → |firAt (npPoly eqWitRoots) e n| ≤ 1 / 65536 := by
    intro n h0 hn
    obtain ⟨t, rfl⟩ := Int.eq_ofNat_of_zero_le h0
    have ht : t < 262 := by exact_mod_cast hn
    have h1 := hy t h0 hn
    rw [Int.toNat_natCast] at h1
    have h2 := eqWit_eq t ht
    have h3 : firAt (npPoly eqWitRoots) e t = firAt (npPoly eqWitRoots) y t - firAt (npPoly eqWitRoots) T t := by
      simp only [firAt, he, mul_sub, sum_sub_distrib]
    have h4 : firAt (npPoly eqWitRoots) T t
        = ((((List.range 7).map fun k => eqWitPoly.getD k 0 * eqWitAt t k).sum : ℤ) : ℝ) / (64 * 65536) := by
      rw [firAt, eqWit_poly, int_list_sum]
      simp only [hTk]
      simp [sum_range_succ, eqWitPoly]
      ring
    rw [h3, h1, h4]
    have h5 : |((((List.range 7).map fun k => eqWitPoly.getD k 0 * eqWitAt t k).sum - 64 * 65536 * wit7 t : ℤ) : ℝ)| ≤ 64 := by
      have : ((((((List.range 7).map fun k => eqWitPoly.getD k 0 * eqWitAt t k).sum - 64 * 65536 * wit7 t).natAbs : ℕ)) : ℝ) ≤ 64 := by
        exact_mod_cast h2
      rwa [Nat.cast_natAbs, Int.cast_abs] at this
    rw [Int.cast_sub, Int.cast_mul] at h5
    generalize ((((List.range 7).map fun k => eqWitPoly.getD k 0 * eqWitAt t k).sum : ℤ) : ℝ) = a at h5 ⊢
    push_cast at h5
    rw [abs_le] at h5 ⊢
    constructor
    · rw [le_sub_iff_add_le, ← le_sub_iff_add_le', div_le_iff₀ (by norm_num)]; linarith [h5.2]
    · rw [sub_le_iff_le_add, ← sub_le_iff_le_add', le_div_iff₀ (by norm_num)]; linarith [h5.1]
  have hisi := poles_isi eqWitRoots hr1 e (firAt (npPoly eqWitRoots) e) 262 (1 / 65536) (by norm_num) he0 hres
    (fun n _ _ => (firAt_npPoly _ _ _).symm)
  rw [eqWit_gain] at hisi
  intro n hn
  have h1 := hisi n (by positivity) (by exact_mod_cast hn)
  have h2 := hres n (by positivity) (by exact_mod_cast hn)
  have h3 : y n - (eqWitOut.getD n 0 : ℝ) / 65536 = e n := by
    rw [he, hT, if_neg (by omega), Int.toNat_natCast]
  rw [h3]
  rw [abs_le] at h1 h2 ⊢
  constructor <;> linarith [h1.1, h1.2, h2.1, h2.2]

/-- **C96, disagreement.** The test can fail in exact arithmetic: with PRBS7, NRZ, three repetitions, cutoff 1 and the roots
1/2 (four times) and -1/2 (twice), which the test accepts, the response 1, 1, 5/4, … of the channel is largest two symbols after
its main tap, so the lock takes phase 6 instead of 8 and the taps are nowhere near the drawn polynomial. -/
theorem C96_negative (ls : Solver ℝ) (bits : List Int) (hd : csvData .prbs7 = some bits)
    (hls : IsLs (solveWith ls .none 0) 7) :
    (∀ r ∈ eqWitRoots, |r| ≤ 1 / 2) ∧ arAccepted eqWitRoots ∧
      equalizationPrbsTest ls .prbs7 bits .nrz eqWitRoots 3 1 = .ok false := by
  classical
  have hacc : arAccepted eqWitRoots := by
    rw [arAccepted, eqWit_poly]
    norm_num [maxL, abs_of_neg, abs_of_pos]
  have hl : eqWitRoots.length = 6 := rfl
  refine ⟨?_, hacc, ?_⟩
  · intro r hr
    simp only [eqWitRoots, List.mem_cons, List.not_mem_nil, or_false] at hr
    rcases hr with rfl | rfl | rfl | rfl | rfl | rfl <;> norm_num [abs_le]
  obtain ⟨y, ph, f, h1, h2, h3, h4, h5, h6⟩ := C96_verdict ls .prbs7 bits hd .nrz (by decide) eqWitRoots (by rw [hl]; norm_num) hacc 3 1
    (by rw [hl]; decide) (by rw [hl]; exact hls)
  rw [h6]
  refine congrArg Except.ok (decide_eq_false fun hall => ?_)
  obtain ⟨x, hxd⟩ : ∃ x, x = periodic (2 ^ PrbsEnum.prbs7.value - 1)
    (txLevel .nrz false false false false false (bitAt (getPolynomial .prbs7) (onesSeed .prbs7))) := ⟨_, rfl⟩
  simp only [← hxd, hl] at h2 h3 h4 h5
  have hxw : ∀ n : ℤ, 0 ≤ n → x n = (wit7 n.toNat : ℝ) := by rw [hxd]; exact wit7_symbol
  rw [show (3 * (2 ^ PrbsEnum.prbs7.value - 1) - 1 : ℕ) = 380 by decide] at h2 h3 h5
  rw [show min ((if Constellation.nrz = .pam4 then 1 else 2) * (2 ^ PrbsEnum.prbs7.value - 1)) (380 - (6 + 2)) = 254 by decide] at h3
  rw [show (380 - (6 + 2)) / (2 ^ PrbsEnum.prbs7.value - 1) = 2 by decide, show 2 ^ PrbsEnum.prbs7.value - 1 - 6 - 1 = 120 by decide,
    show 2 ^ PrbsEnum.prbs7.value - 1 = 127 by decide] at h5
  have hclose := eqWit_close y h1 (fun n h0 hn => by rw [h2 n h0 (by push_cast; omega), hxw n h0])
  have hbound : ∀ n : ℤ, n < 262 → |y n| ≤ 605 / 100 := by
    intro n hn
    rcases lt_or_ge n 0 with h | h
    · rw [h1 n h]; norm_num
    · obtain ⟨t, rfl⟩ := Int.eq_ofNat_of_zero_le h
      have ht : t < 262 := by exact_mod_cast hn
      have e1 := hclose t ht
      have e2 : |((eqWitOut.getD t 0 : ℤ) : ℝ)| ≤ 396000 := by
        have : (((eqWitOut.getD t 0).natAbs : ℕ) : ℝ) ≤ 396000 := by exact_mod_cast eqWit_bound t ht
        rwa [Nat.cast_natAbs, Int.cast_abs] at this
      have e3 : |((eqWitOut.getD t 0 : ℤ) : ℝ) / 65536| ≤ 396000 / 65536 := by
        rw [abs_div, abs_of_pos (show (0 : ℝ) < 65536 by norm_num)]
        exact div_le_div_of_nonneg_right e2 (by norm_num)
      have e4 : y t = (y t - ((eqWitOut.getD t 0 : ℤ) : ℝ) / 65536) + ((eqWitOut.getD t 0 : ℤ) : ℝ) / 65536 := by ring
      rw [e4]
      refine (abs_add_le _ _).trans ((add_le_add e1 e3).trans (by norm_num))
  -- the phase
  have hw1 : ∀ t, |(wit7 t : ℝ)| = 1 := by
    intro t; rw [wit7]; split_ifs <;> norm_num
  have hcorr : ∀ k : ℕ, |∑ i ∈ range 254, x (i + k) * y (i + 8)
      - ((((List.range 254).map fun i => wit7 (i + k % 127) * eqWitOut.getD (i + 8) 0).sum : ℤ) : ℝ) / 65536| ≤ 254 / 1024 := by
    intro k
    rw [int_list_sum, Int.cast_sum, sum_div, ← sum_sub_distrib]
    refine (abs_sum_le_sum_abs _ _).trans ?_
    have : ∀ i ∈ range 254, |x (i + k) * y (i + 8) - ((wit7 (i + k % 127) * eqWitOut.getD (i + 8) 0 : ℤ) : ℝ) / 65536| ≤ 1 / 1024 := by
      intro i hi
      rw [mem_range] at hi
      rw [hxw _ (by omega), wit7_mod, show ((i : ℤ) + k).toNat = i + k by omega, Int.cast_mul, mul_div_assoc, ← mul_sub, abs_mul, hw1, one_mul]
      have := hclose (i + 8) (by omega)
      push_cast at this
      exact this
    refine (sum_le_card_nsmul _ _ _ this).trans ?_
    rw [card_range]; norm_num
  have hph6 : ph % 127 = 6 := by
    by_contra hne
    have e1 := h3 6
    have e2 := abs_le.1 (hcorr 6)
    have e3 := abs_le.1 (hcorr ph)
    have e4 := eqWit_best (ph % 127) (Nat.mod_lt _ (by norm_num)) hne
    have e5 : ((((List.range 254).map fun i => wit7 (i + ph % 127) * eqWitOut.getD (i + 8) 0).sum : ℤ) : ℝ) + 40000
      < ((((List.range 254).map fun i => wit7 (i + 6) * eqWitOut.getD (i + 8) 0).sum : ℤ) : ℝ) := by exact_mod_cast e4
    have e6 : ∀ k : ℤ, ∑ i ∈ range 254, x (i + k) * y ((i : ℤ) + (((6 : ℕ) : ℤ) + 2)) = ∑ i ∈ range 254, x (i + k) * y (i + 8) := by
      intro k; refine sum_congr rfl fun i _ => ?_; norm_num
    rw [e6, e6] at e1
    rw [Nat.cast_ofNat, show 6 % 127 = 6 from rfl] at e2
    have e7 := e2.1
    have e8 := e3.2
    generalize ((((List.range 254).map fun i => wit7 (i + ph % 127) * eqWitOut.getD (i + 8) 0).sum : ℤ) : ℝ) = a at e5 e8
    generalize ((((List.range 254).map fun i => wit7 (i + 6) * eqWitOut.getD (i + 8) 0).sum : ℤ) : ℝ) = b at e5 e7
    linarith
  have hxph : ∀ t : ℤ, 0 ≤ t → x (t + ph) = x (t + 6) := by
    intro t h0
    rw [hxw _ (by omega), hxw _ (by omega), show (t + ph).toNat = t.toNat + ph by omega, ← wit7_mod, hph6]
    congr 2
    omega
  -- the averaged signal
  obtain ⟨m, hm⟩ : ∃ m : ℤ → ℝ, ∀ t, m t = (y (t + 8) + y (127 + t + 8)) / 2 := ⟨_, fun _ => rfl⟩
  have hmb : ∀ t : ℤ, t < 127 → |m t| ≤ 605 / 100 := by
    intro t ht
    have e1 := abs_le.1 (hbound (t + 8) (by omega))
    have e2 := abs_le.1 (hbound (127 + t + 8) (by omega))
    rw [hm, abs_le]
    constructor <;> linarith [e1.1, e1.2, e2.1, e2.2]
  have hper : ∀ t : ℤ, x (127 + t) = x t := by
    intro t
    rw [hxd, periodic, periodic]
    congr 2
    show (127 + t) % 127 = t % 127
    omega
  have hAm : ∀ t : ℤ, -8 ≤ t → t < 127 → firAt (npPoly eqWitRoots) m t = x (t + 8) := by
    intro t h0 ht
    have e1 := h2 (t + 8) (by omega) (by push_cast; omega)
    have e2 := h2 (127 + t + 8) (by omega) (by push_cast; omega)
    rw [show 127 + t + 8 = 127 + (t + 8) by ring, hper, ← show 127 + t + 8 = 127 + (t + 8) by ring] at e2
    have e3 : firAt (npPoly eqWitRoots) m t
        = (firAt (npPoly eqWitRoots) y (t + 8) + firAt (npPoly eqWitRoots) y (127 + t + 8)) / 2 := by
      simp only [firAt, hm, ← sum_add_distrib, sum_div]
      refine sum_congr rfl fun k _ => ?_
      rw [show t - (k : ℤ) + 8 = t + 8 - k by ring, show 127 + (t - (k : ℤ)) + 8 = 127 + t + 8 - k by ring]
      ring
    rw [e3, e1, e2]; ring
  have hpm : ∀ (g : List ℝ) (i : ℕ), g.length = 7 → i < 120 →
      firAt g (periodic 127 (periodAvg 127 2 fun t => y ((t : ℤ) + (((6 : ℕ) : ℤ) + 2)))) (((6 : ℕ) : ℤ) + i) = firAt g m (6 + i) := by
    intro g i hg hi
    rw [firAt, firAt, hg]
    refine sum_congr rfl fun k hk => ?_
    rw [mem_range] at hk
    congr 1
    rw [periodic, show ((((6 : ℕ) : ℤ) + i - k) % ((127 : ℕ) : ℤ)).toNat = 6 + i - k by omega, periodAvg, hm]
    simp only [sum_range_succ, range_zero, sum_empty, zero_add, zero_mul, one_mul]
    push_cast [Nat.cast_sub (show k ≤ 6 + i by omega)]
    norm_num
  -- a better candidate
  have hcost := h5 [0, 0, 1, -1, -1 / 4, 1 / 2, -1 / 16] rfl
  have hright : ∑ i ∈ range 120, (firAt [0, 0, 1, -1, -1 / 4, 1 / 2, -1 / 16]
      (periodic 127 (periodAvg 127 2 fun t => y ((t : ℤ) + (((6 : ℕ) : ℤ) + 2)))) (((6 : ℕ) : ℤ) + i) - x (((6 : ℕ) : ℤ) + i + ph)) ^ 2
      ≤ 120 * (1 / 4) := by
    have : ∀ i ∈ range 120, (firAt [0, 0, 1, -1, -1 / 4, 1 / 2, -1 / 16]
        (periodic 127 (periodAvg 127 2 fun t => y ((t : ℤ) + (((6 : ℕ) : ℤ) + 2)))) (((6 : ℕ) : ℤ) + i) - x (((6 : ℕ) : ℤ) + i + ph)) ^ 2
        ≤ 1 / 4 := by
      intro i hi
      rw [mem_range] at hi
      rw [hpm _ _ rfl hi, hxph _ (by omega)]
      have e1 := hAm (4 + i) (by omega) (by omega)
      rw [eqWit_firAt] at e1
      have e2 : firAt [0, 0, 1, -1, -1 / 4, 1 / 2, -1 / 16] m (6 + i)
          = m (4 + i) - m (4 + i - 1) - 1 / 4 * m (4 + i - 2) + 1 / 2 * m (4 + i - 3) - 1 / 16 * m (4 + i - 4) := by
        rw [firAt]
        simp only [List.length_cons, List.length_nil, sum_range_succ, range_zero, sum_empty, List.getD_cons_succ, List.getD_cons_zero]
        push_cast
        rw [show 6 + (i : ℤ) - 2 = 4 + i by ring, show 6 + (i : ℤ) - 3 = 4 + i - 1 by ring, show 6 + (i : ℤ) - 4 = 4 + i - 2 by ring,
          show 6 + (i : ℤ) - 5 = 4 + i - 3 by ring, show 6 + (i : ℤ) - 6 = 4 + i - 4 by ring]
        ring
      have e3 := abs_le.1 (hmb (4 + i - 5) (by omega))
      have e4 := abs_le.1 (hmb (4 + i - 6) (by omega))
      rw [e2, show ((6 : ℕ) : ℤ) + i + 6 = 4 + i + 8 by push_cast; ring, ← e1]
      rw [show (1 / 4 : ℝ) = (1 / 2) ^ 2 by norm_num]
      refine sq_le_sq' ?_ ?_ <;> linarith [e3.1, e3.2, e4.1, e4.2]
    refine (sum_le_card_nsmul _ _ _ this).trans ?_
    rw [card_range]; norm_num
  -- taps near the drawn polynomial are worse
  have hleft : (61 : ℝ) * 3 ≤ ∑ i ∈ range 120, (firAt f
      (periodic 127 (periodAvg 127 2 fun t => y ((t : ℤ) + (((6 : ℕ) : ℤ) + 2)))) (((6 : ℕ) : ℤ) + i) - x (((6 : ℕ) : ℤ) + i + ph)) ^ 2 := by
    have hcnt : 61 ≤ ((range 120).filter fun i => wit7 (i + 14) ≠ wit7 (i + 12)).card := by
      have := eqWit_count
      rwa [← List.toFinset_card_of_nodup (List.nodup_range.filter _), List.toFinset_filter, List.toFinset_range] at this
    have : ∀ i ∈ (range 120).filter (fun i => wit7 (i + 14) ≠ wit7 (i + 12)), (3 : ℝ) ≤ (firAt f
        (periodic 127 (periodAvg 127 2 fun t => y ((t : ℤ) + (((6 : ℕ) : ℤ) + 2)))) (((6 : ℕ) : ℤ) + i) - x (((6 : ℕ) : ℤ) + i + ph)) ^ 2 := by
      intro i hi
      rw [mem_filter, mem_range] at hi
      rw [hpm _ _ h4 hi.1, hxph _ (by omega)]
      have e1 := hAm (6 + i) (by omega) (by omega)
      have e2 : |firAt f m (6 + i) - firAt (npPoly eqWitRoots) m (6 + i)| ≤ 7 * (5 / 1000 * (605 / 100)) := by
        rw [firAt, firAt, npPoly_length, h4, hl, ← sum_sub_distrib]
        refine (abs_sum_le_sum_abs _ _).trans ?_
        have : ∀ k ∈ range (6 + 1), |f.getD k 0 * m (6 + i - k) - (npPoly eqWitRoots).getD k 0 * m (6 + i - k)| ≤ 5 / 1000 * (605 / 100) := by
          intro k hk
          rw [mem_range] at hk
          rw [← sub_mul, abs_mul, abs_sub_comm]
          exact mul_le_mul (hall k (by rw [hl]; omega)).le (hmb _ (by omega)) (abs_nonneg _) (by norm_num)
        refine (sum_le_card_nsmul _ _ _ this).trans ?_
        rw [card_range]; norm_num
      rw [e1, hxw _ (by omega), show (6 + (i : ℤ) + 8).toNat = i + 14 by omega] at e2
      rw [hxw _ (by omega), show (((6 : ℕ) : ℤ) + (i : ℤ) + 6).toNat = i + 12 by omega]
      have hw2 : ∀ t, wit7 t = 1 ∨ wit7 t = -1 := fun t => by rw [wit7]; split_ifs <;> simp
      have e3 := abs_le.1 e2
      rcases hw2 (i + 14) with a | a <;> rcases hw2 (i + 12) with b | b
      · exact absurd (a.trans b.symm) hi.2
      · rw [a] at e3
        rw [b]
        push_cast at e3 ⊢
        nlinarith [e3.1, e3.2]
      · rw [a] at e3
        rw [b]
        push_cast at e3 ⊢
        nlinarith [e3.1, e3.2]
      · exact absurd (a.trans b.symm) hi.2
    calc (61 : ℝ) * 3 ≤ ((range 120).filter fun i => wit7 (i + 14) ≠ wit7 (i + 12)).card * 3 := by
          refine mul_le_mul_of_nonneg_right (by exact_mod_cast hcnt) (by norm_num)
      _ ≤ ∑ i ∈ (range 120).filter (fun i => wit7 (i + 14) ≠ wit7 (i + 12)), _ := by
          rw [← nsmul_eq_mul]; exact card_nsmul_le_sum _ _ _ this
      _ ≤ _ := sum_le_sum_of_subset_of_nonneg (filter_subset _ _) (fun _ _ _ => sq_nonneg _)
  have := hleft.trans (hcost.trans hright)
  norm_num at this

end Verif
