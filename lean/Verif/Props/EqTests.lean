import Verif.Lemmas.EqTests2
import Verif.Props.Ffe

/-!
# The project's test of the equalization estimation (C96)
-/

open Finset

namespace Verif
open Spec (unitScale flipBit txLevel periodic chanOut IsLs periodAvg BestPhase withPast eqAt poleGain OpenEye firAt)

/-- **C96.** The coefficients `np.poly` gives the channel are those of the polynomial with the drawn roots. -/
theorem C96_poly (roots : List ℝ) (v : ℝ) :
    ∑ k ∈ range (roots.length + 1), (npPoly roots).getD k 0 * v ^ (roots.length - k) = (roots.map fun r => v - r).prod := by
  induction roots using List.reverseRecOn with
  | nil => simp [npPoly]
  | append_singleton rs r ih =>
    rw [npPoly_eq, List.foldl_append, ← npPoly_eq, List.foldl_cons, List.foldl_nil, List.map_append, List.prod_append, ← ih]
    simp only [polyStep_getD, add_mul, List.length_append, List.length_singleton, List.map_cons, List.map_nil, List.prod_singleton]
    rw [sum_add_distrib, sum_range_succ, getD_of_le 0 (npPoly rs) (by rw [npPoly_length]), zero_mul, add_zero,
      sum_range_succ' _ (rs.length + 1), if_pos rfl, zero_mul, add_zero, ← sum_add_distrib, sum_mul]
    refine sum_congr rfl fun k hk => ?_
    rw [mem_range] at hk
    rw [if_neg (by omega), Nat.add_sub_cancel, show rs.length + 1 - k = (rs.length - k) + 1 by omega,
      show rs.length + 1 - (k + 1) = rs.length - k by omega, pow_succ]
    ring

example : npPoly [(1 / 2 : ℚ), -1 / 4] = [1, -1 / 4, -1 / 8] := by decide +kernel

/-- the pattern sent through the all-pole channel -/
theorem ar_pattern (p : PrbsEnum) (c : Constellation) (roots : List ℝ) (M : ℕ) (hM : 0 < M) :
    ∃ y z, awgnChannel ((List.range M).map (txLevel c false false false false false (bitAt (getPolynomial p) (onesSeed p)))) [1]
        (.vec (npPoly roots)) none = .ok (y, z) ∧ y.length = M ∧ ∀ n : ℤ, 0 ≤ n → n < M →
      firAt (npPoly roots) (withPast [] y) n = periodic (2 ^ p.value - 1)
        (txLevel c false false false false false (bitAt (getPolynomial p) (onesSeed p))) n := by
  obtain ⟨y, z, h1, h2, h3⟩ := C44_difference_equation [1] (.vec (npPoly roots)) ((List.range M).map
    (txLevel c false false false false false (bitAt (getPolynomial p) (onesSeed p)))) (by simp)
    (by rw [Denom.coeffs, npPoly_length]; omega) (by rw [Denom.coeffs, npPoly_zero]; norm_num) (by simpa using hM)
  rw [List.length_map, List.length_range] at h2 h3
  refine ⟨y, z, h1, h2, fun n h0 hn => ?_⟩
  obtain ⟨t, rfl⟩ := Int.eq_ofNat_of_zero_le h0
  have ht : t < M := by exact_mod_cast hn
  have h4 := h3 t ht
  unfold Spec.DiffEq at h4
  rw [Denom.coeffs, npPoly_zero, one_mul, List.length_singleton, sum_range_one, List.getD_cons_zero, one_mul, Nat.cast_zero, sub_zero,
    withPast_nat, withPast_nat, map_range_getD _ _ _ _ ht] at h4
  rw [refZ_int, Int.cast_natCast, refZ_cast, firAt, npPoly_length, range_eq_Ico, sum_eq_sum_Ico_succ_bot (by omega), npPoly_zero, one_mul,
    Nat.cast_zero, sub_zero, withPast_nat, h4, npPoly_length]
  ring

/-- the part of the test after the estimation: the equalizer with a zero DFE tap always agrees with the filter -/
theorem eq_test_tail (out ffe : List ℝ) (hout : 0 < out.length) (hf : 0 < ffe.length) :
    ∃ dut y z, ffeDfe out ffe (some [0]) (some [-1, 1]) 1 0 none none = .ok dut ∧
      awgnChannel out ffe (.vec [1]) none = .ok (y, z) ∧ dut.signal = y := by
  obtain ⟨r, d, h1, h2, -, h3⟩ := C47_recursion_symbol_rate out ffe [0] (some [-1, 1]) (by simp) 0 (by simp) hf hout none none
    (by simp) (by simp)
  obtain ⟨y, z, g1, g2, g3⟩ := C44_difference_equation ffe (.vec [1]) out hf (by simp [Denom.coeffs]) (by simp [Denom.coeffs]) hout
  refine ⟨r, y, z, h1, g1, ext_getD 0 (by rw [h2, g2]) fun n hn => ?_⟩
  rw [h2] at hn
  have h4 := g3 n hn
  unfold Spec.DiffEq at h4
  rw [show (Denom.vec [(1 : ℝ)]).coeffs = [1] from rfl, List.length_singleton, Ico_self, sum_empty, List.getD_cons_zero, one_mul,
    sub_zero, withPast_nat] at h4
  rw [(h3 n hn).1, h4]
  simp

open Classical in
/-- **C96.** What the test decides, for every draw that leaves at least one period: the lock takes a phase of largest
correlation, the taps minimise the squared error at that phase, no step raises, and the verdict is whether each of the taps is
within 5e-3 of the drawn polynomial. The second assertion never fails. -/
theorem C96_verdict (ls : Solver ℝ) (p : PrbsEnum) (bits : List Int) (hd : csvData p = some bits) (c : Constellation)
    (hc : c ≠ .pam3) (roots : List ℝ) (hroots : roots.length ≤ 8) (hacc : arAccepted roots) (reps cutoff : ℕ)
    (hlen : (2 ^ p.value - 1) + (roots.length + 2) + cutoff ≤ reps * (2 ^ p.value - 1))
    (hls : IsLs (solveWith ls .none 0) (roots.length + 1)) :
    let N := 2 ^ p.value - 1
    let x := periodic N (txLevel c false false false false false (bitAt (getPolynomial p) (onesSeed p)))
    let S := reps * N - cutoff - (roots.length + 2)
    ∃ (y : ℤ → ℝ) (ph : ℕ) (f : List ℝ),
      (∀ n < 0, y n = 0) ∧ (∀ n : ℤ, 0 ≤ n → n < (reps * N - cutoff : ℕ) → firAt (npPoly roots) y n = x n) ∧
      BestPhase x (fun t => y (t + (roots.length + 2))) (min ((if c = .pam4 then 1 else 2) * N) S) ph ∧
      f.length = roots.length + 1 ∧
      (∀ f' : List ℝ, f'.length = roots.length + 1 →
        ∑ i ∈ range (N - roots.length - 1), (firAt f (periodic N (periodAvg N (S / N) fun t => y (t + (roots.length + 2))))
            (roots.length + i) - x (roots.length + i + ph)) ^ 2
          ≤ ∑ i ∈ range (N - roots.length - 1), (firAt f' (periodic N (periodAvg N (S / N) fun t => y (t + (roots.length + 2))))
            (roots.length + i) - x (roots.length + i + ph)) ^ 2) ∧
      equalizationPrbsTest ls p bits c roots reps cutoff
        = .ok (decide (∀ i < roots.length + 1, |(npPoly roots).getD i 0 - f.getD i 0| < 5 / 1000)) := by
  intro N x S
  have hN := period_ge p
  have hl := npPoly_length roots
  have hSge : 2 ^ p.value - 1 ≤ S := by
    show 2 ^ p.value - 1 ≤ reps * (2 ^ p.value - 1) - cutoff - (roots.length + 2)
    omega
  obtain ⟨yl, z, h1, h2, h3⟩ := ar_pattern p c roots (reps * (2 ^ p.value - 1) - cutoff) (by omega)
  have hol : (yl.drop ((npPoly roots).length + 1)).length = S := by
    rw [List.length_drop, h2, hl]
  have hsig : (fun t => (yl.drop ((npPoly roots).length + 1)).getD t 0) = fun t : ℕ => withPast [] yl (t + ((roots.length : ℤ) + 2)) := by
    funext t
    rw [drop_getD, hl, show (t : ℤ) + ((roots.length : ℤ) + 2) = ((roots.length + 1 + 1 + t : ℕ) : ℤ) by push_cast; ring, withPast_nat]
  obtain ⟨ph, r, k1, k2, k3, k4, k5⟩ := C69_optimal_partial ls p c hc false false false false false .none 0 _
    (lfsrStream_bitAt (getPolynomial p) (onesSeed p) (by rw [poly_length]; simp)) roots.length 0 0 (N - roots.length - 1) (by omega) (by omega)
    (by omega) (by omega) (yl.drop ((npPoly roots).length + 1)) (by rw [hol]; omega) (by simpa using hls)
  rw [hol] at k1 k5
  rw [hsig] at k1 k5
  simp only [Nat.add_zero] at k3
  refine ⟨withPast [] yl, ph, r.ffe, fun n hn => ?_, fun n h0 hn => h3 n h0 hn, k1, k3, fun f' hf' => ?_, ?_⟩
  · rw [withPast, if_neg (by omega)]; simp
  · have := k5 f' [] (by simpa using hf') rfl
    have e : ∀ (g dd : List ℝ) (i : ℕ), dd.length = 0 → eqAt g dd 0
        (periodic (2 ^ p.value - 1) (periodAvg (2 ^ p.value - 1) (S / (2 ^ p.value - 1))
          fun t : ℕ => withPast [] yl (t + ((roots.length : ℤ) + 2))))
        (fun t => periodic (2 ^ p.value - 1) (txLevel c false false false false false (bitAt (getPolynomial p) (onesSeed p))) (t + ph))
        ((roots.length + 0 + i : ℕ) : ℤ)
        = firAt g (periodic N (periodAvg N (S / N) fun t => withPast [] yl (t + (roots.length + 2)))) (roots.length + i) := by
      intro g dd i h
      rw [eqAt, h, range_zero, sum_empty, sub_zero, firAt]
      refine sum_congr rfl fun k _ => ?_
      congr 2
    have e2 : ∀ i : ℕ, x (((roots.length + 0 + i : ℕ) : ℤ) + ph) = x (roots.length + i + ph) := by
      intro i; congr 1
    refine le_of_eq_of_le (sum_congr rfl fun i _ => ?_) (this.trans_eq (sum_congr rfl fun i _ => ?_))
    · rw [e _ _ _ k4]; exact congrArg (fun v => (_ - v) ^ 2) (e2 i).symm
    · rw [e _ _ _ rfl]; exact congrArg (fun v => (_ - v) ^ 2) (e2 i)
  · obtain ⟨dut, y2, z2, t1, t2, t3⟩ := eq_test_tail (yl.drop ((npPoly roots).length + 1)) r.ffe (by rw [hol]; omega) (by omega)
    -- the main tap is the first one
    have hne : (npPoly roots).map (fun v => |v|) ≠ [] := by
      intro h; have := congrArg List.length h; rw [List.length_map, hl] at this; simp at this
    have hmax : ∀ v ∈ npPoly roots, |v| ≤ 1 := by
      intro v hv
      have := maxL_le ((npPoly roots).map fun v => |v|) |v| (List.mem_map.2 ⟨v, hv, rfl⟩)
      rwa [hacc, npPoly_zero] at this
    have hhead : ∃ l, npPoly roots = 1 :: l := by
      have h0 := npPoly_zero roots
      cases hq : npPoly roots with
      | nil => rw [hq] at hl; simp at hl
      | cons a l => rw [hq] at h0; exact ⟨l, by rw [List.getD_cons_zero] at h0; rw [h0]⟩
    obtain ⟨l, hq⟩ := hhead
    have harg : argmax ((npPoly roots).map fun v => |v|) = 0 := by
      rcases Nat.eq_zero_or_pos (argmax ((npPoly roots).map fun v => |v|)) with h | h
      · exact h
      · obtain ⟨v, hv, hv2⟩ := argmax_first _ 0 h (by rw [List.length_map, hl]; omega)
        rw [List.mem_map] at hv
        obtain ⟨w, hw, rfl⟩ := hv
        have := hmax w hw
        simp only [List.getElem_map, hq, List.getElem_cons_zero, abs_one] at hv2
        exact absurd this (not_le.2 hv2)
    have hmx : maxL (npPoly roots) = 1 := by
      refine le_antisymm ?_ (maxL_le _ _ (by rw [hq]; simp))
      exact (le_abs_self _).trans (hmax _ (maxL_mem _ (by rw [hq]; simp)))
    rw [equalizationPrbsTest]
    simp only [bind, Except.bind]
    rw [genPattern_eq p bits hd c hc]
    simp only []
    rw [h1]
    simp only []
    rw [harg, npPoly_zero, hmx]
    rw [show decide ((1 : ℝ) ≠ 1) = false from by simp, show (npPoly roots).length - 0 - 1 = roots.length by omega, k2]
    simp only []
    rw [if_neg (by rw [k3, hl]; simp)]
    simp only [pure, Except.pure]
    by_cases hv : ∀ i < (npPoly roots).length, |(npPoly roots).getD i 0 - r.ffe.getD i 0| < 5 / 1000
    · rw [if_pos hv, t1]
      simp only []
      rw [t2]
      simp only []
      rw [t3, if_neg (by simp)]
      refine congrArg Except.ok ?_
      rw [decide_eq_true (fun i _ => npIsclose_refl _)]
      rw [hl] at hv
      exact (decide_eq_true hv).symm
    · rw [if_neg hv]
      refine congrArg Except.ok ?_
      rw [hl] at hv
      exact (decide_eq_false hv).symm

/-- levels: largest magnitude and distance -/
theorem ref_levels (p : PrbsEnum) (c : Constellation) (hc : c ≠ .pam3) (roots : List ℝ) (hopen : OpenEye c roots) :
    ∃ X δ : ℝ, 0 ≤ X ∧ 2 * ((poleGain roots - 1) * X) < δ ∧ (∀ z, |refZ p c false false false false false z| ≤ X) ∧
      ∀ z w, δ * |refZ p c false false false false false z - refZ p c false false false false false w|
        ≤ (refZ p c false false false false false z - refZ p c false false false false false w) ^ 2 := by
  have hu := uSeq_cases p (onesSeed p)
  cases c with
  | pam3 => exact absurd rfl hc
  | nrz =>
    have ho : poleGain roots < 2 := hopen
    refine ⟨1, 2, by norm_num, by linarith, fun z => ?_, fun z w => ?_⟩
    · rw [refZ_nrz]; rcases hu z with h | h <;> rw [h] <;> norm_num
    · rw [refZ_nrz, refZ_nrz]; rcases hu z with h | h <;> rcases hu w with h' | h' <;> rw [h, h'] <;> norm_num
  | ook =>
    have ho : poleGain roots < 3 / 2 := hopen
    refine ⟨1, 1, by norm_num, by linarith, fun z => ?_, fun z w => ?_⟩
    · rw [refZ_ook]; rcases hu z with h | h <;> rw [h] <;> norm_num
    · rw [refZ_ook, refZ_ook]; rcases hu z with h | h <;> rcases hu w with h' | h' <;> rw [h, h'] <;> norm_num
  | pam4 =>
    have ho : poleGain roots < 4 / 3 := hopen
    have hv : ∀ z, refZ p .pam4 false false false false false z = 3 ∨ refZ p .pam4 false false false false false z = 1 ∨
        refZ p .pam4 false false false false false z = -1 ∨ refZ p .pam4 false false false false false z = -3 := by
      intro z
      rw [refZ_pam4, twoTap]
      rcases hu (2 * z + 1) with h | h <;> rcases hu (2 * z + 0) with h' | h' <;> rw [h, h'] <;> norm_num
    refine ⟨3, 2, by norm_num, by linarith, fun z => ?_, fun z w => ?_⟩
    · rcases hv z with h | h | h | h <;> rw [h] <;> norm_num [abs_le]
    · rcases hv z with h | h | h | h <;> rcases hv w with h' | h' | h' | h' <;> rw [h, h'] <;> norm_num [abs_of_neg, abs_of_pos]

/-- if the symbols at the locked phase are the symbols sent, the test succeeds -/
theorem eq_test_of_lock (ls : Solver ℝ) (p : PrbsEnum) (bits : List Int) (hd : csvData p = some bits) (c : Constellation)
    (hc : c ≠ .pam3) (roots : List ℝ) (hr0 : 0 < roots.length) (hroots : roots.length ≤ 8) (hacc : arAccepted roots) (reps cutoff : ℕ)
    (hlen : (2 ^ p.value - 1) + (roots.length + 2) + cutoff ≤ reps * (2 ^ p.value - 1))
    (hls : IsLs (solveWith ls .none 0) (roots.length + 1))
    (hbest : ∀ (y : ℤ → ℝ) (ph : ℕ), (∀ n < 0, y n = 0) → (∀ n : ℤ, 0 ≤ n → n < (reps * (2 ^ p.value - 1) - cutoff : ℕ) →
        firAt (npPoly roots) y n = periodic (2 ^ p.value - 1)
          (txLevel c false false false false false (bitAt (getPolynomial p) (onesSeed p))) n) →
      BestPhase (periodic (2 ^ p.value - 1) (txLevel c false false false false false (bitAt (getPolynomial p) (onesSeed p))))
        (fun t => y (t + (roots.length + 2))) (min ((if c = .pam4 then 1 else 2) * (2 ^ p.value - 1))
          (reps * (2 ^ p.value - 1) - cutoff - (roots.length + 2))) ph →
      ∀ t : ℕ, t < 2 ^ p.value - 1 → periodic (2 ^ p.value - 1)
          (txLevel c false false false false false (bitAt (getPolynomial p) (onesSeed p))) (t + ph)
        = periodic (2 ^ p.value - 1) (txLevel c false false false false false (bitAt (getPolynomial p) (onesSeed p)))
          (t + (roots.length + 2))) :
    equalizationPrbsTest ls p bits c roots reps cutoff = .ok true := by
  classical
  have hN := period_ge p
  obtain ⟨y, ph, f, h1, h2, h3, h4, h5, h6⟩ := C96_verdict ls p bits hd c hc roots hroots hacc reps cutoff hlen hls
  have hx := hbest y ph h1 h2 h3
  rw [h6]
  refine congrArg Except.ok (decide_eq_true ?_)
  obtain ⟨N, hNd⟩ : ∃ N, N = 2 ^ p.value - 1 := ⟨_, rfl⟩
  obtain ⟨x, hxd⟩ : ∃ x, x = periodic (2 ^ p.value - 1)
    (txLevel c false false false false false (bitAt (getPolynomial p) (onesSeed p))) := ⟨_, rfl⟩
  have hxz : ∀ t : ℤ, x t = refZ p c false false false false false (t : ZMod (2 ^ p.value - 1)) := by
    rw [hxd]; exact fun t => refZ_int p c _ _ _ _ _ t
  obtain ⟨S, hSd⟩ : ∃ S, S = reps * (2 ^ p.value - 1) - cutoff - (roots.length + 2) := ⟨_, rfl⟩
  obtain ⟨m, hmd⟩ : ∃ m, m = periodic (2 ^ p.value - 1) (periodAvg (2 ^ p.value - 1) (S / (2 ^ p.value - 1))
    fun t => y (t + ((roots.length : ℤ) + 2))) := ⟨_, rfl⟩
  simp only [← hxd, ← hSd] at hx h2 h5
  simp only [← hmd] at h5
  obtain ⟨A, hA⟩ : ∃ A, A = npPoly roots := ⟨_, rfl⟩
  have hAl : A.length = roots.length + 1 := by rw [hA, npPoly_length]
  rw [← hA] at h2 ⊢
  -- the averaged period
  have hreps : 0 < S / (2 ^ p.value - 1) := Nat.div_pos (by omega) (by omega)
  have hm : ∀ t : ℤ, 0 ≤ t → t < (2 ^ p.value - 1 : ℕ) → m t = (∑ r ∈ range (S / (2 ^ p.value - 1)),
      y (r * ((2 ^ p.value - 1 : ℕ) : ℤ) + t + (roots.length + 2))) / (S / (2 ^ p.value - 1) : ℕ) := by
    intro t h0 ht
    rw [hmd, periodic, Int.emod_eq_of_lt h0 ht, periodAvg]
    congr 1
    refine sum_congr rfl fun r _ => ?_
    congr 1
    push_cast [Int.toNat_of_nonneg h0]
    ring
  have hAm : ∀ t : ℤ, roots.length ≤ t → t < (2 ^ p.value - 1 : ℕ) → firAt A m t = x (t + (roots.length + 2)) := by
    intro t h0 ht
    rw [firAt]
    have e : ∀ k ∈ range A.length, A.getD k 0 * m (t - k) = ∑ r ∈ range (S / (2 ^ p.value - 1)),
        A.getD k 0 * y (r * ((2 ^ p.value - 1 : ℕ) : ℤ) + t + (roots.length + 2) - k) / (S / (2 ^ p.value - 1) : ℕ) := by
      intro k hk
      rw [mem_range, hAl] at hk
      rw [hm (t - k) (by omega) (by omega), ← sum_div, ← mul_sum, mul_div_assoc]
      have e0 : ∀ r : ℕ, (r : ℤ) * ((2 ^ p.value - 1 : ℕ) : ℤ) + (t - k) + (roots.length + 2)
          = r * ((2 ^ p.value - 1 : ℕ) : ℤ) + t + (roots.length + 2) - k := fun r => by ring
      simp only [e0]
    rw [sum_congr rfl e, sum_comm]
    have e2 : ∀ r ∈ range (S / (2 ^ p.value - 1)), ∑ k ∈ range A.length,
        A.getD k 0 * y (r * ((2 ^ p.value - 1 : ℕ) : ℤ) + t + (roots.length + 2) - k) / ((S / (2 ^ p.value - 1) : ℕ) : ℝ)
        = x (t + (roots.length + 2)) / (S / (2 ^ p.value - 1) : ℕ) := by
      intro r hr
      rw [mem_range] at hr
      have hle : r * (2 ^ p.value - 1) + (2 ^ p.value - 1) ≤ S := by
        calc r * (2 ^ p.value - 1) + (2 ^ p.value - 1) = (r + 1) * (2 ^ p.value - 1) := by ring
          _ ≤ S / (2 ^ p.value - 1) * (2 ^ p.value - 1) := Nat.mul_le_mul_right _ hr
          _ ≤ S := Nat.div_mul_le_self _ _
      have h7 := h2 (r * ((2 ^ p.value - 1 : ℕ) : ℤ) + t + (roots.length + 2))
        (by have : (0 : ℤ) ≤ r * ((2 ^ p.value - 1 : ℕ) : ℤ) := by positivity
            omega) (by
        have : ((r * (2 ^ p.value - 1) : ℕ) : ℤ) = r * ((2 ^ p.value - 1 : ℕ) : ℤ) := by push_cast; ring
        omega)
      rw [firAt] at h7
      rw [← sum_div, h7, hxz, hxz]
      congr 2
      rw [Int.cast_add, Int.cast_add, Int.cast_mul, Int.cast_natCast (2 ^ p.value - 1), ZMod.natCast_self, mul_zero, zero_add,
        ← Int.cast_add]
    rw [sum_congr rfl e2, sum_const, card_range, nsmul_eq_mul]
    field_simp
  -- the drawn polynomial has no error, so neither have the taps
  have h7 := h5 A hAl
  have hzero : ∀ i ∈ range (2 ^ p.value - 1 - roots.length - 1), (firAt A m (roots.length + i) - x (roots.length + i + ph)) ^ 2 = 0 := by
    intro i hi
    rw [mem_range] at hi
    have e := hx (roots.length + i) (by omega)
    push_cast at e
    rw [hAm _ (by omega) (by omega), e, sub_self]
    norm_num
  rw [sum_eq_zero hzero] at h7
  have hf : ∀ t : ℤ, roots.length ≤ t → t + 1 < (2 ^ p.value - 1 : ℕ) → firAt f m t = x (t + (roots.length + 2)) := by
    intro t h0 ht
    obtain ⟨i, hi⟩ := Int.eq_ofNat_of_zero_le (sub_nonneg.2 h0)
    obtain rfl : t = roots.length + i := by omega
    have h8 := (sum_eq_zero_iff_of_nonneg (fun _ _ => sq_nonneg _)).1
      (le_antisymm h7 (sum_nonneg (fun _ _ => sq_nonneg _))) i (mem_range.2 (by omega))
    have h9 := sub_eq_zero.1 ((pow_eq_zero_iff two_ne_zero).1 h8)
    have e := hx (roots.length + i) (by omega)
    push_cast at e
    rw [h9, e]
  -- so the difference of the taps vanishes
  have hg := ref_window_rank p c hc x hxz (fun j => f.getD j 0 - A.getD j 0) (by
    intro n h0 hn
    have hsplit : ∑ j ∈ range 9, (f.getD j 0 - A.getD j 0) * x (n - j)
        = ∑ j ∈ range (roots.length + 1), (f.getD j 0 - A.getD j 0) * x (n - j) := by
      symm
      refine sum_subset (range_subset_range.2 (by omega)) fun j _ hj => ?_
      rw [mem_range, not_lt] at hj
      rw [getD_of_le 0 f (by omega), getD_of_le 0 A (by omega), sub_self, zero_mul]
    rw [hsplit]
    have e1 : ∀ j ∈ range (roots.length + 1), (f.getD j 0 - A.getD j 0) * x (n - j)
        = ∑ k ∈ range (roots.length + 1), A.getD k 0 * ((f.getD j 0 - A.getD j 0) * m (n - (roots.length + 2) - k - j)) := by
      intro j hj
      rw [mem_range] at hj
      have := hAm (n - (roots.length + 2) - j) (by omega) (by omega)
      rw [firAt, hAl] at this
      rw [show n - (j : ℤ) = n - (roots.length + 2) - j + (roots.length + 2) by ring, ← this, mul_sum]
      refine sum_congr rfl fun k _ => ?_
      rw [show n - ((roots.length : ℤ) + 2) - j - k = n - (roots.length + 2) - k - j by ring]
      ring
    rw [sum_congr rfl e1, sum_comm]
    refine sum_eq_zero fun k hk => ?_
    rw [mem_range] at hk
    have e2 := hf (n - (roots.length + 2) - k) (by omega) (by omega)
    have e3 := hAm (n - (roots.length + 2) - k) (by omega) (by omega)
    rw [firAt, h4] at e2
    rw [firAt, hAl] at e3
    rw [← mul_sum]
    simp only [sub_mul]
    rw [sum_sub_distrib, e2, e3, sub_self, mul_zero])
  intro i hi
  have := hg i (by omega)
  rw [abs_sub_comm, this, abs_zero]
  norm_num

/-- **C96** (partial: for poles that cannot close the eye; see `C96_negative`). The test succeeds in exact arithmetic for
NRZ with any number of repetitions, for four levels with any number, and for OOK with at least three, if the poles are so
small that the interference stays below half the distance of the levels. -/
theorem C96_success_partial (ls : Solver ℝ) (p : PrbsEnum) (bits : List Int) (hd : csvData p = some bits) (c : Constellation)
    (hc : c ≠ .pam3) (roots : List ℝ) (hr0 : 0 < roots.length) (hroots : roots.length ≤ 8) (hhalf : ∀ r ∈ roots, |r| ≤ 1 / 2)
    (hacc : arAccepted roots) (hopen : OpenEye c roots) (reps cutoff : ℕ) (hreps : 2 ≤ reps)
    (hcut : 2 * cutoff ≤ 2 ^ p.value - 1) (h3 : c = .ook → 3 ≤ reps) (hls : IsLs (solveWith ls .none 0) (roots.length + 1)) :
    equalizationPrbsTest ls p bits c roots reps cutoff = .ok true := by
  have hN := period_ge p
  have hr2 : 2 * (2 ^ p.value - 1) ≤ reps * (2 ^ p.value - 1) := Nat.mul_le_mul_right _ hreps
  have hr1 : ∀ r ∈ roots, |r| < 1 := fun r hr => lt_of_le_of_lt (hhalf r hr) (by norm_num)
  refine eq_test_of_lock ls p bits hd c hc roots hr0 hroots hacc reps cutoff (by omega) hls ?_
  intro y ph hy0 hy hb t ht
  obtain ⟨X, δ, hX, hδ, hmag, hlev⟩ := ref_levels p c hc roots hopen
  obtain ⟨W, hW⟩ : ∃ W, W = min ((if c = .pam4 then 1 else 2) * (2 ^ p.value - 1))
    (reps * (2 ^ p.value - 1) - cutoff - (roots.length + 2)) := ⟨_, rfl⟩
  obtain ⟨x, hxd⟩ : ∃ x, x = periodic (2 ^ p.value - 1)
    (txLevel c false false false false false (bitAt (getPolynomial p) (onesSeed p))) := ⟨_, rfl⟩
  have hxz : ∀ t : ℤ, x t = refZ p c false false false false false (t : ZMod (2 ^ p.value - 1)) := by
    rw [hxd]; exact fun t => refZ_int p c _ _ _ _ _ t
  rw [← hW, ← hxd] at hb
  rw [← hxd] at hy ⊢
  have hWN : 2 ^ p.value - 1 ≤ W := by
    rw [hW]
    refine le_min ?_ (by omega)
    split_ifs <;> omega
  have hWS : W ≤ reps * (2 ^ p.value - 1) - cutoff - (roots.length + 2) := by rw [hW]; exact min_le_right _ _
  have hisi := poles_isi roots hr1 y x (reps * (2 ^ p.value - 1) - cutoff : ℕ) X hX hy0 (fun n _ _ => by rw [hxz]; exact hmag _)
    (fun n h0 hn => by rw [← firAt_npPoly]; exact hy n h0 hn)
  refine bestPhase_open x (fun t : ℕ => y (t + ((roots.length : ℤ) + 2))) W (roots.length + 2) ph ((poleGain roots - 1) * X) δ hδ
    (fun a b => by rw [hxz, hxz]; exact hlev _ _) (fun t ht => hisi _ (by positivity) (by omega)) ?_ hb t (by omega)
  -- the power of the window does not depend on the phase
  by_cases hnrz : c = .nrz
  · subst hnrz
    have : ∀ k : ℤ, ∑ i ∈ range W, x (i + k) ^ 2 = W := by
      intro k
      rw [sum_congr rfl (g := fun _ => (1 : ℝ)) (fun i _ => by
        rw [hxz, refZ_nrz]
        rcases uSeq_cases p (onesSeed p) (((i : ℤ) + k : ℤ) : ZMod (2 ^ p.value - 1)) with h | h <;> rw [h] <;> norm_num)]
      simp
    rw [this, this]
  · obtain ⟨q, hq⟩ : ∃ q, W = q * (2 ^ p.value - 1) := by
      refine ⟨if c = .pam4 then 1 else 2, ?_⟩
      rw [hW]
      refine min_eq_left ?_
      by_cases h4 : c = .pam4
      · rw [if_pos h4]; omega
      · rw [if_neg h4]
        have hook : c = .ook := by cases c <;> simp_all
        have : 3 * (2 ^ p.value - 1) ≤ reps * (2 ^ p.value - 1) := Nat.mul_le_mul_right _ (h3 hook)
        omega
    have : ∀ k : ℤ, ∑ i ∈ range W, x (i + k) ^ 2 = q * ∑ z, refZ p c false false false false false z ^ 2 := by
      intro k
      have hz := sum_range_zmod (fun z : ZMod (2 ^ p.value - 1) =>
        refZ p c false false false false false (z + (k : ZMod (2 ^ p.value - 1))) ^ 2) q
      rw [← hq] at hz
      rw [← Equiv.sum_comp (Equiv.addRight (k : ZMod (2 ^ p.value - 1)))]
      refine Eq.trans ?_ hz
      refine sum_congr rfl fun i _ => ?_
      rw [hxz]; push_cast; rfl
    rw [this, this]

end Verif
