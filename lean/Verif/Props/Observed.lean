import Verif.Props.EstimPrbs
import Verif.Props.Eye

/-! Further disagreements between documentation and code: C57 (amplitude axis), C68 (`pn_inv_postcoding`). -/

open Finset

namespace Verif

open Spec (unitScale flipBit txLevel periodic chanOut popVar MainTap IsLs periodAvg BestPhase eyeEdge)

/-- **C57** (the axis does not label the bins). Value `k` of the returned amplitude axis is the centre of amplitude bin
`k` only for the middle bin of an odd number of bins. -/
theorem C57_negative_axis (x : List ℝ) (osrIn osrDiag q : ℕ) (fs : ℝ) (lg : Bool) (eye : List (List ℝ)) (amp : List ℝ)
    (hq : 2 ≤ q) (hfs : 0 < fs) (h : eyeDiagram x osrIn osrDiag fs q lg = .ok (eye, amp)) (k : ℕ) (hk : k < q) :
    amp.getD k 0 = (eyeEdge fs q k + eyeEdge fs q (k + 1)) / 2 ↔ 2 * k + 1 = q := by
  have ha : amp = linspace (-1 * fs) fs q := by
    unfold eyeDiagram at h
    rcases hs : eyeSignal x osrIn osrDiag with e | s
    · rw [hs] at h; cases h
    · rw [hs] at h
      change ((eyeColumns s osrDiag q fs).bind _) = _ at h
      rcases hc : eyeColumns s osrDiag q fs with e | c
      · rw [hc] at h; cases h
      · rw [hc] at h; cases h; rfl
  have hg : amp.getD k 0 = -fs + (k : ℝ) * (2 * fs / ((q : ℝ) - 1)) := by
    obtain ⟨p, rfl⟩ : ∃ p, q = p + 1 := ⟨q - 1, by omega⟩
    rw [ha, linspace_getD _ _ p k (by omega) (by omega)]
    push_cast
    ring
  have hq1 : (0 : ℝ) < (q : ℝ) - 1 := by
    have : (2 : ℝ) ≤ q := by exact_mod_cast hq
    linarith
  have hq0 : (0 : ℝ) < q := by linarith
  rw [hg]
  have e : (-fs + (k : ℝ) * (2 * fs / ((q : ℝ) - 1))) - (eyeEdge fs q k + eyeEdge fs q (k + 1)) / 2
      = fs * ((2 * k + 1) - q) / (q * ((q : ℝ) - 1)) := by
    unfold eyeEdge
    push_cast
    field_simp
    ring
  rw [← sub_eq_zero, e, div_eq_zero_iff, mul_eq_zero]
  constructor
  · rintro ((h | h) | h)
    · exact absurd h hfs.ne'
    · rw [sub_eq_zero] at h; exact_mod_cast h
    · exact absurd h (mul_pos hq0 hq1).ne'
  · intro h
    left; right
    rw [sub_eq_zero]
    exact_mod_cast h

/-- the default number of bins is even: no axis value is a bin centre -/
example (k : ℕ) : 2 * k + 1 ≠ 256 := by omega

/-- **C68** (negation of "`pn_inv_postcoding`: P and N were flipped in the capture"). Every supported PRBS as NRZ, received
inverted and otherwise undistorted, with the flag set: instead of the unit tap the estimator returns a tap below 1/100,
at a wrong phase. (Without inversion the tap is above one, `C68_gain`.) -/
theorem C68_negative_postcoding (ls : Solver ℝ) (p : PrbsEnum) (b : ℕ → ℤ)
    (hb : Spec.LfsrStream (getPolynomial p) (List.replicate p.value 1) b) (signal : List ℝ)
    (hlen : signal.length = 2 * (2 ^ p.value - 1))
    (hs : ∀ t < signal.length, signal.getD t 0
      = periodic (2 ^ p.value - 1) (txLevel .nrz false false false false true b) t)
    (hls : IsLs (solveWith ls .none 0) 1) :
    ∃ y e, channelEstimationPrbs ls p signal .nrz false 0 0 false false false false true = .ok (some ([y], e)) ∧
      0 < y ∧ y < 1 / 100 := by
  have hN1 := period_ge p
  have hN : 0 < 2 ^ p.value - 1 := by omega
  have : NeZero (2 ^ p.value - 1) := ⟨hN.ne'⟩
  have hbe := lfsrStream_unique hb (lfsrStream_bitAt _ _ (by rw [poly_length]; simp))
  obtain rfl := hbe
  set N := 2 ^ p.value - 1 with hNd
  set x := periodic N (txLevel .nrz false false false false false (bitAt (getPolynomial p) (List.replicate p.value 1))) with hxd
  set u := uSeq p (onesSeed p) with hud
  have hx : ∀ t : ℤ, x t = u (t : ZMod N) := by
    intro t
    rw [hxd]
    have := refZ_int p .nrz false false false false false t
    show periodic (2 ^ p.value - 1) (txLevel .nrz false false false false false
      (bitAt (getPolynomial p) (onesSeed p))) t = _
    rw [this, refZ, hud, uSeq]
    simp [txLevel, flipBit, unitScale]
  have hsx : ∀ t < signal.length, signal.getD t 0 = - u (t : ZMod N) := by
    intro t ht
    rw [hs t ht]
    have := hx t
    rw [Int.cast_natCast] at this
    rw [← this, hxd]
    simp only [periodic, txLevel]
    simp
  have hcorr := uSeq_corr p (onesSeed p) (by simp) (onesSeed_ne p)
  have hu1 := uSeq_sum p (onesSeed p) (by simp) (onesSeed_ne p)
  have hdiv : signal.length / N = 2 := by rw [hlen]; exact Nat.mul_div_cancel _ hN
  have hm : ∀ t < N, periodAvg N (signal.length / N) (fun t => signal.getD t 0) t = - u (t : ZMod N) := by
    intro t ht
    rw [hdiv, periodAvg, sum_range_succ, sum_range_succ, sum_range_zero]
    rw [hsx _ (by omega), hsx _ (by omega)]
    push_cast
    simp
  set m := periodAvg N (signal.length / N) (fun t => signal.getD t 0) with hmd
  have hvar : popVar N m = 1 - 1 / (N : ℝ) ^ 2 := by
    have hN' : (N : ℝ) ≠ 0 := by exact_mod_cast hN.ne'
    rw [popVar_eq N hN, sum_congr rfl (fun t ht => show m t ^ 2 = 1 by
      rw [hm t (mem_range.1 ht), neg_sq, pow_two, hud, uSeq_sq]),
      sum_congr rfl (fun t ht => hm t (mem_range.1 ht)), sum_neg_distrib, zmod_sum_cast N u, hu1]
    simp
    field_simp
  have hNr : (127 : ℝ) ≤ (N : ℝ) := by exact_mod_cast hN1
  have hvp : 0 < popVar N m := by
    rw [hvar]
    have : 1 / (N : ℝ) ^ 2 < 1 := by rw [div_lt_one (by positivity)]; nlinarith
    linarith
  obtain ⟨ph, h, e, hbp, hl, hmin, g, hg1, hg2, hret⟩ := C68_optimal ls p .nrz (by decide) false false false false true false
    _ hb 0 0 (by omega) signal (by omega) hls hvp
  obtain ⟨y, rfl⟩ : ∃ y, h = [y] := List.length_eq_one_iff.1 hl
  refine ⟨y, e, hret, ?_⟩
  -- the phase is wrong
  have hlm : min ((if Constellation.nrz = .pam4 then 1 else 2) * (2 ^ p.value - 1)) signal.length = N + N := by
    rw [if_neg (by decide), hlen, Nat.min_self]; omega
  rw [hlm] at hbp
  have hcs : ∀ k : ℤ, ∑ i ∈ range (N + N), x (i + k) * signal.getD i 0
      = - (2 * if (k : ZMod N) = 0 then (N : ℝ) else -1) := by
    intro k
    have e1 : ∀ i ∈ range (N + N), x (i + k) * signal.getD i 0 = - (u (i : ZMod N) * u ((i : ZMod N) + (k : ZMod N))) := by
      intro i hi
      rw [mem_range] at hi
      rw [hsx i (by omega), hx]
      push_cast
      ring
    rw [sum_congr rfl e1, sum_neg_distrib, sum_range_add]
    have e2 : ∑ i ∈ range N, u ((N + i : ℕ) : ZMod N) * u (((N + i : ℕ) : ZMod N) + (k : ZMod N))
        = ∑ i ∈ range N, u (i : ZMod N) * u ((i : ZMod N) + (k : ZMod N)) := by
      refine sum_congr rfl (fun i _ => ?_)
      push_cast
      simp
    rw [e2, zmod_sum_cast N (fun z => u z * u (z + (k : ZMod N))), hcorr]
    ring
  have hph : (ph : ZMod N) ≠ 0 := by
    intro h0
    have := hbp 1
    rw [hcs, hcs, Int.cast_natCast, if_pos h0, if_neg (by
      rw [Int.cast_one]
      have : Fact (1 < N) := ⟨by omega⟩
      exact one_ne_zero)] at this
    linarith
  -- the minimiser
  set v := popVar N m with hvd
  have hobj : ∀ c : ℝ, ∑ t ∈ range N, (chanOut [c] 0 (fun s => x (s + ph)) t - m t / v) ^ 2
      = N * c ^ 2 - 2 * c / v + N / v ^ 2 := by
    intro c
    have e1 : ∀ t ∈ range N, (chanOut [c] 0 (fun s => x (s + ph)) t - m t / v) ^ 2
        = c ^ 2 + 2 * c / v * (u (t : ZMod N) * u ((t : ZMod N) + (ph : ZMod N))) + 1 / v ^ 2 := by
      intro t ht
      rw [hm t (mem_range.1 ht)]
      simp only [chanOut, List.length_singleton, sum_range_one, List.getD_cons_zero]
      rw [show x ((t : ℤ) + ((0 : ℕ) : ℤ) - ((0 : ℕ) : ℤ) + ph) = u ((t : ZMod N) + (ph : ZMod N)) by
        rw [hx]; push_cast; simp]
      have h1 := uSeq_sq p (onesSeed p) (t : ZMod N)
      have h2 := uSeq_sq p (onesSeed p) ((t : ZMod N) + (ph : ZMod N))
      rw [← hud] at h1 h2
      field_simp
      linear_combination c ^ 2 * v ^ 2 * h2 + h1
    rw [sum_congr rfl e1, sum_add_distrib, sum_add_distrib, ← mul_sum,
      zmod_sum_cast N (fun z => u z * u (z + (ph : ZMod N))), hcorr, if_neg hph]
    simp
    ring
  have hopt := hmin [1 / (N * v)] rfl
  rw [hobj, hobj] at hopt
  have hNp : (0 : ℝ) < N := by linarith
  have hy : y = 1 / (N * v) := by
    have e2 : (N : ℝ) * (y - 1 / (N * v)) ^ 2 ≤ 0 := by
      have : (N : ℝ) * (y - 1 / (N * v)) ^ 2 = (N * y ^ 2 - 2 * y / v + N / v ^ 2)
          - (N * (1 / (N * v)) ^ 2 - 2 * (1 / (N * v)) / v + N / v ^ 2) := by
        field_simp
        ring
      rw [this]
      linarith
    have e3 : (y - 1 / (N * v)) ^ 2 = 0 := by
      have := sq_nonneg (y - 1 / (N * v))
      nlinarith
    exact sub_eq_zero.1 (pow_eq_zero_iff (two_ne_zero) |>.1 e3)
  rw [hy]
  refine ⟨by positivity, ?_⟩
  rw [div_lt_div_iff₀ (by positivity) (by norm_num)]
  have : 1 / (N : ℝ) ^ 2 ≤ 1 / 127 ^ 2 := by
    apply one_div_le_one_div_of_le (by norm_num)
    nlinarith
  rw [hvar]
  nlinarith

/-- The hypotheses can be met for every supported PRBS: a least squares solver and the inverted capture exist. -/
example (p : PrbsEnum) : ∃ (ls : Solver ℝ) (b : ℕ → ℤ) (signal : List ℝ),
    IsLs (solveWith ls .none 0) 1 ∧ Spec.LfsrStream (getPolynomial p) (List.replicate p.value 1) b ∧
    signal.length = 2 * (2 ^ p.value - 1) ∧ ∀ t < signal.length, signal.getD t 0
      = periodic (2 ^ p.value - 1) (txLevel .nrz false false false false true b) t := by
  obtain ⟨ls, hls⟩ := C58_solver (K := ℝ) 1
  refine ⟨ls, bitAt (getPolynomial p) (List.replicate p.value 1), (List.range (2 * (2 ^ p.value - 1))).map (fun t : ℕ => periodic (2 ^ p.value - 1)
    (txLevel .nrz false false false false true (bitAt (getPolynomial p) (List.replicate p.value 1))) t), hls, lfsrStream_bitAt _ _ (by rw [poly_length]; simp), by simp, ?_⟩
  intro t ht
  rw [List.length_map, List.length_range] at ht
  rw [map_range_getD _ _ _ _ ht]

end Verif
