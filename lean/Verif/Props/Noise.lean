import Verif.Lemmas.Noise
import Mathlib.Tactic.NormNum

/-! Property theorems C59 (noise scaling) and C67 (power and RMS). -/

open Finset

namespace Verif

open Spec (avg meanPower unbiasedVar)

/-! ### C59 -/

/-- **C59.** For every signal of at least two samples and every SNR, the noise variance `s²` used by `awgn` satisfies
`P = s² 10^(snr/10)`, where `P` is the unbiased variance plus the squared mean; for a signal that is not identically
zero, `P/s²` is the requested ratio. The output is the signal plus `s` times the standard normal samples. -/
theorem C59_ratio (l noise : List ℝ) (snr : ℝ) (hl : 2 ≤ l.length) (hn : noise.length = l.length) :
    ∃ s y, awgnStd l snr = some s ∧ awgn noise l snr = some y ∧ y.length = l.length ∧
      (∀ n : ℕ, n < l.length → y.getD n 0 = l.getD n 0 + s * noise.getD n 0) ∧ 0 ≤ s ∧
      unbiasedVar l.length (fun n => l.getD n 0) + avg l.length (fun n => l.getD n 0) ^ 2
        = s ^ 2 * (10 : ℝ) ^ (snr / 10) ∧
      ((∃ x ∈ l, x ≠ 0) → 0 < s ∧
        (unbiasedVar l.length (fun n => l.getD n 0) + avg l.length (fun n => l.getD n 0) ^ 2) / s ^ 2
          = (10 : ℝ) ^ (snr / 10)) := by
  set x : ℕ → ℝ := fun n => l.getD n 0 with hx
  set P := unbiasedVar l.length x + avg l.length x ^ 2 with hP
  have hg : (0 : ℝ) < (10 : ℝ) ^ (snr / 10) := Real.rpow_pos_of_pos (by norm_num) _
  obtain ⟨e1, e2⟩ := estimate_bounds l.length hl x
  have hN1 : (0 : ℝ) < (l.length : ℝ) - 1 := by
    have : (2 : ℝ) ≤ l.length := by exact_mod_cast hl
    linarith
  have hPQ : meanPower l.length x ≤ P := by
    rw [hP, e1]
    have : 0 ≤ (meanPower l.length x - avg l.length x ^ 2) / ((l.length : ℝ) - 1) :=
      div_nonneg (by linarith) hN1.le
    linarith
  have hP0 : 0 ≤ P := (meanPower_nonneg _ _).trans hPQ
  have hs2 : Real.sqrt (P / (10 : ℝ) ^ (snr / 10)) ^ 2 = P / (10 : ℝ) ^ (snr / 10) :=
    Real.sq_sqrt (div_nonneg hP0 hg.le)
  have hstd : awgnStd l snr = some (Real.sqrt (P / (10 : ℝ) ^ (snr / 10))) := by
    rw [awgnStd, sigPowerHat_eq l hl]; rfl
  refine ⟨_, _, hstd, by rw [awgn, hstd]; rfl, ?_, ?_, Real.sqrt_nonneg _, ?_, ?_⟩
  · rw [List.length_zipWith, hn, min_self]
  · intro n hn'
    rw [zipWith_getD _ 0 0 0 _ _ (by omega) (by omega), zero_add]
  · rw [hs2]; field_simp
  · rintro ⟨v, hv, hv0⟩
    have hQ : 0 < meanPower l.length x := by
      obtain ⟨i, hi, rfl⟩ := List.mem_iff_getElem.1 hv
      refine div_pos ?_ (by linarith)
      refine lt_of_lt_of_le (pow_pos (abs_pos.2 hv0) 2) ?_
      rw [sq_abs]
      have := single_le_sum (f := fun n => x n ^ 2) (fun n _ => sq_nonneg _) (mem_range.2 hi)
      refine le_trans (le_of_eq ?_) this
      simp [hx, hi]
    have hPp : 0 < P := lt_of_lt_of_le hQ hPQ
    refine ⟨Real.sqrt_pos.2 (div_pos hPp hg), ?_⟩
    rw [hs2]
    field_simp

/-- A signal and noise meeting the hypotheses. -/
example : ∃ l noise : List ℝ, 2 ≤ l.length ∧ noise.length = l.length ∧ ∃ x ∈ l, x ≠ 0 :=
  ⟨[1, -3, 3], [0.1, -0.2, 0.7], by simp, by simp, 1, by simp, by norm_num⟩

/-- **C59.** The estimate compared with the actual mean power `Q` of the samples: it is `Q + (Q - mean²)/(N-1)`, hence
at least `Q` and at most `N/(N-1) Q`. -/
theorem C59_estimate (l : List ℝ) (hl : 2 ≤ l.length) :
    ∃ P, sigPowerHat l = some P ∧ meanPower l.length (fun n => l.getD n 0) ≤ P ∧
      P ≤ (l.length : ℝ) / (l.length - 1) * meanPower l.length (fun n => l.getD n 0) ∧
      (P = meanPower l.length (fun n => l.getD n 0) ↔ ∀ n < l.length, l.getD n 0 = avg l.length (fun n => l.getD n 0)) := by
  obtain ⟨e1, e2⟩ := estimate_bounds l.length hl (fun n => l.getD n 0)
  have hN1 : (0 : ℝ) < (l.length : ℝ) - 1 := by
    have : (2 : ℝ) ≤ l.length := by exact_mod_cast hl
    linarith
  refine ⟨_, sigPowerHat_eq l hl, ?_, ?_, ?_⟩
  · rw [e1]
    have : 0 ≤ (meanPower l.length (fun n => l.getD n 0) - avg l.length (fun n => l.getD n 0) ^ 2) / ((l.length : ℝ) - 1) :=
      div_nonneg (by linarith) hN1.le
    linarith
  · rw [e1]
    have h1 : (meanPower l.length (fun n => l.getD n 0) - avg l.length (fun n => l.getD n 0) ^ 2) / ((l.length : ℝ) - 1)
        ≤ meanPower l.length (fun n => l.getD n 0) / ((l.length : ℝ) - 1) := by
      refine div_le_div_of_nonneg_right ?_ hN1.le
      have := sq_nonneg (avg l.length (fun n => l.getD n 0)); linarith
    have h2 : (l.length : ℝ) / (l.length - 1) * meanPower l.length (fun n => l.getD n 0)
        = meanPower l.length (fun n => l.getD n 0) + meanPower l.length (fun n => l.getD n 0) / ((l.length : ℝ) - 1) := by
      field_simp; ring
    rw [h2]; linarith
  · have hs := sum_sq_dev l.length (by omega) (fun n => l.getD n 0)
    constructor
    · intro h
      rw [e1] at h
      have h0 : (meanPower l.length (fun n => l.getD n 0) - avg l.length (fun n => l.getD n 0) ^ 2) / ((l.length : ℝ) - 1) = 0 := by
        linarith
      rw [div_eq_zero_iff] at h0
      have h0' : meanPower l.length (fun n => l.getD n 0) - avg l.length (fun n => l.getD n 0) ^ 2 = 0 := by
        rcases h0 with h0 | h0
        · exact h0
        · linarith
      rw [← mul_sub, h0', mul_zero] at hs
      intro n hn
      have := (sum_eq_zero_iff_of_nonneg (fun n _ => sq_nonneg _)).1 hs n (mem_range.2 hn)
      exact sub_eq_zero.1 (pow_eq_zero_iff two_ne_zero |>.1 this)
    · intro h
      rw [sum_eq_zero (fun n hn => by rw [h n (mem_range.1 hn), sub_self]; ring)] at hs
      rw [e1]
      have hN0 : (l.length : ℝ) ≠ 0 := by linarith
      rw [← mul_sub] at hs
      rcases mul_eq_zero.1 hs.symm with h0 | h0
      · exact absurd h0 hN0
      · rw [h0, zero_div, add_zero]

/-- **C59** (negation for the actual power). For the two samples `1, -1` of mean power one, the noise variance at
0 dB is 2: the ratio of the actual signal power to the noise variance is one half instead of one. -/
theorem C59_negative_short :
    awgnStd [1, -1] 0 = some (Real.sqrt 2) ∧ meanPower 2 (fun n => ([1, -1] : List ℝ).getD n 0) = 1 := by
  constructor
  · rw [awgnStd, sigPowerHat]
    norm_num
  · norm_num [meanPower, sum_range_succ]

/-- **C59.** For fewer than two samples the result is NaN. -/
theorem C59_single (l noise : List ℝ) (snr : ℝ) (hl : l.length < 2) : awgn noise l snr = none := by
  rw [awgn, awgnStd, sigPowerHat, if_pos hl]; rfl

/-- **C59.** If the noise samples happen to have unit mean power, the mean power of what was added is exactly the
estimated signal power divided by the requested ratio. -/
theorem C59_measured (l noise y : List ℝ) (snr : ℝ) (hl : 2 ≤ l.length) (hn : noise.length = l.length)
    (hu : meanPower l.length (fun n => noise.getD n 0) = 1) (hy : awgn noise l snr = some y) :
    ∃ P, sigPowerHat l = some P ∧
      meanPower l.length (fun n => y.getD n 0 - l.getD n 0) * (10 : ℝ) ^ (snr / 10) = P := by
  obtain ⟨s, y', h1, h2, h3, h4, h5, h6, -⟩ := C59_ratio l noise snr hl hn
  rw [hy] at h2
  obtain rfl : y = y' := Option.some.inj h2
  refine ⟨_, sigPowerHat_eq l hl, ?_⟩
  rw [h6]
  congr 1
  have : meanPower l.length (fun n => y.getD n 0 - l.getD n 0)
      = s ^ 2 * meanPower l.length (fun n => noise.getD n 0) := by
    rw [meanPower, meanPower, ← mul_div_assoc, mul_sum]
    congr 1
    refine sum_congr rfl (fun n hn' => ?_)
    rw [h4 n (mem_range.1 hn')]; ring
  rw [this, hu, mul_one]

/-- **C59.** `awgn_channel` with an SNR scales the noise by the power of the channel output and returns the memory of the
noise-free channel. -/
theorem C59_channel (noise x b : List ℝ) (a : Denom ℝ) (snr : ℝ) (zi : Option (List ℝ)) (y z : List ℝ)
    (h : awgnChannelSnr noise x b a none zi = .ok (some y, z)) :
    awgnChannelSnr noise x b a (some snr) zi = .ok (awgn noise y snr, z) := by
  unfold awgnChannelSnr at h ⊢
  cases e : (@awgnChannel ℝ _ (Classical.propDecidable <| · = ·) x b a zi) with
  | error err => rw [e] at h; cases h
  | ok r => rw [e] at h; cases h; rfl

/-! ### C67 -/

/-- **C67.** `power` of a non-empty signal is the real number `Σ|x|²/N ≥ 0`, zero only for the zero signal, and
`rms` is its square root. -/
theorem C67_power (l : List ℂ) (hl : l ≠ []) :
    ∃ p : ℝ, power l = some (p : ℂ) ∧ rms l = some (Real.sqrt p) ∧
      p = (∑ n ∈ range l.length, ‖l.getD n 0‖ ^ 2) / l.length ∧ 0 ≤ p ∧ (p = 0 ↔ ∀ x ∈ l, x = 0) := by
  have hN : (0 : ℝ) < l.length := by exact_mod_cast List.length_pos_iff.2 hl
  have e : power l = some (((∑ n ∈ range l.length, ‖l.getD n 0‖ ^ 2) / l.length : ℝ) : ℂ) := by
    rw [power, if_neg (by simpa using hl), list_map_sum_getD]
    congr 1
    push_cast
    congr 1
    exact sum_congr rfl (fun n _ => by rw [Complex.mul_conj, Complex.normSq_eq_norm_sq]; push_cast; ring)
  refine ⟨_, e, by rw [rms, e, Option.map_some, Complex.ofReal_re], rfl, div_nonneg (sum_nonneg (fun _ _ => sq_nonneg _)) hN.le, ?_⟩
  rw [div_eq_zero_iff, or_iff_left hN.ne', sum_eq_zero_iff_of_nonneg (fun _ _ => sq_nonneg _)]
  constructor
  · intro h x hx
    obtain ⟨i, hi, rfl⟩ := List.mem_iff_getElem.1 hx
    have := h i (mem_range.2 hi)
    simpa [hi] using this
  · intro h n hn
    rw [h _ (mem_of_getD 0 l (mem_range.1 hn))]
    simp

/-- **C67.** Scaling by `c` scales the power by `|c|²` and the RMS by `|c|`. -/
theorem C67_scale (l : List ℂ) (c : ℂ) (hl : l ≠ []) :
    ∃ p r, power l = some p ∧ rms l = some r ∧ power (l.map (c * ·)) = some ((‖c‖ ^ 2 : ℝ) * p) ∧
      rms (l.map (c * ·)) = some (‖c‖ * r) := by
  obtain ⟨p, e1, e2, e3, e4, -⟩ := C67_power l hl
  have hl' : l.map (c * ·) ≠ [] := by simpa using hl
  obtain ⟨q, g1, g2, g3, g4, -⟩ := C67_power (l.map (c * ·)) hl'
  have hq : q = ‖c‖ ^ 2 * p := by
    rw [g3, e3, List.length_map, ← mul_div_assoc, mul_sum]
    congr 1
    refine sum_congr rfl (fun n hn => ?_)
    rw [getD_map_lt _ 0 0 l (mem_range.1 hn), norm_mul, mul_pow]
  refine ⟨p, _, e1, e2, by rw [g1, hq]; push_cast; rfl, ?_⟩
  rw [g2, hq, Real.sqrt_mul (sq_nonneg _), Real.sqrt_sq (norm_nonneg _)]

/-- **C67.** The empty signal has no power (NaN). -/
theorem C67_empty : power [] = none ∧ rms [] = none := ⟨rfl, rfl⟩

example : ([1, Complex.I, -3] : List ℂ) ≠ [] := by simp

end Verif
