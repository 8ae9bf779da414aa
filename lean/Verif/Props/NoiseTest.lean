import Verif.Lemmas.NoiseTest
import Verif.Lemmas.GaussMoments
import Verif.Props.Noise
import Verif.Props.ChanTests

/-!
# The noise of `awgn` as a random vector (C59) and the project's test of it (C92)
-/

open Finset MeasureTheory ProbabilityTheory

namespace Verif
open Spec (avg meanPower unbiasedVar txLevel flipBit unitScale)

/-! ### sample moments of independent standard normal draws -/

theorem ofFn_getD {n : ℕ} (x : Fin n → ℝ) (i : Fin n) : (List.ofFn x).getD i 0 = x i := by
  rw [List.getD_eq_getElem _ _ (by simp)]
  simp

theorem sum_ofFn {n : ℕ} (x : Fin n → ℝ) (f : ℝ → ℝ) : ∑ i ∈ range n, f ((List.ofFn x).getD i 0) = ∑ i, f (x i) := by
  rw [Finset.sum_range]
  exact sum_congr rfl fun i _ => by rw [ofFn_getD]

/-- the unbiased sample variance as a quadratic form -/
theorem unbiasedVar_quad (n : ℕ) (hn : 2 ≤ n) (x : Fin n → ℝ) : unbiasedVar n (fun i => (List.ofFn x).getD i 0)
    = ∑ i, ∑ j, ((if i = j then 1 else 0) - 1 / (n : ℝ)) / ((n : ℝ) - 1) * (x i * x j) := by
  have hn1 : (2 : ℝ) ≤ n := by exact_mod_cast hn
  have h1 : ∑ i ∈ range n, (List.ofFn x).getD i 0 = ∑ i, x i := sum_ofFn x id
  have h2 : ∑ i ∈ range n, (List.ofFn x).getD i 0 ^ 2 = ∑ i, x i ^ 2 := sum_ofFn x (fun v => v ^ 2)
  have e : ∀ i j : Fin n, ((if i = j then 1 else 0) - 1 / (n : ℝ)) / ((n : ℝ) - 1) * (x i * x j)
      = 1 / ((n : ℝ) - 1) * (if i = j then x i * x j else 0) - 1 / ((n : ℝ) * ((n : ℝ) - 1)) * (x i * x j) := by
    intro i j
    have : (n : ℝ) - 1 ≠ 0 := by linarith
    have : (n : ℝ) ≠ 0 := by linarith
    split_ifs <;> field_simp
    ring
  simp only [e, sum_sub_distrib, ← mul_sum]
  have e2 : ∑ i, ∑ j, (if i = j then x i * x j else 0) = ∑ i, x i ^ 2 := by
    refine sum_congr rfl fun i _ => ?_
    rw [sum_ite_eq, if_pos (mem_univ _), sq]
  have e3 : ∑ i, x i * ∑ j, x j = (∑ i, x i) ^ 2 := by rw [← sum_mul, sq]
  rw [e2, e3, unbiasedVar]
  have e4 : ∑ i ∈ range n, ((List.ofFn x).getD i 0 - avg n (fun i => (List.ofFn x).getD i 0)) ^ 2
      = ∑ i, x i ^ 2 - (∑ i, x i) ^ 2 / n := by
    have ha : avg n (fun i => (List.ofFn x).getD i 0) = (∑ i, x i) / n := by rw [avg, h1]
    rw [ha]
    have : ∀ i ∈ range n, ((List.ofFn x).getD i 0 - (∑ i, x i) / n) ^ 2
        = (List.ofFn x).getD i 0 ^ 2 - 2 * ((∑ i, x i) / n) * (List.ofFn x).getD i 0 + ((∑ i, x i) / n) ^ 2 := fun i _ => by ring
    rw [sum_congr rfl this, sum_add_distrib, sum_sub_distrib, ← mul_sum, h1, h2, sum_const, card_range, nsmul_eq_mul]
    have : (n : ℝ) ≠ 0 := by linarith
    field_simp
    ring
  rw [e4]
  have : (n : ℝ) - 1 ≠ 0 := by linarith
  have : (n : ℝ) ≠ 0 := by linarith
  field_simp

theorem affine_second {Ω : Type} [MeasurableSpace Ω] (μ : Measure Ω) [IsProbabilityMeasure μ] (v : Ω → ℝ) (h1 : Integrable v μ)
    (h2 : Integrable (fun x => v x ^ 2) μ) (k : ℝ) :
    Integrable (fun x => (k * v x - 1) ^ 2) μ ∧
      ∫ x, (k * v x - 1) ^ 2 ∂μ = k ^ 2 * ∫ x, v x ^ 2 ∂μ - 2 * k * ∫ x, v x ∂μ + 1 := by
  have e : ∀ x, (k * v x - 1) ^ 2 = k ^ 2 * v x ^ 2 - 2 * k * v x + 1 := fun x => by ring
  simp only [e]
  have i1 : Integrable (fun x => 2 * k * v x) μ := h1.const_mul _
  have i2 : Integrable (fun x => k ^ 2 * v x ^ 2) μ := h2.const_mul _
  have i3 : Integrable (fun x => k ^ 2 * v x ^ 2 - 2 * k * v x) μ := i2.sub i1
  refine ⟨i3.add (integrable_const _), ?_⟩
  rw [integral_add i3 (integrable_const _), integral_sub i2 i1, integral_const_mul, integral_const_mul]
  simp

/-- **C92.** The claims in the documentation of the test: the sample variance of `n` independent standard normal draws is
unbiased, and its variance is `2/(n-1)`. -/
theorem C92_estimator (n : ℕ) (hn : 2 ≤ n) :
    ∫ x, unbiasedVar n (fun i => (List.ofFn x).getD i 0) ∂normalDraws n = 1 ∧
    ∫ x, (unbiasedVar n (fun i => (List.ofFn x).getD i 0) - 1) ^ 2 ∂normalDraws n = 2 / ((n : ℝ) - 1) ∧
    Integrable (fun x : Fin n → ℝ => unbiasedVar n (fun i => (List.ofFn x).getD i 0)) (normalDraws n) ∧
    Integrable (fun x : Fin n → ℝ => unbiasedVar n (fun i => (List.ofFn x).getD i 0) ^ 2) (normalDraws n) := by
  have hn1 : (2 : ℝ) ≤ n := by exact_mod_cast hn
  have hne1 : (n : ℝ) - 1 ≠ 0 := by linarith
  have hne : (n : ℝ) ≠ 0 := by linarith
  simp only [unbiasedVar_quad n hn]
  obtain ⟨a, ha⟩ : ∃ a : Fin n → Fin n → ℝ, ∀ i j, a i j = ((if i = j then 1 else 0) - 1 / (n : ℝ)) / ((n : ℝ) - 1) :=
    ⟨_, fun _ _ => rfl⟩
  simp only [← ha]
  obtain ⟨i1, m1⟩ := quad_mean a
  obtain ⟨i2, m2⟩ := quad_second a (fun i j => by rw [ha, ha]; simp only [eq_comm])
  have tr : ∑ i, a i i = 1 := by
    simp only [ha, if_true]
    rw [sum_const, card_univ, Fintype.card_fin, nsmul_eq_mul]
    field_simp
  have fr : ∑ i, ∑ j, a i j ^ 2 = 1 / ((n : ℝ) - 1) := by
    have e : ∀ i j, a i j ^ 2 = (1 / ((n : ℝ) - 1) ^ 2) * ((if i = j then (1 - 2 / (n : ℝ)) else 0) + 1 / (n : ℝ) ^ 2) := by
      intro i j
      rw [ha]
      split_ifs <;> field_simp <;> ring
    simp only [e, ← mul_sum, sum_add_distrib, sum_ite_eq, mem_univ, if_true, sum_const, card_univ, Fintype.card_fin, nsmul_eq_mul]
    field_simp
    ring
  rw [tr] at m1 m2
  rw [fr] at m2
  refine ⟨m1, ?_, i1, i2⟩
  have := (affine_second (normalDraws n) _ i1 i2 1).2
  simp only [one_mul] at this
  rw [this, m1, m2]
  ring

/-! ### the noise power of awgn -/

/-- **C59.** With independent standard normal draws the mean power of the noise that `awgn` adds is, in expectation, the
estimated signal power divided by the requested ratio. -/
theorem C59_expected (l : List ℝ) (snr : ℝ) (hl : 2 ≤ l.length) :
    ∫ x, (awgn (List.ofFn x) l snr).elim 0 (fun y => meanPower l.length (fun n => y.getD n 0 - l.getD n 0)) ∂normalDraws l.length
      = (unbiasedVar l.length (fun n => l.getD n 0) + avg l.length (fun n => l.getD n 0) ^ 2) / (10 : ℝ) ^ (snr / 10) := by
  have hg : (0 : ℝ) < (10 : ℝ) ^ (snr / 10) := Real.rpow_pos_of_pos (by norm_num) _
  have hN : (2 : ℝ) ≤ l.length := by exact_mod_cast hl
  obtain ⟨s, y0, hs, -, -, -, -, hp, -⟩ := C59_ratio l (List.ofFn (n := l.length) fun _ => 0) snr hl (by simp)
  have hx : ∀ x : Fin l.length → ℝ, (awgn (List.ofFn x) l snr).elim 0 (fun y => meanPower l.length (fun n => y.getD n 0 - l.getD n 0))
      = ∑ i, ∑ j, (if i = j then s ^ 2 / l.length else 0) * (x i * x j) := by
    intro x
    obtain ⟨s', y, hs', hy, -, hv, -⟩ := C59_ratio l (List.ofFn x) snr hl (by simp)
    rw [hs] at hs'
    obtain rfl := Option.some.inj hs'
    rw [hy]
    show meanPower l.length (fun n => y.getD n 0 - l.getD n 0) = _
    rw [meanPower]
    have e : ∀ n ∈ range l.length, (y.getD n 0 - l.getD n 0) ^ 2 = (fun v => s ^ 2 * v ^ 2) ((List.ofFn x).getD n 0) := by
      intro n hn
      rw [hv n (mem_range.1 hn)]; ring
    rw [sum_congr rfl e, sum_ofFn x (fun v => s ^ 2 * v ^ 2), div_eq_mul_inv, sum_mul]
    refine sum_congr rfl fun i _ => ?_
    simp only [ite_mul, zero_mul]
    rw [sum_ite_eq, if_pos (mem_univ _)]
    ring
  simp only [hx]
  rw [(quad_mean _).2]
  simp only [if_true]
  rw [sum_const, card_univ, Fintype.card_fin, nsmul_eq_mul, hp]
  have : (l.length : ℝ) ≠ 0 := by linarith
  field_simp

/-! ### the test -/

/-- mean power of the levels of a constellation -/
noncomputable def levelPower : Constellation → ℝ
  | .nrz => 1
  | .ook => 1 / 2
  | .pam3 => 2 / 3
  | .pam4 => 5

/-- power estimate (unbiased variance plus squared mean) of one period of a PRBS of length `N` -/
noncomputable def periodPower (c : Constellation) (N : ℝ) : ℝ :=
  match c with
  | .nrz => 1 + (N + 1) / N ^ 2
  | .ook => (N + 1) * (2 * N + 1) / (4 * N ^ 2)
  | .pam3 => 0
  | .pam4 => 5 - 4 / N + (5 - 4 / N - 9 / N ^ 2) / (N - 1)

theorem period_moments (p : PrbsEnum) (c : Constellation) (hc : c ≠ .pam3) :
    unbiasedVar (2 ^ p.value - 1) (txLevel c false false false false false (bitAt (getPolynomial p) (onesSeed p)))
      + avg (2 ^ p.value - 1) (txLevel c false false false false false (bitAt (getPolynomial p) (onesSeed p))) ^ 2
      = periodPower c ((2 ^ p.value - 1 : ℕ) : ℝ) := by
  have hN := period_ge p
  rw [(estimate_bounds (2 ^ p.value - 1) (by omega) _).1, meanPower, avg]
  have hu := uSeq_corr p (onesSeed p) (by simp) (onesSeed_ne p)
  have hu1 := uSeq_sum p (onesSeed p) (by simp) (onesSeed_ne p)
  have hr : ∀ f : ℝ → ℝ, ∑ n ∈ range (2 ^ p.value - 1), f (txLevel c false false false false false (bitAt (getPolynomial p) (onesSeed p)) n)
      = ∑ z, f (refZ p c false false false false false z) := by
    intro f
    have := sum_range_zmod (N := 2 ^ p.value - 1) (fun z => f (refZ p c false false false false false z)) 1
    rw [one_mul, Nat.cast_one, one_mul] at this
    rw [← this]
    exact sum_congr rfl fun n _ => by rw [refZ_cast]
  have h1 := hr id
  have h2 := hr (fun v => v ^ 2)
  simp only [id] at h1 h2
  rw [h1, h2]
  have hN1 : (127 : ℝ) ≤ ((2 ^ p.value - 1 : ℕ) : ℝ) := by exact_mod_cast hN
  have hsq : ∀ z, uSeq p (onesSeed p) z ^ 2 = 1 := by
    intro z; rcases uSeq_cases p (onesSeed p) z with h | h <;> rw [h] <;> norm_num
  have hone : ∑ z : ZMod (2 ^ p.value - 1), (1 : ℝ) = ((2 ^ p.value - 1 : ℕ) : ℝ) := by
    rw [sum_const, card_univ, ZMod.card, nsmul_eq_mul, mul_one]
  generalize ((2 ^ p.value - 1 : ℕ) : ℝ) = N at hN1 hone hu ⊢
  have n0 : N ≠ 0 := by linarith
  have n1 : N - 1 ≠ 0 := by linarith
  cases c with
  | pam3 => exact absurd rfl hc
  | nrz =>
    simp only [refZ_nrz, one_mul, add_zero, hsq, hone, hu1, periodPower]
    field_simp
    ring
  | ook =>
    have e1 : ∑ z, (1 / 2 * uSeq p (onesSeed p) z + 1 / 2) = (N + 1) / 2 := by
      rw [sum_add_distrib, ← mul_sum, hu1]
      have : ∑ z : ZMod (2 ^ p.value - 1), (1 / 2 : ℝ) = 1 / 2 * N := by rw [← hone, mul_sum, mul_one]
      rw [this]; ring
    have e2 : ∑ z, (1 / 2 * uSeq p (onesSeed p) z + 1 / 2) ^ 2 = (N + 1) / 2 := by
      rw [← e1]
      refine sum_congr rfl fun z _ => ?_
      have := hsq z
      linear_combination (1 / 4) * this
    simp only [refZ_ook, e1, e2, periodPower]
    field_simp
    ring
  | pam4 =>
    have e1 : ∑ z, twoTap (uSeq p (onesSeed p)) 1 1 1 0 z = 3 := by
      have : ∀ z, twoTap (uSeq p (onesSeed p)) 1 1 1 0 z = (fun w => 2 * uSeq p (onesSeed p) (w + 1) + uSeq p (onesSeed p) w) (2 * z) := by
        intro z; rw [twoTap]; simp
      rw [sum_congr rfl fun z _ => this z, sum_dbl _ (half_mod p) (fun w => 2 * uSeq p (onesSeed p) (w + 1) + uSeq p (onesSeed p) w),
        sum_add_distrib, ← mul_sum, sum_shift (uSeq p (onesSeed p)) 1, hu1]
      norm_num
    have e2 : ∑ z, twoTap (uSeq p (onesSeed p)) 1 1 1 0 z ^ 2 = 5 * N - 4 := by
      have : ∀ z, twoTap (uSeq p (onesSeed p)) 1 1 1 0 z ^ 2
          = (fun w => 5 + 4 * (uSeq p (onesSeed p) w * uSeq p (onesSeed p) (w + 1))) (2 * z) := by
        intro z
        rw [twoTap]
        simp only [add_zero]
        have a1 := hsq (2 * z)
        have a2 := hsq (2 * z + 1)
        linear_combination a1 + 4 * a2
      rw [sum_congr rfl fun z _ => this z, sum_dbl _ (half_mod p) (fun w => 5 + 4 * (uSeq p (onesSeed p) w * uSeq p (onesSeed p) (w + 1))),
        sum_add_distrib, ← mul_sum, hu, if_neg]
      · have : ∑ z : ZMod (2 ^ p.value - 1), (5 : ℝ) = 5 * N := by rw [← hone, mul_sum, mul_one]
        rw [this]; ring
      · intro h0
        have h' : ((1 : ℕ) : ZMod (2 ^ p.value - 1)) = 0 := by rwa [Nat.cast_one]
        have := Nat.le_of_dvd one_pos ((ZMod.natCast_eq_zero_iff _ _).1 h')
        omega
    simp only [refZ_pam4, e1, e2, periodPower]
    field_simp
    ring

theorem levelPower_eq (c : Constellation) :
    ((getLevels c false).map fun l => l ^ 2).sum / (getLevels c false).length = levelPower c := by
  cases c <;> simp [getLevels, intLevels, levelPower] <;> norm_num

open Classical in
/-- **C92.** The outcome of the test as a function of the standard normal draws: it does not depend on the SNR. The sample
variance of the draws, times the power estimate of the period over the mean power of the levels, must be within
`3 sqrt(2/(N-1))` of one. -/
theorem C92_outcome (p : PrbsEnum) (bits : List Int) (hd : csvData p = some bits) (c : Constellation) (hc : c ≠ .pam3)
    (noise : List ℝ) (hn : noise.length = 2 ^ p.value - 1) (snr : ℝ) :
    awgnTest p bits c noise snr = .ok (decide (|periodPower c ((2 ^ p.value - 1 : ℕ) : ℝ) / levelPower c
      * unbiasedVar (2 ^ p.value - 1) (fun n => noise.getD n 0) - 1| < 3 * Real.sqrt (2 / (((2 ^ p.value - 1 : ℕ) : ℝ) - 1)))) := by
  have hN := period_ge p
  have hN1 : (127 : ℝ) ≤ ((2 ^ p.value - 1 : ℕ) : ℝ) := by exact_mod_cast hN
  obtain ⟨pat, hpat⟩ : ∃ pat, pat = (List.range (2 ^ p.value - 1)).map
    (txLevel c false false false false false (bitAt (getPolynomial p) (onesSeed p))) := ⟨_, rfl⟩
  have hpl : pat.length = 2 ^ p.value - 1 := by rw [hpat]; simp
  have hpg : ∀ n < 2 ^ p.value - 1, pat.getD n 0 = txLevel c false false false false false (bitAt (getPolynomial p) (onesSeed p)) n := by
    intro n h; rw [hpat, map_range_getD _ _ _ _ h]
  obtain ⟨s, y, -, hy, hyl, hv, hs0, hP, -⟩ := C59_ratio pat noise snr (by omega) (by omega)
  rw [hpl] at hyl hv hP
  have hPe : unbiasedVar (2 ^ p.value - 1) (fun n => pat.getD n 0) + avg (2 ^ p.value - 1) (fun n => pat.getD n 0) ^ 2
      = periodPower c ((2 ^ p.value - 1 : ℕ) : ℝ) := by
    rw [← period_moments p c hc]
    have e : ∀ f : ℝ → ℝ, ∑ n ∈ range (2 ^ p.value - 1), f (pat.getD n 0)
        = ∑ n ∈ range (2 ^ p.value - 1), f (txLevel c false false false false false (bitAt (getPolynomial p) (onesSeed p)) n) :=
      fun f => sum_congr rfl fun n h => by rw [hpg n (mem_range.1 h)]
    have ha : avg (2 ^ p.value - 1) (fun n => pat.getD n 0)
        = avg (2 ^ p.value - 1) (txLevel c false false false false false (bitAt (getPolynomial p) (onesSeed p))) := by
      rw [avg, avg]; congr 1; exact e id
    rw [unbiasedVar, unbiasedVar, ha, e (fun v => (v - _) ^ 2)]
  rw [hPe] at hP
  have hzl : (List.zipWith (· - ·) y pat).length = 2 ^ p.value - 1 := by
    rw [List.length_zipWith, hyl, hpl, min_self]
  have hvar : npVar1 (List.zipWith (· - ·) y pat) = some (s ^ 2 * unbiasedVar (2 ^ p.value - 1) (fun n => noise.getD n 0)) := by
    rw [npVar1_eq _ (by omega), hzl]
    congr 1
    refine unbiasedVar_scale _ _ _ _ fun n h => ?_
    rw [zipWith_getD _ 0 0 0 _ _ (by omega) (by omega), hv n h]
    ring
  rw [awgnTest]
  simp only [bind, Except.bind]
  rw [noise_pattern p bits hd c hc, ← hpat]
  simp only []
  rw [hy]
  simp only []
  rw [hvar]
  simp only [pure, Except.pure]
  rw [levelPower_eq]
  refine congrArg Except.ok ?_
  have hg : (0 : ℝ) < (10 : ℝ) ^ (snr / 10) := Real.rpow_pos_of_pos (by norm_num) _
  have hL : 0 < levelPower c := by cases c <;> norm_num [levelPower]
  generalize (10 : ℝ) ^ (snr / 10) = g at hg hP ⊢
  generalize unbiasedVar (2 ^ p.value - 1) (fun n => noise.getD n 0) = v
  generalize ((2 ^ p.value - 1 : ℕ) : ℝ) = N at hN1 hP ⊢
  generalize levelPower c = L at hL ⊢
  rw [hP]
  have e1 : Real.sqrt (2 * (L / g) ^ 2 / (N - 1)) = L / g * Real.sqrt (2 / (N - 1)) := by
    rw [show 2 * (L / g) ^ 2 / (N - 1) = (L / g) ^ 2 * (2 / (N - 1)) by ring, Real.sqrt_mul (sq_nonneg _),
      Real.sqrt_sq (div_pos hL hg).le]
  have e2 : s ^ 2 * v - L / g = L / g * (s ^ 2 * g / L * v - 1) := by
    field_simp
  have e3 : (|s ^ 2 * v - L / g| < 3 * Real.sqrt (2 * (L / g) ^ 2 / (N - 1)))
      ↔ (|s ^ 2 * g / L * v - 1| < 3 * Real.sqrt (2 / (N - 1))) := by
    rw [e1, e2, abs_mul, abs_of_pos (div_pos hL hg), mul_left_comm, mul_lt_mul_iff_right₀ (div_pos hL hg)]
  by_cases h : |s ^ 2 * g / L * v - 1| < 3 * Real.sqrt (2 / (N - 1))
  · rw [decide_eq_true h]; exact @decide_eq_true _ (_) (e3.2 h)
  · rw [decide_eq_false h]; exact @decide_eq_false _ (_) (fun h' => h (e3.1 h'))

/-- **C92.** The test as a random experiment: whatever the PRBS, constellation and SNR, it fails with a probability of at
most one eighth. -/
theorem C92_probability (p : PrbsEnum) (bits : List Int) (hd : csvData p = some bits) (c : Constellation) (hc : c ≠ .pam3)
    (snr : ℝ) :
    (normalDraws (2 ^ p.value - 1)).real {x | awgnTest p bits c (List.ofFn x) snr ≠ .ok true} ≤ 1 / 8 := by
  classical
  have hN := period_ge p
  obtain ⟨n, hn⟩ : ∃ n, n = 2 ^ p.value - 1 := ⟨_, rfl⟩
  have hout : ∀ x : Fin (2 ^ p.value - 1) → ℝ, awgnTest p bits c (List.ofFn x) snr ≠ .ok true ↔
      9 * (2 / (((2 ^ p.value - 1 : ℕ) : ℝ) - 1)) ≤ (periodPower c ((2 ^ p.value - 1 : ℕ) : ℝ) / levelPower c
      * unbiasedVar (2 ^ p.value - 1) (fun n => (List.ofFn x).getD n 0) - 1) ^ 2 := by
    intro x
    have hN1 : (127 : ℝ) ≤ ((2 ^ p.value - 1 : ℕ) : ℝ) := by exact_mod_cast hN
    rw [C92_outcome p bits hd c hc (List.ofFn x) (by simp) snr]
    generalize periodPower c ((2 ^ p.value - 1 : ℕ) : ℝ) / levelPower c
      * unbiasedVar (2 ^ p.value - 1) (fun n => (List.ofFn x).getD n 0) - 1 = w
    have hs : 0 ≤ 2 / (((2 ^ p.value - 1 : ℕ) : ℝ) - 1) := div_nonneg (by norm_num) (by linarith)
    generalize 2 / (((2 ^ p.value - 1 : ℕ) : ℝ) - 1) = q at hs ⊢
    have h9 : (3 * Real.sqrt q) ^ 2 = 9 * q := by rw [mul_pow, Real.sq_sqrt hs]; norm_num
    constructor
    · intro h
      have h1 : ¬ |w| < 3 * Real.sqrt q := fun h2 => h (by rw [@decide_eq_true _ (_) h2])
      rw [← h9, ← sq_abs w]
      exact pow_le_pow_left₀ (by positivity) (not_lt.1 h1) 2
    · intro h h1
      have h2 : |w| < 3 * Real.sqrt q := by
        by_contra h3
        rw [@decide_eq_false _ (_) h3] at h1
        cases h1
      have h4 := pow_lt_pow_left₀ h2 (abs_nonneg _) two_ne_zero
      rw [sq_abs, h9] at h4
      linarith
  simp only [hout]
  clear hout
  rw [← hn] at hN ⊢
  obtain ⟨m1, m2, i1, i2⟩ := C92_estimator n (by omega)
  have hn1 : (127 : ℝ) ≤ (n : ℝ) := by exact_mod_cast hN
  obtain ⟨i3, m3⟩ := affine_second (normalDraws n) _ i1 i2 (periodPower c (n : ℝ) / levelPower c)
  have hm := mul_meas_ge_le_integral_of_nonneg (μ := normalDraws n) (Filter.Eventually.of_forall fun x => sq_nonneg _) i3
    (9 * (2 / ((n : ℝ) - 1)))
  have m2' := (affine_second (normalDraws n) _ i1 i2 1).2
  simp only [one_mul, one_pow, mul_one] at m2'
  rw [m2', m1] at m2
  rw [m3, m1] at hm
  -- the ratio of the powers is close to one
  have hk : |periodPower c (n : ℝ) / levelPower c - 1| ≤ 2 / n := by
    generalize (n : ℝ) = N at hn1
    have hp : 0 < N := by linarith
    have hp1 : 0 < N - 1 := by linarith
    rw [abs_le]
    cases c with
    | pam3 => exact absurd rfl hc
    | nrz =>
      simp only [periodPower, levelPower, div_one]
      rw [add_sub_cancel_left, ← neg_div, div_le_div_iff₀ hp (by positivity), div_le_div_iff₀ (by positivity) hp]
      constructor <;> nlinarith
    | ook =>
      simp only [periodPower, levelPower]
      rw [show (N + 1) * (2 * N + 1) / (4 * N ^ 2) / (1 / 2) - 1 = (3 * N + 1) / (2 * N ^ 2) by field_simp; ring,
        ← neg_div, div_le_div_iff₀ hp (by positivity), div_le_div_iff₀ (by positivity) hp]
      constructor <;> nlinarith
    | pam4 =>
      simp only [periodPower, levelPower]
      rw [show (5 - 4 / N + (5 - 4 / N - 9 / N ^ 2) / (N - 1)) / 5 - 1 = (N ^ 2 - 9) / (5 * N ^ 2 * (N - 1)) by field_simp; ring,
        ← neg_div, div_le_div_iff₀ hp (by positivity), div_le_div_iff₀ (by positivity) hp]
      constructor <;> nlinarith [mul_pos hp hp1, mul_pos hp (mul_pos hp hp1)]
  generalize periodPower c (n : ℝ) / levelPower c = k at hk hm
  generalize (normalDraws n).real _ = P at hm ⊢
  generalize (n : ℝ) = N at hn1 hk hm m2
  have hp1 : 0 < N - 1 := by linarith
  have hq : 2 / (N - 1) * (N - 1) = 2 := by field_simp
  obtain ⟨q, hqd⟩ : ∃ q, q = 2 / (N - 1) := ⟨_, rfl⟩
  rw [← hqd] at hm m2 hq
  have hq0 : 0 < q := by rw [hqd]; positivity
  have hk2 : (k - 1) ^ 2 ≤ (2 / N) ^ 2 := by rw [← sq_abs (k - 1)]; exact pow_le_pow_left₀ (abs_nonneg _) hk 2
  have hk3 : (k - 1) ^ 2 ≤ q / 50 := by
    refine hk2.trans ?_
    rw [hqd, div_pow, div_div, div_le_div_iff₀ (by positivity) (by positivity)]
    nlinarith
  have hk4 : k ^ 2 ≤ 21 / 20 := by
    have h1 : 2 / N ≤ 2 / 127 := div_le_div_of_nonneg_left (by norm_num) (by norm_num) hn1
    have h2 := (abs_le.1 (hk.trans h1))
    nlinarith
  have hM : k ^ 2 * (∫ x, unbiasedVar n (fun i => (List.ofFn x).getD i 0) ^ 2 ∂normalDraws n) - 2 * k * 1 + 1 = (k - 1) ^ 2 + k ^ 2 * q := by
    have : (∫ x, unbiasedVar n (fun i => (List.ofFn x).getD i 0) ^ 2 ∂normalDraws n) = q + 1 := by linarith
    rw [this]; ring
  rw [hM] at hm
  have : 9 * q * P ≤ 9 * q * (1 / 8) := by nlinarith
  exact le_of_mul_le_mul_left this (by positivity)

theorem bound_lt_one (p : PrbsEnum) : 3 * Real.sqrt (2 / (((2 ^ p.value - 1 : ℕ) : ℝ) - 1)) < 1 := by
  have hN1 : (127 : ℝ) ≤ ((2 ^ p.value - 1 : ℕ) : ℝ) := by exact_mod_cast period_ge p
  have h : Real.sqrt (2 / (((2 ^ p.value - 1 : ℕ) : ℝ) - 1)) < 1 / 3 := by
    rw [Real.sqrt_lt' (by norm_num), div_lt_iff₀ (by linarith)]
    linarith
  linarith

/-- **C92, negative part.** The assertion can fail: with draws that are all equal it does, for every PRBS, constellation and
SNR. -/
theorem C92_negative (p : PrbsEnum) (bits : List Int) (hd : csvData p = some bits) (c : Constellation) (hc : c ≠ .pam3)
    (snr z : ℝ) : awgnTest p bits c (List.replicate (2 ^ p.value - 1) z) snr = .ok false := by
  classical
  have hN := period_ge p
  rw [C92_outcome p bits hd c hc _ (by simp) snr]
  have hg : ∀ n ∈ range (2 ^ p.value - 1), (List.replicate (2 ^ p.value - 1) z).getD n 0 = z := fun n h => by
    rw [List.getD_eq_getElem _ _ (by simpa using h)]; simp
  have hne : ((2 ^ p.value - 1 : ℕ) : ℝ) ≠ 0 := by exact_mod_cast (by omega : 2 ^ p.value - 1 ≠ 0)
  have ha : avg (2 ^ p.value - 1) (fun n => (List.replicate (2 ^ p.value - 1) z).getD n 0) = z := by
    rw [avg, sum_congr rfl hg, sum_const, card_range, nsmul_eq_mul]
    field_simp
  have hv : unbiasedVar (2 ^ p.value - 1) (fun n => (List.replicate (2 ^ p.value - 1) z).getD n 0) = 0 := by
    rw [unbiasedVar, ha, sum_congr rfl (g := fun _ => (0 : ℝ)) (fun n h => by rw [hg n h]; ring)]
    simp
  rw [hv]
  refine congrArg Except.ok (@decide_eq_false _ (_) ?_)
  have := bound_lt_one p
  rw [mul_zero, zero_sub, abs_neg, abs_one]
  linarith

/-! ### concrete cases -/

/-- PRBS7 on NRZ with 63 draws of 1, 63 draws of -1 and one 0: the test succeeds at every SNR -/
example (bits : List Int) (hd : csvData .prbs7 = some bits) (snr : ℝ) :
    awgnTest .prbs7 bits .nrz (List.replicate 63 1 ++ List.replicate 63 (-1) ++ [0]) snr = .ok true := by
  classical
  rw [C92_outcome .prbs7 bits hd .nrz (by decide) _ (by simp [PrbsEnum.value]) snr]
  refine congrArg Except.ok (@decide_eq_true _ (_) ?_)
  have hN : 2 ^ PrbsEnum.prbs7.value - 1 = 127 := by decide
  rw [hN]
  have hs : ∀ f : ℝ → ℝ, ∑ n ∈ range 127, f ((List.replicate 63 (1 : ℝ) ++ List.replicate 63 (-1) ++ [0]).getD n 0)
      = 63 * f 1 + 63 * f (-1) + f 0 := by
    intro f
    have h := map_sum_getD (List.replicate 63 (1 : ℝ) ++ List.replicate 63 (-1) ++ [0]) f
    have hl : (List.replicate 63 (1 : ℝ) ++ List.replicate 63 (-1) ++ [0]).length = 127 := by simp
    rw [hl] at h
    rw [← h]
    simp only [List.map_append, List.map_replicate, List.sum_append, List.sum_replicate, nsmul_eq_mul, List.map_cons, List.map_nil,
      List.sum_cons, List.sum_nil, add_zero]
    norm_num
  have ha : avg 127 (fun n => (List.replicate 63 (1 : ℝ) ++ List.replicate 63 (-1) ++ [0]).getD n 0) = 0 := by
    have h := hs id
    simp only [id] at h
    rw [avg, h]; norm_num
  have hv : unbiasedVar 127 (fun n => (List.replicate 63 (1 : ℝ) ++ List.replicate 63 (-1) ++ [0]).getD n 0) = 1 := by
    rw [unbiasedVar, ha, hs (fun v => (v - 0) ^ 2)]; norm_num
  rw [hv]
  have h3 : (0.3 : ℝ) < 3 * Real.sqrt (2 / (((127 : ℕ) : ℝ) - 1)) := by
    have : (0.1 : ℝ) < Real.sqrt (2 / (((127 : ℕ) : ℝ) - 1)) := by
      rw [Real.lt_sqrt (by norm_num)]; norm_num
    linarith
  refine lt_trans ?_ h3
  rw [periodPower, levelPower]
  norm_num [abs_lt]

/-- the reference file of PRBS13 and PAM4: the probability that the test fails is at most one eighth -/
example (bits : List Int) (hd : csvData .prbs13 = some bits) :
    (normalDraws 8191).real {x | awgnTest .prbs13 bits .pam4 (List.ofFn x) 25.5 ≠ .ok true} ≤ 1 / 8 :=
  C92_probability .prbs13 bits hd .pam4 (by decide) 25.5

/-- the sample variance of two draws has the variance 2 -/
example : ∫ x, (unbiasedVar 2 (fun i => (List.ofFn x).getD i 0) - 1) ^ 2 ∂normalDraws 2 = 2 := by
  rw [(C92_estimator 2 le_rfl).2.1]; norm_num

end Verif
