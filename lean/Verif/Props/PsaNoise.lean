import Verif.Lemmas.PsaNoise
import Verif.Model.PsaWindow
import Verif.Props.Psa

/-! Property C122: the power spectrum analyser in white noise and the calibration of its modes. -/

open MeasureTheory ProbabilityTheory Finset

namespace Verif

theorem psaNorm_fixed (mode : String) (hm : mode ∈ supportedModes) (hne : mode ≠ "dBc") (x : List ℂ) (b e r fsc : ℝ) (hb : 0 < b)
    (he : 0 < e) (hr : 0 < r) (hf : fsc ≠ 0) :
    ∃ g, psaNorm mode x b e r fsc none = .ok (some g) ∧ g ^ 2 = powerFactor mode 1 b e r fsc := by
  have h1 : meanSquare [1] = 1 := by simp [meanSquare]
  obtain ⟨g, hg, hg2⟩ := psaNorm_factor mode hm [1] b e r fsc hb he hr hf (by rw [h1]; norm_num)
  rw [h1] at hg2
  refine ⟨g, ?_, hg2⟩
  rw [← hg]
  unfold psaNorm
  simp only [if_neg hne]

theorem allReal_inWhite {L : ℕ} (s : Fin L → ℝ) (sig : ℝ) (z : Fin L → ℝ) : allReal (inWhiteNoise (fun i => (s i : ℂ)) sig z) = true := by
  unfold allReal
  refine @decide_eq_true _ (_) ?_
  intro v hv
  unfold inWhiteNoise at hv
  obtain ⟨i, rfl⟩ := (List.mem_ofFn' _ _).mp hv
  simp

/-- C122: the expected spectrum of a real signal in real white noise of variance `sig^2`, in every mode whose factor does
not depend on the signal, for every window, overlap and bandwidth: at every frequency the noise adds its variance times
the share `noiseShare` of the window, twice that at the inner frequencies of the one-sided spectrum, times the factor of
the mode. -/
theorem C122_mean (window : ℕ → List ℝ) (hwin : ∀ n, (window n).length = n) (L : ℕ) (s : Fin L → ℝ) (sig : ℝ) (fs rbw : ℝ)
    (hf : 0 < fs) (hb : 0 < rbw) (mode : String) (hm : mode ∈ supportedModes) (hne : mode ≠ "dBc") (r : ℝ) (hr : 0 < r) (osr : ℕ)
    (ho : 0 < osr) (ov fsc : ℝ) (h0 : 0 ≤ ov) (h1 : ov < 1) (hfs : fsc ≠ 0) (dsb : Bool) (n e : ℕ)
    (hn : n = 19 * ⌈fs / rbw⌉.toNat / 10) (hsum : (window n).sum ≠ 0) (he : n * osr ≤ 2 ^ e) (he' : 2 ^ e < 2 * (n * osr))
    (hL : n ≤ L) :
    ∃ (f : List ℝ) (P : (Fin L → ℝ) → List ℝ),
      (∀ z, psa window (inWhiteNoise (fun i => (s i : ℂ)) sig z) false fs (some rbw) mode none r osr ov fsc dsb = .ok (some (f, P z))) ∧
      ∀ k, 2 * k ≤ 2 ^ e → Integrable (fun z => (P z).getD k 0) (normalDraws L) ∧
        ∫ z, (P z).getD k 0 ∂normalDraws L = (P 0).getD k 0
          + powerFactor mode 1 rbw (if dsb then fs / 2 else fs) r fsc
            * (sig ^ 2 * noiseShare (fun j => (window n).getD j 0) n (2 ^ e) k * if 0 < k ∧ 2 * k < 2 ^ e then 2 else 1) := by
  have hwd : psaWindowN fs rbw = n := hn.symm
  have hn0 : 0 < n := by rw [← hwd]; exact psaWindowN_pos fs rbw hf hb
  obtain ⟨b1, b2, e', b3⟩ := psaNfft_bounds n osr hn0 ho
  have hee : e' = e := pow2_between_unique (n * osr) e' e (b3 ▸ b1) (b3 ▸ b2) he he'
  rw [hee] at b3
  have hov := psaOverlap_lt n ov hn0 h0 h1
  set S : Fin L → ℂ := fun i => (s i : ℂ) with hS
  have heff : ∀ z, psaEffFs (inWhiteNoise S sig z) fs dsb = if dsb then fs / 2 else fs := by
    intro z
    unfold psaEffFs
    rw [hS, allReal_inWhite, Bool.true_and]
  have hpos : 0 < (if dsb then fs / 2 else fs) := by split <;> linarith
  have hlen : ∀ z, (inWhiteNoise S sig z).length = L := fun z => by simp [inWhiteNoise]
  set win : List ℂ := (window n).map (fun (v : ℝ) => (v : ℂ)) with hwi
  have hwl : win.length = n := by rw [hwi, List.length_map, hwin]
  set G := powerFactor mode 1 rbw (if dsb then fs / 2 else fs) r fsc with hG
  have hnn : n ≤ 2 ^ e := le_trans (Nat.le_mul_of_pos_right _ ho) he
  refine ⟨(List.range (2 ^ e / 2 + 1)).map (welchFreq fs (2 ^ e) true), fun z => ((List.range (2 ^ e / 2 + 1)).map
    (welchBin (inWhiteNoise S sig z) win (2 ^ e) (psaOverlap n ov) true)).map (G * ·), fun z => ?_, fun k hk => ?_⟩
  · obtain ⟨g, hg, hg2⟩ := psaNorm_fixed mode hm hne (inWhiteNoise S sig z) rbw (psaEffFs (inWhiteNoise S sig z) fs dsb) r fsc hb
      (by rw [heff]; exact hpos) hr hfs
    rw [psa_of_norm window _ false fs (some rbw) mode none r osr ov fsc dsb rbw rfl g hg, hwd, b3, ← hwi, hg2, heff, ← hG]
    unfold welch
    rw [if_neg (by rw [hlen]; omega), if_neg (by rw [hlen, hwl]; omega), if_neg (by rw [hwl]; omega), if_neg (by rw [hwl]; omega)]
    rfl
  · have hget : ∀ z, (((List.range (2 ^ e / 2 + 1)).map
        (welchBin (inWhiteNoise S sig z) win (2 ^ e) (psaOverlap n ov) true)).map (G * ·)).getD k 0
        = G * welchBin (inWhiteNoise S sig z) win (2 ^ e) (psaOverlap n ov) true k := by
      intro z
      have hk' : k < 2 ^ e / 2 + 1 := by omega
      simp [List.getD_eq_getElem?_getD, hk']
    have hw' : (window n).length = n := hwin n
    obtain ⟨i1, m1⟩ := welchBin_mean (L := L) (window n) (2 ^ e) k (psaOverlap n ov) (by rw [hw']; exact hov)
      (by rw [hw']; exact hL) hsum true S sig
    rw [← hwi] at i1 m1
    simp only [hget]
    refine ⟨i1.const_mul _, ?_⟩
    rw [integral_const_mul, m1, hw', mul_add]
    simp

/-! ### the default window -/

/-- sums of cosines over whole periods -/
theorem cos_period_sum (n m : ℕ) (h0 : 0 < m) (h : m < n) : ∑ j ∈ range n, Real.cos (m * (2 * Real.pi * j / n)) = 0 := by
  have h1 := sum_toneFrom 1 m n 0 n (by omega) (dvd_mul_left n m) (fun hd => by have := Nat.le_of_dvd h0 hd; omega)
  unfold toneFrom at h1
  rw [listSum_range] at h1
  have h2 := congrArg Complex.re h1
  rw [Complex.re_sum, Complex.zero_re] at h2
  rw [← h2]
  refine sum_congr rfl fun j _ => ?_
  have : (1 : ℂ) * Complex.exp (2 * Real.pi * Complex.I * ((0 + j : ℕ) : ℂ) * (m : ℂ) / (n : ℂ))
      = Complex.exp (((m * (2 * Real.pi * j / n) : ℝ) : ℂ) * Complex.I) := by
    rw [one_mul]; congr 1; push_cast; ring
  rw [this, Complex.exp_ofReal_mul_I_re]

theorem bh_getD (n j : ℕ) (hn : 1 < n) (hj : j < n) : (blackmanHarris n).getD j 0 = 0.35875 - 0.48829 * Real.cos ((1 : ℕ) * (2 * Real.pi * j / n))
    + 0.14128 * Real.cos ((2 : ℕ) * (2 * Real.pi * j / n)) - 0.01168 * Real.cos ((3 : ℕ) * (2 * Real.pi * j / n)) := by
  unfold blackmanHarris
  rw [if_neg (by omega), List.getD_eq_getElem _ _ (by simpa using hj)]
  simp only [List.getElem_map, List.getElem_range]
  set t : ℝ := 2 * Real.pi * j / n with ht
  have h1 : Real.cos (1 * (-Real.pi + t)) = -Real.cos ((1 : ℕ) * t) := by
    rw [show (1 : ℝ) * (-Real.pi + t) = (1 : ℕ) * t - Real.pi by push_cast; ring, Real.cos_sub_pi]
  have h2 : Real.cos (2 * (-Real.pi + t)) = Real.cos ((2 : ℕ) * t) := by
    rw [show (2 : ℝ) * (-Real.pi + t) = (2 : ℕ) * t - 2 * Real.pi by push_cast; ring, Real.cos_sub_two_pi]
  have h3 : Real.cos (3 * (-Real.pi + t)) = -Real.cos ((3 : ℕ) * t) := by
    rw [show (3 : ℝ) * (-Real.pi + t) = (3 : ℕ) * t - Real.pi - 2 * Real.pi by push_cast; ring, Real.cos_sub_two_pi, Real.cos_sub_pi]
  rw [h1, h2, h3]
  ring

theorem bh_sums (n : ℕ) (hn : 7 ≤ n) : ∑ j ∈ range n, (blackmanHarris n).getD j 0 = 0.35875 * n ∧
    ∑ j ∈ range n, (blackmanHarris n).getD j 0 ^ 2 = (0.35875 ^ 2 + (0.48829 ^ 2 + 0.14128 ^ 2 + 0.01168 ^ 2) / 2) * n := by
  have C := fun m (h0 : 0 < m) (h : m < 7) => cos_period_sum n m h0 (by omega)
  set c : ℕ → ℕ → ℝ := fun m j => Real.cos (m * (2 * Real.pi * j / n)) with hc
  have C1 : ∑ j ∈ range n, c 1 j = 0 := C 1 (by norm_num) (by norm_num)
  have C2 : ∑ j ∈ range n, c 2 j = 0 := C 2 (by norm_num) (by norm_num)
  have C3 : ∑ j ∈ range n, c 3 j = 0 := C 3 (by norm_num) (by norm_num)
  have C4 : ∑ j ∈ range n, c 4 j = 0 := C 4 (by norm_num) (by norm_num)
  have C5 : ∑ j ∈ range n, c 5 j = 0 := C 5 (by norm_num) (by norm_num)
  have C6 : ∑ j ∈ range n, c 6 j = 0 := C 6 (by norm_num) (by norm_num)
  have hg : ∀ j ∈ range n, (blackmanHarris n).getD j 0 = 0.35875 - 0.48829 * c 1 j + 0.14128 * c 2 j - 0.01168 * c 3 j :=
    fun j hj => bh_getD n j (by omega) (mem_range.mp hj)
  have hp : ∀ a b j : ℕ, b ≤ a → c a j * c b j = (c (a + b) j + c (a - b) j) / 2 := by
    intro a b j hab
    simp only [hc]
    have e1 : ((a + b : ℕ) : ℝ) * (2 * Real.pi * j / n) = a * (2 * Real.pi * j / n) + b * (2 * Real.pi * j / n) := by push_cast; ring
    have e2 : ((a - b : ℕ) : ℝ) * (2 * Real.pi * j / n) = a * (2 * Real.pi * j / n) - b * (2 * Real.pi * j / n) := by
      rw [Nat.cast_sub hab]; ring
    rw [e1, e2, Real.cos_add, Real.cos_sub]
    ring
  have c0 : ∀ j, c 0 j = 1 := fun j => by simp [hc]
  constructor
  · rw [sum_congr rfl hg, sum_sub_distrib, sum_add_distrib, sum_sub_distrib, ← mul_sum, ← mul_sum, ← mul_sum, C1, C2, C3,
      sum_const, card_range, nsmul_eq_mul]
    ring
  · have hsq : ∀ j ∈ range n, (blackmanHarris n).getD j 0 ^ 2
        = (0.35875 ^ 2 + (0.48829 ^ 2 + 0.14128 ^ 2 + 0.01168 ^ 2) / 2)
          + ((-(2 * 0.35875 * 0.48829) - 0.48829 * 0.14128 - 0.14128 * 0.01168) * c 1 j
          + (2 * 0.35875 * 0.14128 + 0.48829 ^ 2 / 2 + 0.48829 * 0.01168) * c 2 j
          + (-(2 * 0.35875 * 0.01168) - 0.48829 * 0.14128) * c 3 j
          + (0.14128 ^ 2 / 2 + 0.48829 * 0.01168) * c 4 j
          + (-(0.14128 * 0.01168)) * c 5 j + (0.01168 ^ 2 / 2) * c 6 j) := by
      intro j hj
      rw [hg j hj]
      have p11 := hp 1 1 j (by norm_num)
      have p21 := hp 2 1 j (by norm_num)
      have p22 := hp 2 2 j (by norm_num)
      have p31 := hp 3 1 j (by norm_num)
      have p32 := hp 3 2 j (by norm_num)
      have p33 := hp 3 3 j (by norm_num)
      norm_num only [c0] at p11 p21 p22 p31 p32 p33
      linear_combination 0.48829 ^ 2 * p11 - 2 * 0.48829 * 0.14128 * p21 + 0.14128 ^ 2 * p22 + 2 * 0.48829 * 0.01168 * p31
        - 2 * 0.14128 * 0.01168 * p32 + 0.01168 ^ 2 * p33
    rw [sum_congr rfl hsq]
    simp only [sum_add_distrib, ← mul_sum, C1, C2, C3, C4, C5, C6, sum_const, card_range, nsmul_eq_mul]
    ring

theorem bh_length (n : ℕ) : (blackmanHarris n).length = n := by
  unfold blackmanHarris
  split <;> simp

theorem bh_sum (n : ℕ) (hn : 7 ≤ n) : (blackmanHarris n).sum = 0.35875 * n := by
  have h2 : (blackmanHarris n).sum = ∑ j ∈ range n, (blackmanHarris n).getD j 0 := by
    rw [← listSum_range]
    congr 1
    apply List.ext_getElem
    · simp [bh_length]
    · intro i h1 h2; simp [List.getElem?_eq_getElem h1]
  rw [h2, (bh_sums n hn).1]

theorem windowPower_nonneg (w : ℕ → ℝ) (n N k : ℕ) : 0 ≤ windowPower w n N k := by
  unfold windowPower; positivity

theorem bh_share (n N k : ℕ) (hn : 7 ≤ n) : noiseShare (fun j => (blackmanHarris n).getD j 0) n N k ≤ 2.0045 / n := by
  have hn' : (0 : ℝ) < n := by exact_mod_cast (by omega : 0 < n)
  unfold noiseShare
  rw [(bh_sums n hn).1, (bh_sums n hn).2, div_le_div_iff₀ (by positivity) hn']
  have h := div_nonneg (windowPower_nonneg (fun j => (blackmanHarris n).getD j 0) n N k) hn'.le
  nlinarith [mul_nonneg h hn'.le, mul_pos hn' hn']

/-- C122 (negative): mode 'dBm/Hz', documented as "power spectral density (noise level measurement)", does not measure the
noise level. With the default window and both sidebands the expected reading for white noise is at most `4.01 / n` of its
power density at every frequency, `n = int(1.9 * ceil(fs / rbw))` being the window length: the reading depends on the
resolution bandwidth and is less than a quarter of the density once `rbw <= fs / 10`, more than 26 dB too low with the default
bandwidth `fs / 1000`. -/
theorem C122_negative_noise_level (L : ℕ) (sig : ℝ) (hsig : sig ≠ 0) (fs rbw : ℝ) (hf : 0 < fs) (hb : 0 < rbw) (r : ℝ) (hr : 0 < r) (osr : ℕ)
    (ho : 0 < osr) (ov fsc : ℝ) (h0 : 0 ≤ ov) (h1 : ov < 1) (hfs : fsc ≠ 0) (n e : ℕ)
    (hn : n = 19 * ⌈fs / rbw⌉.toNat / 10) (hn7 : 7 ≤ n) (he : n * osr ≤ 2 ^ e) (he' : 2 ^ e < 2 * (n * osr)) (hL : n ≤ L) :
    ∃ (f : List ℝ) (P : (Fin L → ℝ) → List ℝ),
      (∀ z, psa blackmanHarris (inWhiteNoise (fun _ => 0) sig z) false fs (some rbw) "dBm/Hz" none r osr ov fsc true
        = .ok (some (f, P z))) ∧
      (∀ k, 2 * k ≤ 2 ^ e → Integrable (fun z => (P z).getD k 0) (normalDraws L) ∧
        ∫ z, (P z).getD k 0 ∂normalDraws L ≤ 4.01 / n * whiteDensity (sig ^ 2) r fs) ∧
      (rbw ≤ fs / 10 → ∀ k, 2 * k ≤ 2 ^ e → ∫ z, (P z).getD k 0 ∂normalDraws L < whiteDensity (sig ^ 2) r fs / 4) := by
  have hn' : (0 : ℝ) < n := by exact_mod_cast (by omega : 0 < n)
  obtain ⟨f, P, hP, hk⟩ := C122_mean blackmanHarris bh_length L (fun _ => 0) sig fs rbw hf hb "dBm/Hz" (by decide) (by decide) r hr osr ho
    ov fsc h0 h1 hfs true n e hn (by rw [bh_sum n hn7]; positivity) he he' hL
  have hP' : ∀ z, psa blackmanHarris (inWhiteNoise (fun _ => 0) sig z) false fs (some rbw) "dBm/Hz" none r osr ov fsc true
        = .ok (some (f, P z)) := by
    intro z
    rw [← hP z]
    simp
  have hzero : ∀ k, (P 0).getD k 0 = 0 := by
    intro k
    have hx : inWhiteNoise (fun _ : Fin L => (0 : ℂ)) sig 0 = (inWhiteNoise (fun _ : Fin L => (0 : ℂ)) sig 0).map (fun v => v * 0) := by
      apply List.ext_getElem
      · simp
      · intro i h1 h2; simp [inWhiteNoise]
    have heff : 0 < psaEffFs (inWhiteNoise (fun _ : Fin L => (0 : ℂ)) sig 0) fs true := by unfold psaEffFs; split <;> linarith
    obtain ⟨g, hg, -⟩ := psaNorm_fixed "dBm/Hz" (by decide) (by decide) (inWhiteNoise (fun _ : Fin L => (0 : ℂ)) sig 0) rbw
      (psaEffFs (inWhiteNoise (fun _ : Fin L => (0 : ℂ)) sig 0) fs true) r fsc hb heff hr hfs
    have h := hP' 0
    rw [psa_of_norm blackmanHarris _ false fs (some rbw) "dBm/Hz" none r osr ov fsc true rbw rfl g hg, hx, welch_map_mul] at h
    cases hw : welch (inWhiteNoise (fun _ : Fin L => (0 : ℂ)) sig 0) ((blackmanHarris (psaWindowN fs rbw)).map (fun (v : ℝ) => (v : ℂ)))
      (psaNfft (psaWindowN fs rbw) osr) fs (psaOverlap (psaWindowN fs rbw) ov) false with
    | error e => rw [hw] at h; cases h
    | ok v =>
      rw [hw] at h
      simp only [Except.map, Except.ok.injEq, Option.some.injEq, scaleSpectrum, Prod.mk.injEq, map_zero] at h
      rw [← h.2]
      by_cases hk : k < v.2.length
      · simp [List.getD_eq_getElem?_getD, hk]
      · simp [List.getD_eq_getElem?_getD]
  have hmain : ∀ k, 2 * k ≤ 2 ^ e → ∫ z, (P z).getD k 0 ∂normalDraws L ≤ 4.01 / n * whiteDensity (sig ^ 2) r fs := by
    intro k hk2
    rw [(hk k hk2).2, hzero k, zero_add, if_pos rfl]
    have hpf : powerFactor "dBm/Hz" 1 rbw (fs / 2) r fsc = 1000 / r / (fs / 2) := by
      rw [powerFactor, if_neg (by decide), if_pos rfl]
    rw [hpf]
    have hs := bh_share n (2 ^ e) k hn7
    have hq : noiseShare (fun j => (blackmanHarris n).getD j 0) n (2 ^ e) k * (if 0 < k ∧ 2 * k < 2 ^ e then (2 : ℝ) else 1) ≤ 4.01 / n := by
      have h2 : (2.0045 : ℝ) / n * 2 ≤ 4.01 / n := by rw [div_mul_eq_mul_div]; gcongr; norm_num
      have h3 : (2.0045 : ℝ) / n ≤ 4.01 / n := by gcongr; norm_num
      split
      · linarith
      · linarith
    have hd : 0 ≤ whiteDensity (sig ^ 2) r fs := by unfold whiteDensity; positivity
    calc 1000 / r / (fs / 2) * (sig ^ 2 * noiseShare (fun j => (blackmanHarris n).getD j 0) n (2 ^ e) k * if 0 < k ∧ 2 * k < 2 ^ e then 2 else 1)
        = (noiseShare (fun j => (blackmanHarris n).getD j 0) n (2 ^ e) k * (if 0 < k ∧ 2 * k < 2 ^ e then (2 : ℝ) else 1))
          * whiteDensity (sig ^ 2) r fs := by unfold whiteDensity; ring
      _ ≤ _ := mul_le_mul_of_nonneg_right hq hd
  refine ⟨f, P, hP', fun k hk2 => ⟨(hk k hk2).1, hmain k hk2⟩, fun hr10 k hk2 => lt_of_le_of_lt (hmain k hk2) ?_⟩
  have hc : (10 : ℤ) ≤ ⌈fs / rbw⌉ := by
    have h10 : (10 : ℝ) ≤ fs / rbw := by rw [le_div_iff₀ hb]; linarith
    have := Int.le_ceil (fs / rbw)
    exact_mod_cast h10.trans this
  have hn19 : 19 ≤ n := by omega
  have hn19' : (19 : ℝ) ≤ n := by exact_mod_cast hn19
  have hd : 0 < whiteDensity (sig ^ 2) r fs := by unfold whiteDensity; positivity
  have : (4.01 : ℝ) / n < 1 / 4 := by rw [div_lt_div_iff₀ hn' (by norm_num)]; linarith
  nlinarith

/-- C122 (negative): mode 'dBm', documented as "signal power spectrum", does not show the power of a signal either: a
complex tone of amplitude `A` at the centre of a bin, with a whole number of periods in the window, has the power
`1000 * |A|^2 / r` mW; the analyser shows this times `rbw` over the sampling frequency (over half of it if the samples are
real). -/
theorem C122_negative_tone (window : ℕ → List ℝ) (hwin : ∀ n, (window n).length = n) (fs rbw : ℝ) (hf : 0 < fs) (hb : 0 < rbw)
    (r : ℝ) (hr : 0 < r) (osr : ℕ) (ho : 0 < osr) (ov fsc : ℝ) (h0 : 0 ≤ ov) (h1 : ov < 1) (hfs : fsc ≠ 0) (dsb : Bool) (w e : ℕ)
    (hw : w = 19 * ⌈fs / rbw⌉.toNat / 10) (hsum : (window w).sum ≠ 0) (he : w * osr ≤ 2 ^ e) (he' : 2 ^ e < 2 * (w * osr))
    (A : ℂ) (hA : A ≠ 0) (k : ℕ) (hk0 : 0 < k) (hk : k < 2 ^ e) (hd : 2 ^ e ∣ k * w) (L : ℕ) (hL : w ≤ L) (x : List ℂ)
    (hx : x = (List.range L).map (fun j : ℕ => A * Complex.exp (2 * Real.pi * Complex.I * j * k / 2 ^ e))) :
    ∃ f p, psa window x true fs (some rbw) "dBm" none r osr ov fsc dsb = .ok (some (f, p)) ∧
      p.getD k 0 = 1000 * Complex.normSq A / r * (rbw / spreadBand x fs dsb) ∧
      (rbw < fs / 2 → p.getD k 0 < 1000 * Complex.normSq A / r) := by
  obtain ⟨f, p, h, hp, -⟩ := C70_tone window hwin fs rbw hf hb r osr ho ov fsc h0 h1 dsb w e hw hsum he he' A k hk0 hk hd L hL
  rw [← hx] at h
  have hsb : 0 < spreadBand x fs dsb := by unfold spreadBand; split <;> linarith
  have hA' : 0 < Complex.normSq A := Complex.normSq_pos.mpr hA
  obtain ⟨g, hg, hg2⟩ := psaNorm_fixed "dBm" (by decide) (by decide) x rbw (psaEffFs x fs dsb) r fsc hb
    (by rw [psaEffFs_eq]; exact hsb) hr hfs
  have hpf : powerFactor "dBm" 1 rbw (psaEffFs x fs dsb) r fsc = 1000 / r * rbw / spreadBand x fs dsb := by
    rw [powerFactor, if_pos rfl, psaEffFs_eq]
  rw [hpf] at hg2
  have hval : (p.map (1000 / r * rbw / spreadBand x fs dsb * ·)).getD k 0 = 1000 * Complex.normSq A / r * (rbw / spreadBand x fs dsb) := by
    have hkl : k < p.length := by
      by_contra hc
      rw [List.getD_eq_default _ _ (by omega)] at hp
      exact hA'.ne hp
    rw [List.getD_eq_getElem _ _ (by simpa using hkl), List.getElem_map]
    rw [List.getD_eq_getElem _ _ hkl] at hp
    rw [hp]
    ring
  refine ⟨f, p.map (1000 / r * rbw / spreadBand x fs dsb * ·), ?_, hval, fun hlt => ?_⟩
  · rw [psa_of_norm window x true fs (some rbw) "dB" none r osr ov fsc dsb rbw rfl 1 (psaNorm_dB x rbw _ r fsc)] at h
    rw [psa_of_norm window x true fs (some rbw) "dBm" none r osr ov fsc dsb rbw rfl g hg, map_some_scale, h, hg2]
    rfl
  · rw [hval]
    have hge : fs / 2 ≤ spreadBand x fs dsb := by unfold spreadBand; split <;> linarith
    have : rbw / spreadBand x fs dsb < 1 := by rw [div_lt_one hsb]; linarith
    have hpos : 0 < 1000 * Complex.normSq A / r := by positivity
    nlinarith

/-- the hypotheses are met by 64 samples of white noise of standard deviation 1/10, sampled with 8 GHz, analysed with a
resolution bandwidth of 800 MHz -/
example : ∃ (f : List ℝ) (P : (Fin 64 → ℝ) → List ℝ),
      (∀ z, psa blackmanHarris (inWhiteNoise (fun _ => 0) (1 / 10) z) false 8000000000 (some 800000000) "dBm/Hz" none 50 4 (3 / 4) 1 true
        = .ok (some (f, P z))) ∧
      ∀ k, 2 * k ≤ 2 ^ 7 → ∫ z, (P z).getD k 0 ∂normalDraws 64 < whiteDensity ((1 / 10) ^ 2) 50 8000000000 / 4 := by
  have hc : ⌈(8000000000 : ℝ) / 800000000⌉ = 10 := by norm_num
  obtain ⟨f, P, h1, -, h2⟩ := C122_negative_noise_level 64 (1 / 10) (by norm_num) 8000000000 800000000 (by norm_num) (by norm_num) 50
    (by norm_num) 4 (by norm_num) (3 / 4) 1 (by norm_num) (by norm_num) (by norm_num) 19 7 (by rw [hc]; rfl) (by norm_num) (by norm_num)
    (by norm_num) (by norm_num)
  exact ⟨f, P, h1, h2 (by norm_num)⟩

/-- the hypotheses of the tone are met by the rectangular window of 38 samples (resolution bandwidth a twentieth of the
sampling frequency), a transform of 64 points and a tone at half the sampling frequency -/
example : ∃ f p, psa (fun n => List.replicate n 1)
      ((List.range 40).map (fun j : ℕ => Complex.I * Complex.exp (2 * Real.pi * Complex.I * j * (32 : ℕ) / 2 ^ 6))) true 20 (some 1)
        "dBm" none 50 1 (1 / 2) 1 true = .ok (some (f, p)) ∧
      p.getD 32 0 < 1000 * Complex.normSq Complex.I / 50 := by
  have hc : ⌈(20 : ℝ) / 1⌉ = 20 := by norm_num
  obtain ⟨f, p, h1, -, h2⟩ := C122_negative_tone (fun n => List.replicate n 1) (by simp) 20 1 (by norm_num) (by norm_num) 50 (by norm_num) 1
    (by norm_num) (1 / 2) 1 (by norm_num) (by norm_num) (by norm_num) true 38 6 (by rw [hc]; rfl)
    (by rw [List.sum_replicate]; norm_num) (by norm_num) (by norm_num) Complex.I Complex.I_ne_zero 32 (by norm_num) (by norm_num) (by norm_num) 40 (by norm_num) _ rfl
  exact ⟨f, p, h1, h2 (by norm_num)⟩

end Verif
