import Verif.Props.PsaNoise

/-! Property C122, complex signals: the power spectrum analyser in circular complex white noise. -/

open MeasureTheory ProbabilityTheory Finset

namespace Verif

variable {L : ℕ}

theorem inCircular_getD (s : Fin L → ℂ) (sig : ℝ) (z : Fin (L + L) → ℝ) (i : Fin L) : (inCircularNoise s sig z).getD i 0
    = s i + (((sig * z (Fin.castAdd L i) : ℝ) : ℂ) + ((sig * z (Fin.natAdd L i) : ℝ) : ℂ) * Complex.I) := by
  unfold inCircularNoise
  rw [List.getD_eq_getElem _ _ (by simp), List.getElem_ofFn]

/-- one bin of one segment -/
theorem seg_mean_c (w : List ℝ) (N k n a : ℕ) (hn : 0 < n) (h : a + n ≤ L) (s : Fin L → ℂ) (sig : ℝ) :
    Integrable (fun z : Fin (L + L) → ℝ => Complex.normSq (dftAt N k (w.map (fun (v : ℝ) => (v : ℂ)))
        (detrend (((inCircularNoise s sig z).drop a).take n)))) (normalDraws (L + L)) ∧
      ∫ z, Complex.normSq (dftAt N k (w.map (fun (v : ℝ) => (v : ℂ))) (detrend (((inCircularNoise s sig z).drop a).take n)))
          ∂normalDraws (L + L)
        = Complex.normSq (dftAt N k (w.map (fun (v : ℝ) => (v : ℂ))) (detrend (((List.ofFn s).drop a).take n)))
          + 2 * sig ^ 2 * (∑ j ∈ range n, w.getD j 0 ^ 2 - windowPower (fun j => w.getD j 0) n N k / n) := by
  set win := w.map (fun (v : ℝ) => (v : ℂ)) with hwin
  set c : Fin L → ℂ := fun i => binWeight win N k n a i with hc
  have hlen : ∀ z, (inCircularNoise s sig z).length = L := fun z => by simp [inCircularNoise]
  have hd : ∀ z : Fin (L + L) → ℝ, dftAt N k win (detrend (((inCircularNoise s sig z).drop a).take n))
      = ∑ i, c i * s i + ∑ i, c i * (((sig * z (Fin.castAdd L i) : ℝ) : ℂ) + ((sig * z (Fin.natAdd L i) : ℝ) : ℂ) * Complex.I) := by
    intro z
    rw [dft_seg win _ N k n a hn (by rw [hlen]; exact h), hlen, sum_range, ← sum_add_distrib]
    exact sum_congr rfl fun i _ => by rw [inCircular_getD, mul_add]
  have h0 : dftAt N k win (detrend (((List.ofFn s).drop a).take n)) = ∑ i, c i * s i := by
    rw [dft_seg win _ N k n a hn (by rw [List.length_ofFn]; exact h), List.length_ofFn, sum_range]
    exact sum_congr rfl fun i _ => by rw [List.getD_eq_getElem _ _ (by simp), List.getElem_ofFn]
  rw [h0]
  set D := ∑ i, c i * s i with hD
  set u : Fin (L + L) → ℝ := Fin.append (fun i => sig * (c i).re) (fun i => -(sig * (c i).im)) with hu
  set v : Fin (L + L) → ℝ := Fin.append (fun i => sig * (c i).im) (fun i => sig * (c i).re) with hv
  have hre : ∀ z : Fin (L + L) → ℝ, (∑ i, c i * (((sig * z (Fin.castAdd L i) : ℝ) : ℂ)
      + ((sig * z (Fin.natAdd L i) : ℝ) : ℂ) * Complex.I)).re = ∑ i, u i * z i := by
    intro z
    rw [Complex.re_sum, Fin.sum_univ_add, ← sum_add_distrib]
    refine sum_congr rfl fun i _ => ?_
    simp only [hu, Fin.append_left, Fin.append_right]
    simp
    ring
  have him : ∀ z : Fin (L + L) → ℝ, (∑ i, c i * (((sig * z (Fin.castAdd L i) : ℝ) : ℂ)
      + ((sig * z (Fin.natAdd L i) : ℝ) : ℂ) * Complex.I)).im = ∑ i, v i * z i := by
    intro z
    rw [Complex.im_sum, Fin.sum_univ_add, ← sum_add_distrib]
    refine sum_congr rfl fun i _ => ?_
    simp only [hv, Fin.append_left, Fin.append_right]
    simp
    ring
  have hfun : (fun z : Fin (L + L) → ℝ => Complex.normSq (dftAt N k win (detrend (((inCircularNoise s sig z).drop a).take n))))
      = fun z => (D.re + ∑ i, u i * z i) ^ 2 + (D.im + ∑ i, v i * z i) ^ 2 := by
    funext z
    rw [hd z, Complex.normSq_apply, Complex.add_re, Complex.add_im, hre, him]
    ring
  obtain ⟨i1, m1⟩ := affine_moment D.re u
  obtain ⟨i2, m2⟩ := affine_moment D.im v
  rw [hfun]
  refine ⟨i1.add i2, ?_⟩
  rw [integral_add i1 i2, m1, m2, ← binWeight_power w N k n a L hn h, sum_range, mul_sum, Complex.normSq_apply]
  have : ∑ i : Fin L, 2 * sig ^ 2 * Complex.normSq (binWeight win N k n a i) = ∑ i, u i ^ 2 + ∑ i, v i ^ 2 := by
    rw [Fin.sum_univ_add, Fin.sum_univ_add, ← sum_add_distrib, ← sum_add_distrib, ← sum_add_distrib]
    refine sum_congr rfl fun i _ => ?_
    simp only [hu, hv, Fin.append_left, Fin.append_right, Complex.normSq_apply, hc]
    ring
  rw [this]
  ring

/-- one bin of Welch's two-sided spectrum -/
theorem welchBin_mean_c (w : List ℝ) (N k o : ℕ) (ho : o < w.length) (hL : w.length ≤ L) (hs : w.sum ≠ 0)
    (s : Fin L → ℂ) (sig : ℝ) :
    Integrable (fun z : Fin (L + L) → ℝ => welchBin (inCircularNoise s sig z) (w.map (fun (v : ℝ) => (v : ℂ))) N o false k)
        (normalDraws (L + L)) ∧
      ∫ z, welchBin (inCircularNoise s sig z) (w.map (fun (v : ℝ) => (v : ℂ))) N o false k ∂normalDraws (L + L)
        = welchBin (List.ofFn s) (w.map (fun (v : ℝ) => (v : ℂ))) N o false k
          + 2 * sig ^ 2 * noiseShare (fun j => w.getD j 0) w.length N k := by
  set win := w.map (fun (v : ℝ) => (v : ℂ)) with hwin
  have hwl : win.length = w.length := by simp [hwin]
  set n := w.length with hn
  set S := (L - o) / (n - o) with hS
  have hS1 : 1 ≤ S := (Nat.one_le_div_iff (by omega)).mpr (by omega)
  have hb : ∀ x : List ℂ, x.length = L → welchBin x win N o false k
      = (∑ t ∈ range S, Complex.normSq (dftAt N k win (detrend ((x.drop (t * (n - o))).take n))))
        * (1 / Complex.normSq win.sum / S) := by
    intro x hx
    unfold welchBin welchSegments
    simp only [hx, hwl, List.map_map, List.length_map, List.length_range, Function.comp_def]
    rw [listSum_range, ← hS, if_neg (by simp)]
    ring
  have hlen : ∀ z, (inCircularNoise s sig z).length = L := fun z => by simp [inCircularNoise]
  have hfit : ∀ t ∈ range S, t * (n - o) + n ≤ L := by
    intro t ht
    have h1 : (t + 1) * (n - o) ≤ S * (n - o) := Nat.mul_le_mul_right _ (mem_range.mp ht)
    have h2 : S * (n - o) ≤ L - o := Nat.div_mul_le_self _ _
    rw [add_mul, one_mul] at h1
    omega
  have hn0 : 0 < n := by omega
  have hm := fun t (ht : t ∈ range S) => seg_mean_c w N k n (t * (n - o)) hn0 (hfit t ht) s sig
  rw [← hwin] at hm
  have hint := integrable_finsetSum (range S) fun t ht => (hm t ht).1
  have hws : win.sum = ((w.sum : ℝ) : ℂ) := by rw [hwin]; exact (map_list_sum Complex.ofRealHom w).symm
  have hsum : Complex.normSq win.sum = (∑ j ∈ range n, w.getD j 0) ^ 2 := by
    have h2 : w.sum = ∑ j ∈ range n, w.getD j 0 := by
      rw [← listSum_range]
      congr 1
      apply List.ext_getElem
      · simp [hn]
      · intro i h1 h2; simp [List.getElem?_eq_getElem h1]
    rw [hws, Complex.normSq_ofReal, h2]; ring
  have hz : (∑ j ∈ range n, w.getD j 0) ^ 2 ≠ 0 := by
    rw [← hsum, Ne, Complex.normSq_eq_zero, hws]
    exact fun h => hs (by exact_mod_cast h)
  have hS' : (S : ℝ) ≠ 0 := by exact_mod_cast (by omega : S ≠ 0)
  simp only [fun z => hb (inCircularNoise s sig z) (hlen z), hb (List.ofFn s) (by simp)]
  refine ⟨hint.mul_const _, ?_⟩
  rw [integral_mul_const, integral_finsetSum _ fun t ht => (hm t ht).1, sum_congr rfl fun t ht => (hm t ht).2,
    sum_add_distrib, sum_const, card_range, nsmul_eq_mul, hsum]
  unfold noiseShare
  field_simp

/-- circular noise leaves no signal real, but for draws of probability zero -/
theorem circular_not_real (s : Fin L → ℂ) (sig : ℝ) (hs : sig ≠ 0) (hL : 0 < L) :
    ∀ᵐ z ∂normalDraws (L + L), allReal (inCircularNoise s sig z) = false := by
  have : IsProbabilityMeasure (normalDraws (L + L)) := by unfold normalDraws; infer_instance
  set i0 : Fin L := ⟨0, hL⟩
  have hz : (normalDraws (L + L)).real {z | z (Fin.natAdd L i0) ∈ ({-(s i0).im / sig} : Set ℝ)} = 0 := by
    rw [draws_single]
    have : NullSingletonClass (gaussianReal 0 1) := nullSingletonClass_gaussianReal one_ne_zero
    rw [measureReal_def, measure_singleton]; rfl
  rw [measureReal_eq_zero_iff] at hz
  refine measure_mono_null (fun z hz => ?_) hz
  by_contra hc
  apply hz
  show allReal (inCircularNoise s sig z) = false
  unfold allReal
  refine @decide_eq_false _ (_) fun hall => hc ?_
  have h1 := hall ((inCircularNoise s sig z).getD i0 0) (by
    rw [List.getD_eq_getElem _ _ (by simp [inCircularNoise])]; exact List.getElem_mem _)
  rw [inCircular_getD] at h1
  simp only [Complex.add_im, Complex.ofReal_im, Complex.mul_im, Complex.ofReal_re, Complex.I_im, Complex.I_re, mul_one, mul_zero,
    zero_add, add_zero] at h1
  show z (Fin.natAdd L i0) = -(s i0).im / sig
  rw [eq_div_iff hs]
  linarith

/-- C122, complex data: the expected spectrum of a complex signal in circular complex white noise of variance
`2 * sig^2`, in every mode whose factor does not depend on the signal, for every window, overlap, bandwidth and setting of
the sidebands. The analyser returns a two-sided spectrum of all `2^e` bins with probability one, and each bin shows on
average what it shows of the signal without noise (as `sb_mode` other than 'DSB' reads it) plus the variance times the
share of the window times the factor of the mode. -/
theorem C122_mean_complex (window : ℕ → List ℝ) (hwin : ∀ n, (window n).length = n) (L : ℕ) (s : Fin L → ℂ) (sig : ℝ) (hsig : sig ≠ 0)
    (fs rbw : ℝ) (hf : 0 < fs) (hb : 0 < rbw) (mode : String) (hm : mode ∈ supportedModes) (hne : mode ≠ "dBc") (r : ℝ) (hr : 0 < r)
    (osr : ℕ) (ho : 0 < osr) (ov fsc : ℝ) (h0 : 0 ≤ ov) (h1 : ov < 1) (hfs : fsc ≠ 0) (dsb : Bool) (n e : ℕ)
    (hn : n = 19 * ⌈fs / rbw⌉.toNat / 10) (hsum : (window n).sum ≠ 0) (he : n * osr ≤ 2 ^ e) (he' : 2 ^ e < 2 * (n * osr))
    (hL : n ≤ L) :
    ∃ (f P0 : List ℝ) (P : (Fin (L + L) → ℝ) → List ℝ), f.length = 2 ^ e ∧
      psa window (List.ofFn s) true fs (some rbw) mode none r osr ov fsc false = .ok (some (f, P0)) ∧
      (∀ᵐ z ∂normalDraws (L + L),
        psa window (inCircularNoise s sig z) true fs (some rbw) mode none r osr ov fsc dsb = .ok (some (f, P z))) ∧
      ∀ k < 2 ^ e, Integrable (fun z => (P z).getD k 0) (normalDraws (L + L)) ∧
        ∫ z, (P z).getD k 0 ∂normalDraws (L + L) = P0.getD k 0
          + powerFactor mode 1 rbw fs r fsc * (2 * sig ^ 2 * noiseShare (fun j => (window n).getD j 0) n (2 ^ e) k) := by
  have hwd : psaWindowN fs rbw = n := hn.symm
  have hn0 : 0 < n := by rw [← hwd]; exact psaWindowN_pos fs rbw hf hb
  obtain ⟨b1, b2, e', b3⟩ := psaNfft_bounds n osr hn0 ho
  have hee : e' = e := pow2_between_unique (n * osr) e' e (b3 ▸ b1) (b3 ▸ b2) he he'
  rw [hee] at b3
  have hov := psaOverlap_lt n ov hn0 h0 h1
  set win : List ℂ := (window n).map (fun (v : ℝ) => (v : ℂ)) with hwi
  have hwl : win.length = n := by rw [hwi, List.length_map, hwin]
  set G := powerFactor mode 1 rbw fs r fsc with hG
  have hnn : n ≤ 2 ^ e := le_trans (Nat.le_mul_of_pos_right _ ho) he
  have hpsa : ∀ (x : List ℂ) (d : Bool), x.length = L → psaEffFs x fs d = fs →
      psa window x true fs (some rbw) mode none r osr ov fsc d = .ok (some ((List.range (2 ^ e)).map (welchFreq fs (2 ^ e) false),
        ((List.range (2 ^ e)).map (welchBin x win (2 ^ e) (psaOverlap n ov) false)).map (G * ·))) := by
    intro x d hx heff
    obtain ⟨g, hg, hg2⟩ := psaNorm_fixed mode hm hne x rbw (psaEffFs x fs d) r fsc hb (by rw [heff]; exact hf) hr hfs
    rw [psa_of_norm window _ true fs (some rbw) mode none r osr ov fsc d rbw rfl g hg, hwd, b3, ← hwi, hg2, heff, ← hG]
    unfold welch
    rw [if_neg (by rw [hx]; omega), if_neg (by rw [hx, hwl]; omega), if_neg (by rw [hwl]; omega), if_neg (by rw [hwl]; omega)]
    rfl
  have hget : ∀ (x : List ℂ) (k : ℕ), k < 2 ^ e → (((List.range (2 ^ e)).map
        (welchBin x win (2 ^ e) (psaOverlap n ov) false)).map (G * ·)).getD k 0
        = G * welchBin x win (2 ^ e) (psaOverlap n ov) false k := by
    intro x k hk
    simp [List.getD_eq_getElem?_getD, hk]
  refine ⟨_, _, fun z => ((List.range (2 ^ e)).map
    (welchBin (inCircularNoise s sig z) win (2 ^ e) (psaOverlap n ov) false)).map (G * ·), by simp,
    hpsa (List.ofFn s) false (by simp) (by unfold psaEffFs; simp), ?_, fun k hk => ?_⟩
  · filter_upwards [circular_not_real s sig hsig (by omega : 0 < L)] with z hz
    exact hpsa _ dsb (by simp [inCircularNoise]) (by unfold psaEffFs; simp [hz])
  · have hw' : (window n).length = n := hwin n
    obtain ⟨i1, m1⟩ := welchBin_mean_c (L := L) (window n) (2 ^ e) k (psaOverlap n ov) (by rw [hw']; exact hov)
      (by rw [hw']; exact hL) hsum s sig
    rw [← hwi] at i1 m1
    simp only [fun z => hget (inCircularNoise s sig z) k hk]
    refine ⟨i1.const_mul _, ?_⟩
    rw [integral_const_mul, m1, hw', mul_add, hget _ k hk]

/-- 64 samples of a complex tone in circular noise, sampled with 8 GHz, default window -/
example : ∃ (f P0 : List ℝ) (P : (Fin (64 + 64) → ℝ) → List ℝ), f.length = 2 ^ 7 ∧
      (∀ᵐ z ∂normalDraws (64 + 64), psa blackmanHarris (inCircularNoise (fun i : Fin 64 => Complex.I ^ (i : ℕ)) (1 / 10) z) true
        8000000000 (some 800000000) "dBm/Hz" none 50 4 (3 / 4) 1 true = .ok (some (f, P z))) ∧
      ∫ z, (P z).getD 100 0 ∂normalDraws (64 + 64) = P0.getD 100 0 + powerFactor "dBm/Hz" 1 800000000 8000000000 50 1
        * (2 * (1 / 10) ^ 2 * noiseShare (fun j => (blackmanHarris 19).getD j 0) 19 (2 ^ 7) 100) := by
  have hc : ⌈(8000000000 : ℝ) / 800000000⌉ = 10 := by norm_num
  obtain ⟨f, P0, P, h1, -, h3, h4⟩ := C122_mean_complex blackmanHarris bh_length 64 (fun i : Fin 64 => Complex.I ^ (i : ℕ)) (1 / 10)
    (by norm_num) 8000000000 800000000 (by norm_num) (by norm_num) "dBm/Hz" (by decide) (by decide) 50
    (by norm_num) 4 (by norm_num) (3 / 4) 1 (by norm_num) (by norm_num) (by norm_num) true 19 7 (by rw [hc]; rfl)
    (by rw [bh_sum 19 (by norm_num)]; norm_num) (by norm_num) (by norm_num) (by norm_num)
  exact ⟨f, P0, P, h1, h3, (h4 100 (by norm_num)).2⟩

end Verif
