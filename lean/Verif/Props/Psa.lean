import Verif.Lemmas.Psa

/-! Property C70: the power spectrum analyser. -/

namespace Verif

/-- C70: with a given resolution bandwidth, a supported mode and sensible parameters the analyser returns exactly when
the signal has at least `int(1.9 * ceil(fs / rbw))` samples, and raises ValueError otherwise. -/
theorem C70_accepts_iff (window : ℕ → List ℝ) (hwin : ∀ n, (window n).length = n) (x : List ℂ) (hx : x ≠ [])
    (cplx : Bool) (fs rbw : ℝ) (hf : 0 < fs) (hb : 0 < rbw) (mode : String) (hm : mode ∈ supportedModes)
    (obw : Option ℝ) (r : ℝ) (hr : r ≠ 0) (osr : ℕ) (ho : 0 < osr) (ov fsc : ℝ) (h0 : 0 ≤ ov) (h1 : ov < 1)
    (dsb : Bool) :
    (19 * ⌈fs / rbw⌉.toNat / 10 ≤ x.length →
      ∃ v, psa window x cplx fs (some rbw) mode obw r osr ov fsc dsb = .ok v) ∧
    (x.length < 19 * ⌈fs / rbw⌉.toNat / 10 →
      psa window x cplx fs (some rbw) mode obw r osr ov fsc dsb = .error .valueError) := by
  have hm' : (if obw.isSome then "dBc" else mode) ∈ supportedModes := by
    split
    · decide
    · exact hm
  obtain ⟨nrm, hn⟩ := psaNorm_ok _ hm' x rbw (psaEffFs x fs dsb) r fsc obw hr
  have hx' : x.length ≠ 0 := fun h => hx (List.length_eq_zero_iff.mp h)
  have hw : 0 < psaWindowN fs rbw := psaWindowN_pos fs rbw hf hb
  obtain ⟨hn1, -, -⟩ := psaNfft_bounds (psaWindowN fs rbw) osr hw ho
  have hn2 : psaWindowN fs rbw ≤ psaNfft (psaWindowN fs rbw) osr := le_trans (Nat.le_mul_of_pos_right _ ho) hn1
  have hov := psaOverlap_lt (psaWindowN fs rbw) ov hw h0 h1
  have hdef : psa window x cplx fs (some rbw) mode obw r osr ov fsc dsb = (do
      let w ← welch (x.map (fun v => v * ((nrm.getD 0 : ℝ) : ℂ)))
        ((window (psaWindowN fs rbw)).map (fun (v : ℝ) => (v : ℂ))) (psaNfft (psaWindowN fs rbw) osr) fs
        (psaOverlap (psaWindowN fs rbw) ov) cplx
      return (if nrm.isNone then none else some w)) := by
    simp only [psa, psaRbw]
    show (psaNorm _ _ _ _ _ _ _ >>= _) = _
    rw [hn]
    rfl
  rw [hdef]
  constructor
  · intro h
    rw [welch, if_neg (by simpa using hx'), if_neg (by simp [hwin]; exact h), if_neg (by simp [hwin]; exact hn2),
      if_neg (by simp [hwin]; exact hov)]
    exact ⟨_, rfl⟩
  · intro h
    rw [welch, if_neg (by simpa using hx'), if_pos (by simp [hwin]; exact h)]
    rfl

/-- C70: with the default resolution bandwidth a signal of at least 1900 samples is analysed with a window of 1900
samples and a transform of 8192 points (for the default `osr = 4`) ... -/
theorem C70_default_rbw (window : ℕ → List ℝ) (hwin : ∀ n, (window n).length = n) (x : List ℂ)
    (hx : 1900 ≤ x.length) (cplx : Bool) (fs : ℝ) (hf : 0 < fs) (mode : String) (hm : mode ∈ supportedModes)
    (obw : Option ℝ) (r : ℝ) (hr : r ≠ 0) (osr : ℕ) (ho : 0 < osr) (ov fsc : ℝ) (h0 : 0 ≤ ov) (h1 : ov < 1)
    (dsb : Bool) : ∃ v, psa window x cplx fs none mode obw r osr ov fsc dsb = .ok v := by
  have hn : 0 < x.length := by omega
  have hw := psaWindowN_default x.length fs hf hn
  have hb : 0 < max (fs / 1000) (2 * fs / (x.length : ℝ) / 10) := lt_max_of_lt_left (by positivity)
  have h := (C70_accepts_iff window hwin x (by intro h; simp [h] at hn) cplx fs _ hf hb mode hm obw r hr osr ho ov fsc h0 h1
    dsb).1 (by unfold psaWindowN at hw; rw [hw]; omega)
  have he : psa window x cplx fs none mode obw r osr ov fsc dsb
      = psa window x cplx fs (some (max (fs / 1000) (2 * fs / (x.length : ℝ) / 10))) mode obw r osr ov fsc dsb := by
    simp only [psa, psaRbw]
    rw [if_neg (Nat.pos_iff_ne_zero.mp hn)]
  rw [he]; exact h

/-- C70 (negative): ... but with the default resolution bandwidth every shorter signal raises ValueError, in every
supported mode: the bandwidth `2*fs/len/10` asks for a window of 9.5 times the signal length. -/
theorem C70_negative_default_rbw_short (window : ℕ → List ℝ) (hwin : ∀ n, (window n).length = n) (x : List ℂ)
    (hx0 : x ≠ []) (hx : x.length < 1900) (cplx : Bool) (fs : ℝ) (hf : 0 < fs) (mode : String)
    (hm : mode ∈ supportedModes) (obw : Option ℝ) (r : ℝ) (hr : r ≠ 0) (osr : ℕ) (ho : 0 < osr) (ov fsc : ℝ)
    (h0 : 0 ≤ ov) (h1 : ov < 1) (dsb : Bool) :
    psa window x cplx fs none mode obw r osr ov fsc dsb = .error .valueError := by
  have hn : 0 < x.length := List.length_pos_iff.mpr hx0
  have hw := psaWindowN_default x.length fs hf hn
  have hb : 0 < max (fs / 1000) (2 * fs / (x.length : ℝ) / 10) := lt_max_of_lt_left (by positivity)
  have h := (C70_accepts_iff window hwin x hx0 cplx fs _ hf hb mode hm obw r hr osr ho ov fsc h0 h1
    dsb).2 (by unfold psaWindowN at hw; rw [hw]; omega)
  have he : psa window x cplx fs none mode obw r osr ov fsc dsb
      = psa window x cplx fs (some (max (fs / 1000) (2 * fs / (x.length : ℝ) / 10))) mode obw r osr ov fsc dsb := by
    simp only [psa, psaRbw]
    rw [if_neg (Nat.pos_iff_ne_zero.mp hn)]
  rw [he]; exact h

/-- C70 (negative): a mode outside of the supported list raises ValueError - among them the documented 'dBc/Hz '. -/
theorem C70_negative_modes (window : ℕ → List ℝ) (x : List ℂ) (cplx : Bool) (fs rbw : ℝ) (mode : String)
    (hm : mode ∉ supportedModes) (r : ℝ) (osr : ℕ) (ov fsc : ℝ) (dsb : Bool) :
    psa window x cplx fs (some rbw) mode none r osr ov fsc dsb = .error .valueError ∧ "dBc/Hz " ∉ supportedModes := by
  refine ⟨?_, by decide⟩
  simp only [supportedModes, List.mem_cons, List.not_mem_nil, or_false, not_or] at hm
  obtain ⟨h1, h2, h3, h4, h5, h6, h7⟩ := hm
  simp only [psa, psaRbw, Option.isSome_none, Bool.false_eq_true, if_false]
  show (psaNorm _ _ _ _ _ _ _ >>= _) = _
  rw [psaNorm, if_neg h1, if_neg h2, if_neg h3, if_neg h4, if_neg h5, if_neg h6, if_neg h7]
  rfl

/-- the factor of every mode in terms of the quantities computed on the way -/
theorem psa_mode_factors (window : ℕ → List ℝ) (x : List ℂ) (cplx : Bool) (fs rbw : ℝ) (hf : 0 < fs) (hb : 0 < rbw)
    (mode : String) (hm : mode ∈ supportedModes) (r : ℝ) (hr : 0 < r) (osr : ℕ) (ov fsc : ℝ) (hfs : fsc ≠ 0)
    (hms : meanSquare x ≠ 0) (dsb : Bool) :
    psa window x cplx fs (some rbw) mode none r osr ov fsc dsb
      = (psa window x cplx fs (some rbw) "dB" none r osr ov fsc dsb).map
          (Option.map (scaleSpectrum (powerFactor mode (meanSquare x) rbw (psaEffFs x fs dsb) r fsc))) := by
  have he : 0 < psaEffFs x fs dsb := by unfold psaEffFs; split <;> linarith
  obtain ⟨g, hg, hg2⟩ := psaNorm_factor mode hm x rbw (psaEffFs x fs dsb) r fsc hb he hr hfs hms
  rw [psa_of_norm window x cplx fs (some rbw) mode none r osr ov fsc dsb rbw rfl g hg,
    psa_of_norm window x cplx fs (some rbw) "dB" none r osr ov fsc dsb rbw rfl 1 (psaNorm_dB x rbw _ r fsc), hg2,
    map_some_scale]

theorem psaEffFs_eq (x : List ℂ) (fs : ℝ) (dsb : Bool) : psaEffFs x fs dsb = spreadBand x fs dsb := by
  classical
  have hiff : (∀ v ∈ x, v.im = 0) ↔ ∀ i < x.length, (x.getD i 0).im = 0 := by
    constructor
    · intro h i hi
      rw [List.getD_eq_getElem _ _ hi]; exact h _ (List.getElem_mem hi)
    · intro h v hv
      obtain ⟨i, hi, rfl⟩ := List.mem_iff_getElem.mp hv
      have := h i hi
      rwa [List.getD_eq_getElem _ _ hi] at this
  unfold psaEffFs spreadBand allReal
  by_cases h : ∀ i < x.length, (x.getD i 0).im = 0
  · have h' := hiff.mpr h
    rw [@decide_eq_true _ (_) h']
    cases dsb <;> simp only [Bool.true_and, Bool.false_eq_true, and_false, if_false, if_true, and_true]
    rw [if_pos h]
  · rw [@decide_eq_false _ (_) (fun h' => h (hiff.mp h'))]
    rw [Bool.false_and, if_neg Bool.false_ne_true, if_neg (fun hc => h hc.1)]

theorem meanSquare_eq (x : List ℂ) : meanSquare x = meanPower x := by
  unfold meanSquare meanPower
  congr 1
  rw [Finset.sum_range]
  rw [← List.sum_ofFn]
  congr 1
  refine List.ext_getElem (by simp) (fun i h1 h2 => ?_)
  rw [List.length_map] at h1
  rw [List.getElem_map, List.getElem_ofFn, List.getD_eq_getElem _ _ h1, Complex.normSq_apply]
  ring

/-- C70: every mode returns the spectrum of mode 'dB' (no normalisation) with each value multiplied by one explicit
power factor; e.g. 'dBm' is `rbw` times 'dBm/Hz', and the result is the same exception otherwise. -/
theorem C70_mode_factors (window : ℕ → List ℝ) (x : List ℂ) (cplx : Bool) (fs rbw : ℝ) (hf : 0 < fs) (hb : 0 < rbw)
    (mode : String) (hm : mode ∈ supportedModes) (r : ℝ) (hr : 0 < r) (osr : ℕ) (ov fsc : ℝ) (hfs : fsc ≠ 0)
    (hms : meanPower x ≠ 0) (dsb : Bool) :
    psa window x cplx fs (some rbw) mode none r osr ov fsc dsb
      = (psa window x cplx fs (some rbw) "dB" none r osr ov fsc dsb).map
          (Option.map (scaleSpectrum (powerFactor mode (meanPower x) rbw (spreadBand x fs dsb) r fsc))) := by
  rw [← meanSquare_eq] at hms ⊢
  rw [← psaEffFs_eq]
  exact psa_mode_factors window x cplx fs rbw hf hb mode hm r hr osr ov fsc hfs hms dsb

/-- C70: in mode 'dBc' the result does not depend on the amplitude of the signal. -/
theorem C70_dBc_scale_invariant (window : ℕ → List ℝ) (x : List ℂ) (cplx : Bool) (fs rbw : ℝ) (hf : 0 < fs)
    (hb : 0 < rbw) (r : ℝ) (hr : 0 < r) (osr : ℕ) (ov fsc : ℝ) (hfs : fsc ≠ 0) (hms : meanPower x ≠ 0) (dsb : Bool)
    (c : ℝ) (hc : c ≠ 0) :
    psa window (x.map (fun v => v * (c : ℂ))) cplx fs (some rbw) "dBc" none r osr ov fsc dsb
      = psa window x cplx fs (some rbw) "dBc" none r osr ov fsc dsb := by
  rw [← meanSquare_eq] at hms
  have hn : Complex.normSq (c : ℂ) = c ^ 2 := by rw [Complex.normSq_ofReal]; ring
  have hms' : meanSquare (x.map (fun v => v * (c : ℂ))) ≠ 0 := by
    rw [meanSquare_scale, hn]; exact mul_ne_zero hms (pow_ne_zero _ hc)
  have hd : psa window (x.map (fun v => v * (c : ℂ))) cplx fs (some rbw) "dB" none r osr ov fsc dsb
      = (psa window x cplx fs (some rbw) "dB" none r osr ov fsc dsb).map (Option.map (scaleSpectrum (c ^ 2))) := by
    rw [psa_of_norm window x cplx fs (some rbw) "dB" none r osr ov fsc dsb rbw rfl 1 (psaNorm_dB x rbw _ r fsc),
      psa_of_norm window _ cplx fs (some rbw) "dB" none r osr ov fsc dsb rbw rfl 1 (psaNorm_dB _ rbw _ r fsc),
      welch_map_mul, hn]
    cases welch x ((window (psaWindowN fs rbw)).map (fun (v : ℝ) => (v : ℂ))) (psaNfft (psaWindowN fs rbw) osr) fs
      (psaOverlap (psaWindowN fs rbw) ov) cplx with
    | error e => rfl
    | ok v => simp [Except.map, scaleSpectrum_one]
  have he : psaEffFs (x.map (fun v => v * (c : ℂ))) fs dsb = psaEffFs x fs dsb := by
    unfold psaEffFs; rw [allReal_scale c hc]
  rw [psa_mode_factors window _ cplx fs rbw hf hb "dBc" (by decide) r hr osr ov fsc hfs hms' dsb,
    psa_mode_factors window x cplx fs rbw hf hb "dBc" (by decide) r hr osr ov fsc hfs hms dsb, hd, he,
    meanSquare_scale, hn]
  cases psa window x cplx fs (some rbw) "dB" none r osr ov fsc dsb with
  | error e => rfl
  | ok v =>
    cases v with
    | none => rfl
    | some w =>
      simp only [Except.map, Option.map, scaleSpectrum, List.map_map]
      congr 3
      refine List.map_congr_left (fun v _ => ?_)
      simp only [Function.comp, powerFactor, if_neg (show ¬ ("dBc" = "dBm") by decide),
        if_neg (show ¬ ("dBc" = "dBm/Hz") by decide), if_neg (show ¬ ("dBc" = "dBuv") by decide),
        if_neg (show ¬ ("dBc" = "dBuv/sqrt(Hz)") by decide), if_true]
      field_simp

/-- C70 (negative): the analyser does not show a direct component: adding a constant to the signal does not change the
unnormalised spectrum at any frequency, 0 included (`welch` subtracts the mean of every segment). -/
theorem C70_negative_no_dc (window : ℕ → List ℝ) (x : List ℂ) (cplx : Bool) (fs : ℝ) (rbw : Option ℝ) (r : ℝ)
    (osr : ℕ) (ov fsc : ℝ) (dsb : Bool) (c : ℂ) :
    psa window (x.map (fun v => v + c)) cplx fs rbw "dB" none r osr ov fsc dsb
      = psa window x cplx fs rbw "dB" none r osr ov fsc dsb := by
  cases hb : psaRbw x.length fs rbw with
  | error e => unfold psa; simp only [List.length_map, hb]; rfl
  | ok b =>
    rw [psa_of_norm window x cplx fs rbw "dB" none r osr ov fsc dsb b hb 1 (psaNorm_dB x b _ r fsc),
      psa_of_norm window _ cplx fs rbw "dB" none r osr ov fsc dsb b (by rw [List.length_map]; exact hb) 1
        (psaNorm_dB _ b _ r fsc), welch_map_add]

/-- C70: a returned spectrum has one value per frequency, no value is negative, and for a real signal the frequencies
are the multiples of `fs / nfft` from 0 to `fs / 2`, `nfft` being a power of two of at least `osr` times the window
length and less than twice that. -/
theorem C70_spectrum (window : ℕ → List ℝ) (x : List ℂ) (hx : x ≠ []) (cplx : Bool) (fs rbw : ℝ) (hf : 0 < fs)
    (hb : 0 < rbw) (mode : String) (hm : mode ∈ supportedModes) (r : ℝ) (hr : 0 < r) (osr : ℕ) (ho : 0 < osr)
    (ov fsc : ℝ) (hfs : fsc ≠ 0) (hms : meanSquare x ≠ 0) (dsb : Bool) (f p : List ℝ)
    (h : psa window x cplx fs (some rbw) mode none r osr ov fsc dsb = .ok (some (f, p))) :
    f.length = p.length ∧ (∀ v ∈ p, 0 ≤ v) ∧
    ∃ e : ℕ, 19 * ⌈fs / rbw⌉.toNat / 10 * osr ≤ 2 ^ e ∧ 2 ^ e < 2 * (19 * ⌈fs / rbw⌉.toNat / 10 * osr) ∧
      (cplx = true → p.length = 2 ^ e) ∧
      (cplx = false → f = (List.range (2 ^ e / 2 + 1)).map (fun k : ℕ => (k : ℝ) * fs / 2 ^ e)) := by
  have he : 0 < psaEffFs x fs dsb := by unfold psaEffFs; split <;> linarith
  obtain ⟨g, hg, -⟩ := psaNorm_factor mode hm x rbw (psaEffFs x fs dsb) r fsc hb he hr hfs hms
  rw [psa_of_norm window x cplx fs (some rbw) mode none r osr ov fsc dsb rbw rfl g hg] at h
  obtain ⟨h1, h2, e, h3⟩ := psaNfft_bounds (psaWindowN fs rbw) osr (psaWindowN_pos fs rbw hf hb) ho
  rw [h3] at h1 h2 h
  have hx' : x.length ≠ 0 := fun h => hx (List.length_eq_zero_iff.mp h)
  unfold welch at h
  rw [if_neg hx'] at h
  split at h
  · cases h
  · split at h
    · cases h
    · split at h
      · cases h
      · simp only [Except.map, Except.ok.injEq, Option.some.injEq, scaleSpectrum, Prod.mk.injEq] at h
        obtain ⟨rfl, rfl⟩ := h
        refine ⟨by simp, ?_, e, h1, h2, ?_, ?_⟩
        · intro v hv
          simp only [List.map_map, List.mem_map, Function.comp] at hv
          obtain ⟨k, -, rfl⟩ := hv
          exact mul_nonneg (sq_nonneg _) (welchBin_nonneg _ _ _ _ _ _)
        · rintro rfl; simp
        · rintro rfl
          simp only [Bool.false_eq_true, if_false, Bool.not_false]
          refine List.map_congr_left (fun k _ => ?_)
          simp [welchFreq]

/-- C70: calibration. A complex tone of amplitude `A` at `k / 2^e` of the sampling frequency, `2^e` being the transform
length, that has a whole number of periods in the window (and is not constant) shows exactly the power `|A|^2` at its
own frequency, whatever the window and the overlap. -/
theorem C70_tone (window : ℕ → List ℝ) (hwin : ∀ n, (window n).length = n) (fs rbw : ℝ) (hf : 0 < fs) (hb : 0 < rbw)
    (r : ℝ) (osr : ℕ) (ho : 0 < osr) (ov fsc : ℝ) (h0 : 0 ≤ ov) (h1 : ov < 1) (dsb : Bool) (w e : ℕ)
    (hw : w = 19 * ⌈fs / rbw⌉.toNat / 10) (hsum : (window w).sum ≠ 0) (he : w * osr ≤ 2 ^ e) (he' : 2 ^ e < 2 * (w * osr))
    (A : ℂ) (k : ℕ) (hk0 : 0 < k) (hk : k < 2 ^ e) (hd : 2 ^ e ∣ k * w) (L : ℕ) (hL : w ≤ L) :
    ∃ f p, psa window ((List.range L).map (fun j : ℕ => A * Complex.exp (2 * Real.pi * Complex.I * j * k / 2 ^ e)))
        true fs (some rbw) "dB" none r osr ov fsc dsb = .ok (some (f, p)) ∧
      p.getD k 0 = Complex.normSq A ∧
      f.getD k 0 = (if 2 * k < 2 ^ e then (k : ℝ) else (k : ℝ) - 2 ^ e) * fs / 2 ^ e := by
  have hwd : psaWindowN fs rbw = w := hw.symm
  have hw0 : 0 < w := by rw [← hwd]; exact psaWindowN_pos fs rbw hf hb
  obtain ⟨b1, b2, e', b3⟩ := psaNfft_bounds w osr hw0 ho
  have hee : e' = e := pow2_between_unique (w * osr) e' e (b3 ▸ b1) (b3 ▸ b2) he he'
  rw [hee] at b3
  have htone : (List.range L).map (fun j : ℕ => A * Complex.exp (2 * Real.pi * Complex.I * j * k / 2 ^ e))
      = toneFrom A k (2 ^ e) 0 L := by
    unfold toneFrom
    refine List.map_congr_left (fun j _ => ?_)
    push_cast
    rw [zero_add]
  have hov := psaOverlap_lt w ov hw0 h0 h1
  have hlen : (toneFrom A k (2 ^ e) 0 L).length = L := by simp [toneFrom]
  have hle : w ≤ 2 ^ e := le_trans (Nat.le_mul_of_pos_right _ ho) he
  have hsumc : ((window w).map (fun (v : ℝ) => (v : ℂ))).sum ≠ 0 := by
    have hcast : ∀ l : List ℝ, (l.map (fun (v : ℝ) => (v : ℂ))).sum = ((l.sum : ℝ) : ℂ) := by
      intro l
      induction l with
      | nil => simp
      | cons a t ih => simp [ih]
    rw [hcast]
    exact_mod_cast hsum
  have hbin := welchBin_tone A k (2 ^ e) L (psaOverlap w ov) ((window w).map (fun (v : ℝ) => (v : ℂ))) (by positivity)
    (by rw [List.length_map, hwin]; exact hd) (fun h => absurd (Nat.le_of_dvd hk0 h) (by omega))
    (by rw [List.length_map, hwin]; exact hov) (by rw [List.length_map, hwin]; exact hL) hsumc
  rw [htone, psa_of_norm window _ true fs (some rbw) "dB" none r osr ov fsc dsb rbw rfl 1 (psaNorm_dB _ rbw _ r fsc), hwd, b3]
  rw [welch, if_neg (by rw [hlen]; omega), if_neg (by rw [hlen, List.length_map, hwin]; omega),
    if_neg (by rw [List.length_map, hwin]; omega), if_neg (by rw [List.length_map, hwin]; omega)]
  refine ⟨_, _, rfl, ?_, ?_⟩
  · simp [List.getD_eq_getElem?_getD, hk, hbin]
  · simp [List.getD_eq_getElem?_getD, hk, welchFreq]
    split <;> rfl

/-- C70: real samples. The spectrum of an array of real type (one-sided) is the spectrum of the same samples as an array
of complex type (two-sided) with the negative frequencies added to the positive ones: frequency zero and half the sampling
rate occur once, every other frequency twice. -/
theorem C70_onesided (window : ℕ → List ℝ) (hwin : ∀ n, (window n).length = n) (x : List ℂ) (hx0 : x ≠ [])
    (hx : ∀ v ∈ x, v.im = 0) (fs rbw : ℝ) (hf : 0 < fs) (hb : 0 < rbw) (r : ℝ) (osr : ℕ) (ho : 0 < osr) (ov fsc : ℝ)
    (h0 : 0 ≤ ov) (h1 : ov < 1) (dsb : Bool) (w e : ℕ) (hw : w = 19 * ⌈fs / rbw⌉.toNat / 10) (he : w * osr ≤ 2 ^ e)
    (he' : 2 ^ e < 2 * (w * osr)) (hL : w ≤ x.length) :
    ∃ f p f' p', psa window x false fs (some rbw) "dB" none r osr ov fsc dsb = .ok (some (f, p)) ∧
      psa window x true fs (some rbw) "dB" none r osr ov fsc dsb = .ok (some (f', p')) ∧
      p.length = 2 ^ e / 2 + 1 ∧ p'.length = 2 ^ e ∧ ∀ k, k ≤ 2 ^ e / 2 → k < 2 ^ e →
        p.getD k 0 = if k = 0 ∨ 2 * k = 2 ^ e then p'.getD k 0 else p'.getD k 0 + p'.getD (2 ^ e - k) 0 := by
  have hwd : psaWindowN fs rbw = w := hw.symm
  have hw0 : 0 < w := by rw [← hwd]; exact psaWindowN_pos fs rbw hf hb
  obtain ⟨b1, b2, e', b3⟩ := psaNfft_bounds w osr hw0 ho
  have hee : e' = e := pow2_between_unique (w * osr) e' e (b3 ▸ b1) (b3 ▸ b2) he he'
  rw [hee] at b3
  have hov := psaOverlap_lt w ov hw0 h0 h1
  have hle : w ≤ 2 ^ e := le_trans (Nat.le_mul_of_pos_right _ ho) he
  have hx1 := List.length_pos_iff.2 hx0
  have hnorm : ∀ c, psa window x c fs (some rbw) "dB" none r osr ov fsc dsb = _ := fun c =>
    psa_of_norm window _ c fs (some rbw) "dB" none r osr ov fsc dsb rbw rfl 1 (psaNorm_dB _ rbw _ r fsc)
  have hwe : ∀ c, welch x ((window w).map (fun (v : ℝ) => (v : ℂ))) (2 ^ e) fs (psaOverlap w ov) c = _ := fun c => by
    rw [welch, if_neg (by omega), if_neg (by rw [List.length_map, hwin]; omega),
      if_neg (by rw [List.length_map, hwin]; omega), if_neg (by rw [List.length_map, hwin]; omega)]
  have hwr : ∀ v ∈ (window w).map (fun (v : ℝ) => (v : ℂ)), v.im = 0 := by
    intro v hv
    obtain ⟨u, -, rfl⟩ := List.mem_map.1 hv
    exact Complex.ofReal_im u
  rw [hnorm false, hnorm true, hwd, b3, hwe, hwe]
  refine ⟨_, _, _, _, rfl, rfl, by simp [scaleSpectrum], by simp [scaleSpectrum], fun k hk hk' => ?_⟩
  have hpos : 0 < 2 ^ e := by positivity
  have h2k : 2 * k ≤ 2 ^ e := by omega
  have hfold := welchBin_fold x ((window w).map (fun (v : ℝ) => (v : ℂ))) hx hwr (2 ^ e) (psaOverlap w ov) k h2k hpos
  simp only [scaleSpectrum, one_pow, one_mul, Bool.not_false, Bool.not_true, Bool.false_eq_true, if_false, if_true, List.map_map]
  rw [List.getD_eq_getElem _ _ (by simp; omega), List.getD_eq_getElem _ _ (by simpa using hk')]
  simp only [List.getElem_map, List.getElem_range, Function.comp_apply, one_mul]
  rw [hfold]
  by_cases hc : k = 0 ∨ 2 * k = 2 ^ e
  · rw [if_pos hc, if_neg (by omega), add_zero]
  · rw [if_neg hc, if_pos (by omega), List.getD_eq_getElem _ _ (by simp; omega)]
    simp

/-! Concrete cases that meet the hypotheses. -/

example : ∃ v, psa (fun n => List.replicate n 1) (List.replicate 20 1) false 10 (some 1) "dBm" none 50 4 (3 / 4) 1 true
    = .ok v :=
  (C70_accepts_iff (fun n => List.replicate n 1) (by simp) _ (by simp) _ _ _ (by norm_num) (by norm_num) _ (by decide) _ _
    (by norm_num) _ (by norm_num) _ _ (by norm_num) (by norm_num) _).1 (by norm_num; decide)

example : psa (fun n => List.replicate n 1) (List.replicate 20 1) false 10 (some (1 / 2)) "dBm" none 50 4 (3 / 4) 1 true
    = .error .valueError :=
  (C70_accepts_iff (fun n => List.replicate n 1) (by simp) _ (by simp) _ _ _ (by norm_num) (by norm_num) _ (by decide) _ _
    (by norm_num) _ (by norm_num) _ _ (by norm_num) (by norm_num) _).2 (by norm_num; decide)

example : psa (fun n => List.replicate n 1) (List.replicate 1899 1) false 10 none "dB" none 50 4 (3 / 4) 1 true
    = .error .valueError :=
  C70_negative_default_rbw_short _ (fun _ => List.length_replicate) _
    (by rw [Ne, List.replicate_eq_nil_iff]; omega) (by rw [List.length_replicate]; omega) _ _ (by norm_num) _ (by decide) _ _ (by norm_num) _
    (by norm_num) _ _ (by norm_num) (by norm_num) _

example : ∃ v, psa (fun n => List.replicate n 1) (List.replicate 1900 1) false 10 none "dB" none 50 4 (3 / 4) 1 true
    = .ok v :=
  C70_default_rbw _ (fun _ => List.length_replicate) _ (by rw [List.length_replicate]) _ _ (by norm_num) _ (by decide) _ _ (by norm_num) _ (by norm_num) _ _
    (by norm_num) (by norm_num) _

example : psa (fun n => List.replicate n 1) (List.replicate 20 1) false 10 (some 1) "dBc/Hz " none 50 4 (3 / 4) 1 true
    = .error .valueError := (C70_negative_modes _ _ _ _ _ _ (by decide) _ _ _ _ _).1

example : meanSquare [1, -1, 1, 1] ≠ 0 := by norm_num [meanSquare]

/-- a tone at half the sampling frequency (bin 32 of 64) in a window of 38 samples -/
example : ∃ f p, psa (fun n => List.replicate n 1)
      ((List.range 50).map (fun j : ℕ => 3 * Complex.exp (2 * Real.pi * Complex.I * j * (32 : ℕ) / 2 ^ 6)))
      true 20 (some 1) "dB" none 50 1 (3 / 4) 1 true = .ok (some (f, p)) ∧ p.getD 32 0 = Complex.normSq 3 ∧
    f.getD 32 0 = (if 2 * 32 < 2 ^ 6 then ((32 : ℕ) : ℝ) else ((32 : ℕ) : ℝ) - 2 ^ 6) * 20 / 2 ^ 6 :=
  C70_tone (fun n => List.replicate n 1) (by simp) 20 1 (by norm_num) (by norm_num) 50 1 (by norm_num) (3 / 4) 1
    (by norm_num) (by norm_num) true 38 6 (by norm_num; decide) (by rw [List.sum_replicate]; norm_num) (by norm_num) (by norm_num) 3 32 (by norm_num)
    (by norm_num) (by norm_num) 50 (by norm_num)

/-- real samples, windows of 38 samples -/
example : ∃ f p f' p', psa (fun n => List.replicate n 1) ((List.range 50).map (fun j : ℕ => (j : ℂ) ^ 2)) false 20 (some 1) "dB"
      none 50 1 (3 / 4) 1 true = .ok (some (f, p)) ∧
    psa (fun n => List.replicate n 1) ((List.range 50).map (fun j : ℕ => (j : ℂ) ^ 2)) true 20 (some 1) "dB" none 50 1 (3 / 4) 1
      true = .ok (some (f', p')) ∧
    p.length = 2 ^ 6 / 2 + 1 ∧ p'.length = 2 ^ 6 ∧ ∀ k, k ≤ 2 ^ 6 / 2 → k < 2 ^ 6 →
      p.getD k 0 = if k = 0 ∨ 2 * k = 2 ^ 6 then p'.getD k 0 else p'.getD k 0 + p'.getD (2 ^ 6 - k) 0 :=
  C70_onesided (fun n => List.replicate n 1) (by simp) _ (by rw [Ne, List.map_eq_nil_iff]; decide)
    (by
      intro v hv
      obtain ⟨j, -, rfl⟩ := List.mem_map.1 hv
      have : ((j : ℂ) ^ 2) = (((j : ℝ) ^ 2 : ℝ) : ℂ) := by push_cast; rfl
      rw [this]; exact Complex.ofReal_im _) 20 1 (by norm_num) (by norm_num) 50 1 (by norm_num) (3 / 4) 1
    (by norm_num) (by norm_num) true 38 6 (by norm_num; decide) (by norm_num) (by norm_num) (by simp)

end Verif
