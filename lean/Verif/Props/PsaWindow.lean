import Verif.Props.PsaNoise

/-! C122: the default window is admissible for every length. -/

open Finset MeasureTheory

namespace Verif

/-- **C122.** Every sample of the default window, of any length, is between 0.00006 and 1; the window has the requested length and
its middle sample, if there is one, is 1. -/
theorem C122_window (n j : ℕ) (hj : j < n) :
    (blackmanHarris n).length = n ∧ 0.00006 ≤ (blackmanHarris n).getD j 0 ∧ (blackmanHarris n).getD j 0 ≤ 1 ∧
      (2 * j = n ∨ n = 1 → (blackmanHarris n).getD j 0 = 1) := by
  refine ⟨bh_length n, ?_⟩
  by_cases hn : n ≤ 1
  · have h1 : n = 1 := by omega
    have h0 : j = 0 := by omega
    subst h1; subst h0
    have : blackmanHarris 1 = [1] := by unfold blackmanHarris; rw [if_pos le_rfl]; rfl
    rw [this]
    norm_num
  · unfold blackmanHarris
    rw [if_neg hn, List.getD_eq_getElem _ _ (by simpa using hj)]
    simp only [List.getElem_map, List.getElem_range]
    set t : ℝ := -Real.pi + 2 * Real.pi * j / n with ht
    rw [one_mul, Real.cos_two_mul, Real.cos_three_mul]
    have c1 := Real.neg_one_le_cos t
    have c2 := Real.cos_le_one t
    have hq : 0 ≤ 0.04672 * Real.cos t ^ 2 + 0.23584 * Real.cos t + 0.21741 := by nlinarith
    have hq2 : 0 ≤ 0.04672 * Real.cos t ^ 2 + 0.32928 * Real.cos t + 0.78253 := by nlinarith
    refine ⟨?_, ?_, ?_⟩
    · have := mul_nonneg (by linarith : 0 ≤ 1 + Real.cos t) hq
      linarith
    · have := mul_nonneg (by linarith : 0 ≤ 1 - Real.cos t) hq2
      linarith
    · rintro (h | h)
      · have hn' : (n : ℝ) ≠ 0 := by exact_mod_cast (by omega : n ≠ 0)
        have : t = 0 := by
          rw [ht, ← h]
          have hj' : (j : ℝ) ≠ 0 := by exact_mod_cast (by omega : j ≠ 0)
          push_cast
          field_simp
          ring
        rw [this, Real.cos_zero]
        norm_num
      · omega

/-- the sum of the default window is positive for every length -/
theorem bh_sum_pos (n : ℕ) (hn : 0 < n) : 0 < (blackmanHarris n).sum := by
  have hl := bh_length n
  refine List.sum_pos _ (fun v hv => ?_) (by rw [← List.length_pos_iff, hl]; exact hn)
  obtain ⟨j, hj, rfl⟩ := List.getElem_of_mem hv
  have := (C122_window n j (by omega)).2.1
  rw [List.getD_eq_getElem _ _ hj] at this
  linarith

/-- **C122.** `C122_mean` for the default window needs no condition on the window: for every sampling rate and resolution bandwidth
the result is defined and its mean is the noise-free spectrum plus the constant noise share. -/
theorem C122_mean_default (L : ℕ) (s : Fin L → ℝ) (sig : ℝ) (fs rbw : ℝ)
    (hf : 0 < fs) (hb : 0 < rbw) (mode : String) (hm : mode ∈ supportedModes) (hne : mode ≠ "dBc") (r : ℝ) (hr : 0 < r) (osr : ℕ)
    (ho : 0 < osr) (ov fsc : ℝ) (h0 : 0 ≤ ov) (h1 : ov < 1) (hfs : fsc ≠ 0) (dsb : Bool) (n e : ℕ)
    (hn : n = 19 * ⌈fs / rbw⌉.toNat / 10) (he : n * osr ≤ 2 ^ e) (he' : 2 ^ e < 2 * (n * osr)) (hL : n ≤ L) :
    ∃ (f : List ℝ) (P : (Fin L → ℝ) → List ℝ),
      (∀ z, psa blackmanHarris (inWhiteNoise (fun i => (s i : ℂ)) sig z) false fs (some rbw) mode none r osr ov fsc dsb
        = .ok (some (f, P z))) ∧
      ∀ k, 2 * k ≤ 2 ^ e → Integrable (fun z => (P z).getD k 0) (normalDraws L) ∧
        ∫ z, (P z).getD k 0 ∂normalDraws L = (P 0).getD k 0
          + powerFactor mode 1 rbw (if dsb then fs / 2 else fs) r fsc
            * (sig ^ 2 * noiseShare (fun j => (blackmanHarris n).getD j 0) n (2 ^ e) k * if 0 < k ∧ 2 * k < 2 ^ e then 2 else 1) := by
  have hn0 : 0 < n := by rw [hn]; exact psaWindowN_pos fs rbw hf hb
  exact C122_mean blackmanHarris bh_length L s sig fs rbw hf hb mode hm hne r hr osr ho ov fsc h0 h1 hfs dsb n e hn
    (bh_sum_pos n hn0).ne' he he' hL

/-- C122: the window of four samples -/
example : (blackmanHarris 4).getD 2 0 = 1 ∧ 0.00006 ≤ (blackmanHarris 4).getD 0 0 :=
  ⟨(C122_window 4 2 (by norm_num)).2.2.2 (Or.inl rfl), (C122_window 4 0 (by norm_num)).2.1⟩

/-- C122: a window of a single sample (a resolution bandwidth equal to the sampling rate), which `bh_sum` leaves out -/
example (s : Fin 4 → ℝ) : ∃ (f : List ℝ) (P : (Fin 4 → ℝ) → List ℝ),
    ∀ z, psa blackmanHarris (inWhiteNoise (fun i => (s i : ℂ)) 1 z) false 1 (some 1) "dBm" none 50 1 0 1 true = .ok (some (f, P z)) := by
  obtain ⟨f, P, h, -⟩ := C122_mean_default 4 s 1 1 1 one_pos one_pos "dBm" (by decide) (by decide) 50 (by norm_num) 1 one_pos 0 1 le_rfl
    one_pos one_ne_zero true 1 0 (by norm_num) (by norm_num) (by norm_num) (by norm_num)
  exact ⟨f, P, h⟩

end Verif
