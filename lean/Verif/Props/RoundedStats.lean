import Verif.Lemmas.RoundedLms
import Mathlib.Data.List.GetD

/-! **C129**: powers, noise levels and LMS gradients in floating-point arithmetic. -/

open Finset

namespace Verif
open Spec

/-- `sumR` is `np.sum` in an arithmetic that rounds by `r`, with an arbitrary order of summation. -/
def IsSum (r : ℝ → ℝ) (sumR : List ℝ → ℝ) : Prop := ∀ l, RoundedSum r l (sumR l)

/-- **C129.** `power` of a real signal of `n` samples in `p`-bit arithmetic: the mean square up to `n + 1` rounding errors. -/
theorem C129_power (p : ℕ) (sumR : List ℝ → ℝ) (hs : IsSum (fl p) sumR) (l : List ℝ) (hl : l ≠ []) :
    ∃ P, powerR (fl p) sumR l = some P ∧
      |P - sqSum l / l.length| ≤ ((1 + 2 ^ (-(p : ℤ))) ^ (l.length + 1) - 1) * (sqSum l / l.length) := by
  have hu := unit_nonneg p
  obtain ⟨P, e, h⟩ := meanR_near hu (fl_error p) sumR hs
    (nearL_map (fun x => fl p (x * x)) (fun v => v ^ 2) l fun x _ => by
      have := near_round (fl_error p) (x * x)
      rwa [show x * x = x ^ 2 by ring] at *) (by simpa using hl)
  refine ⟨P, e, ?_⟩
  rw [absSum_of_nonneg _ (by intro v hv; rw [List.mem_map] at hv; obtain ⟨q, -, rfl⟩ := hv; positivity), List.length_map, add_comm 1 l.length] at h
  exact h

/-- **C129.** `rms` likewise, with `n + 2` rounding errors. -/
theorem C129_rms (p : ℕ) (sumR : List ℝ → ℝ) (hs : IsSum (fl p) sumR) (l : List ℝ) (hl : l ≠ []) :
    ∃ P, rmsR (fl p) sumR l = some P ∧ |P - Real.sqrt (sqSum l / l.length)|
      ≤ ((1 + 2 ^ (-(p : ℤ))) ^ (l.length + 2) - 1) * Real.sqrt (sqSum l / l.length) := by
  have hu := unit_nonneg p
  obtain ⟨P, e, h⟩ := C129_power p sumR hs l hl
  have h0 : 0 ≤ sqSum l / l.length := le_trans (sq_nonneg _) (absSum_sq_le l hl)
  refine ⟨_, by unfold rmsR; rw [e]; rfl, ?_⟩
  have h1 : Near (2 ^ (-(p : ℤ))) (l.length + 1) P (sqSum l / l.length) := by
    unfold Near; rw [abs_of_nonneg h0]; exact h
  have h2 := near_trans hu (near_round (fl_error p) _) (near_sqrt h0 h1)
  unfold Near at h2
  rw [abs_of_nonneg (Real.sqrt_nonneg _), show 1 + (l.length + 1) = l.length + 2 by ring] at h2
  exact h2

/-- **C129.** The signal power that `awgn` estimates from `n` samples in `p`-bit arithmetic: `4 n + 4` rounding errors, whatever the
mean of the signal (no cancellation). -/
theorem C129_signal_power (p : ℕ) (sumR : List ℝ → ℝ) (hs : IsSum (fl p) sumR) (sq : ℝ → ℝ)
    (hsq : ∀ x, |sq x - x ^ 2| ≤ 2 * 2 ^ (-(p : ℤ)) * x ^ 2) (l : List ℝ) (hl : 2 ≤ l.length) :
    ∃ V, sigPowerHatR (fl p) sumR sq l = some V ∧
      |V - signalPower l| ≤ ((1 + 2 ^ (-(p : ℤ))) ^ (4 * l.length + 4) - 1) * signalPower l := by
  have hu := unit_nonneg p
  have hr := fl_error p
  obtain ⟨u, hud⟩ : ∃ u : ℝ, u = 2 ^ (-(p : ℤ)) := ⟨_, rfl⟩
  simp only [← hud] at hu hr hsq ⊢
  have hne : l ≠ [] := by rintro rfl; simp at hl
  have hn : (2 : ℝ) ≤ l.length := by exact_mod_cast hl
  obtain ⟨mu, e1, h1⟩ := meanR_near hu hr sumR hs (k := 0) (l' := l) (l := l)
    (List.forall₂_same.2 fun x _ => near_refl hu 0 x) hne
  rw [zero_add] at h1
  have emu : fl p (sumR l / l.length) = mu := by
    unfold meanR at e1
    rw [if_neg (by omega)] at e1
    exact Option.some.inj e1
  unfold sigPowerHatR
  rw [if_neg (by omega)]
  simp only [emu]
  refine ⟨_, rfl, ?_⟩
  obtain ⟨D, hD⟩ : ∃ D, D = l.map (fun v => (v - mu) ^ 2) := ⟨_, rfl⟩
  have hD0 : ∀ v ∈ D, 0 ≤ v := by intro v hv; rw [hD, List.mem_map] at hv; obtain ⟨q, -, rfl⟩ := hv; positivity
  have hDl : D.length = l.length := by rw [hD, List.length_map]
  have hnear : NearL u 3 ((l.map (fun x => fl p (x - mu))).map (fun d => fl p (d * d))) D := by
    rw [hD, List.map_map]
    refine nearL_map _ _ l fun x _ => ?_
    have a := near_round hr (x - mu)
    have := near_trans hu (near_round hr _) (near_mul hu a a)
    rwa [show (x - mu) * (x - mu) = (x - mu) ^ 2 by ring] at this
  have h2 := sumR_near hu hr hnear (hs _)
  rw [absSum_of_nonneg D hD0] at h2
  have hDs : 0 ≤ D.sum := List.sum_nonneg hD0
  have h3 : Near u (3 + (D.length - 1)) (sumR ((l.map (fun x => fl p (x - mu))).map (fun d => fl p (d * d)))) D.sum := by
    unfold Near; rw [abs_of_nonneg hDs]; exact h2
  have h4 := near_trans hu (near_round hr _) (near_mul hu h3 (near_refl hu 0 ((l.length : ℝ) - 1)⁻¹))
  rw [← div_eq_mul_inv, ← div_eq_mul_inv, hDl] at h4
  have h5 : Near u 2 (sq mu) (mu ^ 2) := by
    unfold Near
    rw [abs_of_nonneg (sq_nonneg mu)]
    refine (hsq mu).trans (mul_le_mul_of_nonneg_right ?_ (sq_nonneg _))
    nlinarith [sq_nonneg u]
  have hq0 : 0 ≤ D.sum / ((l.length : ℝ) - 1) := div_nonneg hDs (by linarith)
  have h6 := near_add_nonneg hq0 (sq_nonneg mu) (near_mono hu (show 1 + (3 + (l.length - 1) + 0) ≤ l.length + 3 by omega) h4)
    (near_mono hu (show 2 ≤ l.length + 3 by omega) h5)
  have h7 := near_trans hu (near_round hr _) h6
  have h8 := power_shift l hl mu ((1 + u) ^ l.length - 1) (near_pow_nonneg hu _) h1
  rw [add_sub_cancel, ← hD, ← pow_mul] at h8
  have h9 : Near u (l.length * 3) (D.sum / ((l.length : ℝ) - 1) + mu ^ 2) (signalPower l) := by
    unfold Near; rw [abs_of_nonneg (signalPower_nonneg l hl)]; exact h8
  have h10 := near_mono hu (show 1 + (l.length + 3) + l.length * 3 ≤ 4 * l.length + 4 by omega) (near_trans hu h7 h9)
  unfold Near at h10
  rw [abs_of_nonneg (signalPower_nonneg l hl)] at h10
  exact h10

/-- **C129.** The standard deviation of the noise added by `awgn` for a signal-to-noise ratio in dB, if the power `10 ** (snr / 10)` is
computed up to `k` rounding errors. -/
theorem C129_noise_level (p : ℕ) (sumR : List ℝ → ℝ) (hs : IsSum (fl p) sumR) (sq pow10 : ℝ → ℝ)
    (hsq : ∀ x, |sq x - x ^ 2| ≤ 2 * 2 ^ (-(p : ℤ)) * x ^ 2) (l : List ℝ) (hl : 2 ≤ l.length) (snr : ℝ) (k : ℕ)
    (hk : (1 + 2 ^ (-(p : ℤ)) : ℝ) ^ k ≤ 3 / 2)
    (hpow : |pow10 snr - (10 : ℝ) ^ (snr / 10)| ≤ ((1 + 2 ^ (-(p : ℤ))) ^ k - 1) * (10 : ℝ) ^ (snr / 10)) :
    ∃ s, awgnStdR (fl p) sumR sq pow10 l snr = some s ∧
      |s - Real.sqrt (signalPower l / (10 : ℝ) ^ (snr / 10))|
        ≤ ((1 + 2 ^ (-(p : ℤ))) ^ (4 * l.length + 2 * k + 6) - 1) * Real.sqrt (signalPower l / (10 : ℝ) ^ (snr / 10)) := by
  have hu := unit_nonneg p
  have hr := fl_error p
  obtain ⟨V, e, hV⟩ := C129_signal_power p sumR hs sq hsq l hl
  have hV0 := signalPower_nonneg l hl
  have h10 : (0 : ℝ) < (10 : ℝ) ^ (snr / 10) := Real.rpow_pos_of_pos (by norm_num) _
  refine ⟨_, by unfold awgnStdR; rw [e]; rfl, ?_⟩
  have h1 : Near (2 ^ (-(p : ℤ))) (4 * l.length + 4) V (signalPower l) := by
    unfold Near; rw [abs_of_nonneg hV0]; exact hV
  have h2 : Near (2 ^ (-(p : ℤ))) k (pow10 snr) ((10 : ℝ) ^ (snr / 10)) := by
    unfold Near; rw [abs_of_pos h10]; exact hpow
  have h3 := near_trans hu (near_round hr _) (near_mul hu h1 (near_inv' hu hk h2))
  rw [← div_eq_mul_inv, ← div_eq_mul_inv] at h3
  have h4 := near_trans hu (near_round hr _) (near_sqrt (div_nonneg hV0 h10.le) h3)
  unfold Near at h4
  rw [abs_of_nonneg (Real.sqrt_nonneg _), show 1 + (1 + (4 * l.length + 4 + 2 * k)) = 4 * l.length + 2 * k + 6 by ring] at h4
  exact h4

/-- **C129.** Every sample of `awgn`, for the draws `noise` of the generator. -/
theorem C129_awgn (p : ℕ) (sumR : List ℝ → ℝ) (hs : IsSum (fl p) sumR) (sq pow10 : ℝ → ℝ)
    (hsq : ∀ x, |sq x - x ^ 2| ≤ 2 * 2 ^ (-(p : ℤ)) * x ^ 2) (noise l : List ℝ) (hl : 2 ≤ l.length) (hz : noise.length = l.length)
    (snr : ℝ) (k : ℕ) (hk : (1 + 2 ^ (-(p : ℤ)) : ℝ) ^ k ≤ 3 / 2)
    (hpow : |pow10 snr - (10 : ℝ) ^ (snr / 10)| ≤ ((1 + 2 ^ (-(p : ℤ))) ^ k - 1) * (10 : ℝ) ^ (snr / 10)) :
    ∃ y, awgnR (fl p) sumR sq pow10 noise l snr = some y ∧ y.length = l.length ∧ ∀ i < l.length,
      |y.getD i 0 - (l.getD i 0 + Real.sqrt (signalPower l / (10 : ℝ) ^ (snr / 10)) * noise.getD i 0)|
        ≤ 2 ^ (-(p : ℤ)) * |l.getD i 0| + ((1 + 2 ^ (-(p : ℤ))) ^ (4 * l.length + 2 * k + 9) - 1)
          * |Real.sqrt (signalPower l / (10 : ℝ) ^ (snr / 10)) * noise.getD i 0| := by
  have hu := unit_nonneg p
  have hr := fl_error p
  obtain ⟨s, e, h⟩ := C129_noise_level p sumR hs sq pow10 hsq l hl snr k hk hpow
  refine ⟨_, by unfold awgnR; rw [e]; rfl, by simp [hz], fun i hi => ?_⟩
  rw [zipWith_getD _ 0 0 0 _ _ hi (by omega), zero_add]
  generalize Real.sqrt (signalPower l / (10 : ℝ) ^ (snr / 10)) = σ at h
  generalize l.getD i 0 = x
  generalize noise.getD i 0 = z
  have hσ : Near (2 ^ (-(p : ℤ))) (4 * l.length + 2 * k + 6) s σ := by
    unfold Near
    refine h.trans (mul_le_mul_of_nonneg_left (le_abs_self _) (near_pow_nonneg hu _))
  have h1 := near_trans hu (near_round hr _) (near_trans hu (near_round hr _) (near_mul hu hσ (near_refl hu 0 z)))
  rw [show 1 + (1 + (4 * l.length + 2 * k + 6 + 0)) = 4 * l.length + 2 * k + 8 by ring] at h1
  rw [show 4 * l.length + 2 * k + 9 = (4 * l.length + 2 * k + 8) + 1 by ring, pow_succ]
  have h2 := near_abs h1
  unfold Near at h1
  generalize fl p (fl p (s * z)) = w at h1 h2
  generalize σ * z = v at h1 h2
  generalize ((1 : ℝ) + 2 ^ (-(p : ℤ))) ^ (4 * l.length + 2 * k + 8) = G at h1 h2
  have h3 := hr (x + w)
  generalize (2 : ℝ) ^ (-(p : ℤ)) = u at h3 hu
  have h4 := abs_add_le x w
  have h5 := mul_le_mul_of_nonneg_left (h4.trans (add_le_add le_rfl h2)) hu
  have h6 := abs_sub_le (fl p (x + w)) (x + w) (x + v)
  rw [add_sub_add_left_eq_sub] at h6
  nlinarith

/-- **C129.** In double precision, for up to `2^40` samples and a power function accurate to eight roundings, the noise level is the one
requested up to a relative error of `(4 n + 22) 2^-52`. -/
theorem C129_double (sumR : List ℝ → ℝ) (hs : IsSum (fl 53) sumR) (sq pow10 : ℝ → ℝ)
    (hsq : ∀ x, |sq x - x ^ 2| ≤ 2 * 2 ^ (-((53 : ℕ) : ℤ)) * x ^ 2) (l : List ℝ) (hl : 2 ≤ l.length) (hl2 : l.length ≤ 2 ^ 40) (snr : ℝ)
    (hpow : |pow10 snr - (10 : ℝ) ^ (snr / 10)| ≤ 8 / 2 ^ 53 * (10 : ℝ) ^ (snr / 10)) :
    ∃ s, awgnStdR (fl 53) sumR sq pow10 l snr = some s ∧
      |s - Real.sqrt (signalPower l / (10 : ℝ) ^ (snr / 10))|
        ≤ (4 * l.length + 22) / 2 ^ 52 * Real.sqrt (signalPower l / (10 : ℝ) ^ (snr / 10)) := by
  have huv : (2 : ℝ) ^ (-((53 : ℕ) : ℤ)) = 1 / 2 ^ 53 := by rw [zpow_neg, zpow_natCast, one_div]
  have hu := unit_nonneg 53
  have h10 : (0 : ℝ) < (10 : ℝ) ^ (snr / 10) := Real.rpow_pos_of_pos (by norm_num) _
  have h8 : 8 / 2 ^ 53 ≤ (1 + 2 ^ (-((53 : ℕ) : ℤ)) : ℝ) ^ 8 - 1 := by
    have := one_add_mul_le_pow (show (-2 : ℝ) ≤ 2 ^ (-((53 : ℕ) : ℤ)) by linarith) 8
    have e : (8 : ℝ) / 2 ^ 53 = ((8 : ℕ) : ℝ) * 2 ^ (-((53 : ℕ) : ℤ)) := by rw [huv]; push_cast; ring
    rw [e]
    linarith
  obtain ⟨s, e, h⟩ := C129_noise_level 53 sumR hs sq pow10 hsq l hl snr 8
    (by rw [huv]; norm_num) (hpow.trans (mul_le_mul_of_nonneg_right h8 h10.le))
  refine ⟨s, e, h.trans (mul_le_mul_of_nonneg_right ?_ (Real.sqrt_nonneg _))⟩
  have hn : (l.length : ℝ) ≤ 2 ^ 40 := by exact_mod_cast hl2
  have hcast : ((4 * l.length + 2 * 8 + 6 : ℕ) : ℝ) = 4 * l.length + 22 := by push_cast; ring
  have := one_add_pow_le (2 ^ (-((53 : ℕ) : ℤ))) hu (4 * l.length + 2 * 8 + 6) (by
    rw [hcast, huv]
    calc (2 : ℝ) * ((4 * l.length + 22) * (1 / 2 ^ 53)) ≤ 2 * ((4 * 2 ^ 40 + 22) * (1 / 2 ^ 53)) := by gcongr
      _ ≤ 1 := by norm_num)
  rw [hcast] at this
  have e2 : 2 * ((4 * (l.length : ℝ) + 22) * 2 ^ (-((53 : ℕ) : ℤ))) = (4 * l.length + 22) / 2 ^ 52 := by
    rw [huv, show (2 : ℝ) ^ 53 = 2 * 2 ^ 52 by norm_num]; field_simp
  rw [e2] at this
  exact sub_le_iff_le_add'.2 this

/-! ### LMS -/

/-- **C129.** `ddlms_grad` in `p`-bit arithmetic returns a result of the same shape whenever the exact one does. With errors bounded by `E`,
inputs by `Y` and reference values by `X`, the MSE of `n` samples is the exact one up to `n + 3` rounding errors, and every gradient is
within `((1 + u)^(n + 3) - 1) E Y / 2` (for feedback taps `E X / 2`) of the exact one. -/
theorem C129_lms (p : ℕ) (sumR : List ℝ → ℝ) (hs : IsSum (fl p) sumR) (input output levels : List ℝ) (ffeIdx dfeIdx : List ℤ)
    (hdfe : ∀ j ∈ dfeIdx, 0 ≤ j) (ref : Option (List ℝ)) (x : List ℝ) (hx : x = ref.getD (output.map (sliceOne levels))) (E Y X : ℝ)
    (hE0 : 0 ≤ E) (hE : ∀ i < output.length, |output.getD i 0 - x.getD i 0| ≤ E) (hY : ∀ v ∈ input, |v| ≤ Y) (hX : ∀ v ∈ x, |v| ≤ X)
    (o : LmsOut ℝ) (h : ddlmsGrad input output levels ffeIdx dfeIdx ref = .ok o) :
    ∃ o', ddlmsGradR (fl p) sumR input output levels ffeIdx dfeIdx ref = .ok o' ∧
      Option.Rel (fun m' m => |m' - m| ≤ ((1 + 2 ^ (-(p : ℤ))) ^ (output.length + 3) - 1) * m) o'.value o.value ∧
      List.Forall₂ (Option.Rel fun g' g => |g' - g| ≤ ((1 + 2 ^ (-(p : ℤ))) ^ (input.length + 3) - 1) * (E * Y / 2)) o'.ffeGrads o.ffeGrads ∧
      List.Forall₂ (Option.Rel fun g' g => |g' - g| ≤ ((1 + 2 ^ (-(p : ℤ))) ^ (input.length + 3) - 1) * (E * X / 2)) o'.dfeGrads o.dfeGrads := by
  have hu := unit_nonneg p
  have hr := fl_error p
  generalize (2 : ℝ) ^ (-(p : ℤ)) = u at hu hr
  unfold ddlmsGrad at h
  unfold ddlmsGradR
  have href : ∀ y, lmsReference output levels ref true = .ok y → y = x ∧ y.length = output.length := by
    intro y hy
    unfold lmsReference at hy
    cases ref with
    | none =>
      simp only at hy
      split_ifs at hy
      cases hy
      exact ⟨hx.symm, by simp⟩
    | some q =>
      simp only at hy
      split_ifs at hy with hq
      cases hy
      refine ⟨hx.symm, ?_⟩
      simpa using hq
  cases hl : lmsReference output levels ref true with
  | error e => rw [hl] at h; cases h
  | ok y =>
    obtain ⟨hyx, hyl⟩ := href y hl
    subst hyx
    rw [hl] at h
    obtain ⟨e, he⟩ : ∃ e, e = List.zipWith (· - ·) output y := ⟨_, rfl⟩
    obtain ⟨e', he'⟩ : ∃ e', e' = List.zipWith (fun a b => fl p (a - b)) output y := ⟨_, rfl⟩
    have hnear : NearL u 1 e' e := by
      rw [he, he']
      clear hE h hl href he he' hyl hx hX
      induction output generalizing y with
      | nil => simp
      | cons a l ih =>
        cases y with
        | nil => simp
        | cons b m => exact .cons (near_round hr _) (ih m)
    have hel : e.length = output.length := by rw [he, List.length_zipWith]; omega
    have hEe : ∀ v ∈ e, |v| ≤ E := by
      intro v hv
      obtain ⟨i, hi, rfl⟩ := List.getElem_of_mem hv
      have := hE i (by omega)
      rw [← List.getD_eq_getElem e 0 hi, he, zipWith_getD _ 0 0 0 _ _ (by omega) (by omega)]
      exact this
    have h : ((computeDerivatives input y ffeIdx dfeIdx e).bind fun g =>
        .ok (lmsReturn (meanOpt (e.map (fun v => v ^ 2))) g.1 g.2 ffeIdx.length dfeIdx.length)) = .ok o := by rw [he]; exact h
    show ∃ o', ((ffeIdx.mapM (ffeTapGradR (fl p) sumR input (List.zipWith (fun a b => fl p (a - b)) output y))).bind fun gf =>
      (dfeIdx.mapM (dfeTapGradR (fl p) sumR input.length y (List.zipWith (fun a b => fl p (a - b)) output y))).bind fun gd =>
        .ok (lmsReturn (meanR (fl p) sumR ((List.zipWith (fun a b => fl p (a - b)) output y).map (fun v => fl p (v * v)))) gf gd ffeIdx.length
          dfeIdx.length)) = .ok o' ∧ _
    rw [← he']
    unfold computeDerivatives at h
    cases hgf : ffeIdx.mapM (ffeTapGrad input e) with
    | error q => rw [hgf] at h; cases h
    | ok gf =>
      rw [hgf] at h
      cases hgd : dfeIdx.mapM (dfeTapGrad input.length y e) with
      | error q =>
        change (((dfeIdx.mapM (dfeTapGrad input.length y e)).bind _).bind _) = _ at h
        rw [hgd] at h; cases h
      | ok gd =>
        change (((dfeIdx.mapM (dfeTapGrad input.length y e)).bind _).bind _) = _ at h
        rw [hgd] at h
        have ho : lmsReturn (meanOpt (e.map (fun v => v ^ 2))) gf gd ffeIdx.length dfeIdx.length = o := Except.ok.inj h
        obtain ⟨gf', ef, hFf⟩ := mapM_rel (R := Option.Rel fun g' g => |g' - g| ≤ ((1 + u) ^ (input.length + 3) - 1) * (E * Y / 2))
          (ffeTapGrad input e) (ffeTapGradR (fl p) sumR input e') ffeIdx (fun i _ g hg =>
            tapGradR_near hu hr sumR hs (1 / 2) (by rw [abs_of_pos (by norm_num)]) e' e input hnear E Y hEe hY _ _ input.length
              (by simp [arangeZ]) hE0 g hg) gf hgf
        obtain ⟨gd', ed, hFd⟩ := mapM_rel (R := Option.Rel fun g' g => |g' - g| ≤ ((1 + u) ^ (input.length + 3) - 1) * (E * X / 2))
          (dfeTapGrad input.length y e) (dfeTapGradR (fl p) sumR input.length y e') dfeIdx (fun j hj g hg =>
            tapGradR_near hu hr sumR hs (-1 / 2) (by rw [abs_of_neg] <;> norm_num) e' e y hnear E X hEe hX _ _ input.length
              (by have := hdfe j hj; simp [arangeZ]; omega) hE0 g hg) gd hgd
        rw [ef]
        change ∃ o', ((dfeIdx.mapM (dfeTapGradR (fl p) sumR input.length y e')).bind _) = _ ∧ _
        rw [ed]
        refine ⟨_, rfl, ?_⟩
        have hmse : Option.Rel (fun m' m => |m' - m| ≤ ((1 + u) ^ (output.length + 3) - 1) * m)
            (meanR (fl p) sumR (e'.map (fun v => fl p (v * v)))) (meanOpt (e.map (fun v => v ^ 2))) := by
          have hsq : NearL u 3 (e'.map (fun v => fl p (v * v))) (e.map (fun v => v ^ 2)) := by
            clear hEe hel he he' h hgf hgd ef ed ho hFf hFd
            induction hnear with
            | nil => exact .nil
            | cons h0 _ ih =>
              refine .cons ?_ ih
              have := near_trans hu (near_round hr _) (near_mul hu h0 h0)
              simp only [pow_two]
              exact this
          by_cases h0 : e = []
          · subst h0
            have : e' = [] := by cases hnear; rfl
            subst this
            simp only [meanR, meanOpt, List.map_nil, List.length_nil, if_true]
            exact .none
          · obtain ⟨m, em, hm⟩ := meanR_near hu hr sumR hs hsq (by simpa using h0)
            have hpos : 0 < e.length := List.length_pos_iff.2 h0
            rw [em, meanOpt, if_neg (by rw [List.length_map]; omega)]
            refine .some ?_
            rw [absSum_of_nonneg _ (by intro v hv; rw [List.mem_map] at hv; obtain ⟨q, -, rfl⟩ := hv; positivity)] at hm
            rw [show output.length + 3 = 3 + (e.map (fun v => v ^ 2)).length by rw [List.length_map]; omega]
            exact hm
        rw [← ho]
        unfold lmsReturn
        have hlf : gf'.length = gf.length := hFf.length_eq
        have hld : gd'.length = gd.length := hFd.length_eq
        split_ifs <;> refine ⟨hmse, ?_, ?_⟩ <;> first | exact .nil | exact hFf | exact hFd

/-! ### examples -/

theorem isSum_exists (r : ℝ → ℝ) : ∃ sumR, IsSum r sumR := by
  have h : ∀ l : List ℝ, ∃ s, RoundedSum r l s := by
    intro l
    induction l with
    | nil => exact ⟨0, .nil⟩
    | cons a l ih =>
      rcases eq_or_ne l [] with rfl | hl
      · exact ⟨a, .single a⟩
      · obtain ⟨s, hs⟩ := ih
        exact ⟨_, .add [a] l a s (by simp) hl (.single a) hs⟩
  choose f hf using h
  exact ⟨f, hf⟩

/-- a sum in double precision exists -/
example : ∃ sumR, IsSum (fl 53) sumR := isSum_exists _

/-- the rms of three samples -/
example (sumR : List ℝ → ℝ) (hs : IsSum (fl 53) sumR) :
    ∃ P, rmsR (fl 53) sumR [1, -3, 1 / 10] = some P ∧ |P - Real.sqrt (1001 / 300)| ≤ 1 / 2 ^ 50 * Real.sqrt (1001 / 300) := by
  obtain ⟨P, e, h⟩ := C129_rms 53 sumR hs [1, -3, 1 / 10] (by simp)
  have hq : sqSum [1, -3, 1 / 10] / (([1, -3, 1 / 10] : List ℝ).length : ℝ) = 1001 / 300 := by norm_num [sqSum]
  rw [hq] at h
  refine ⟨P, e, h.trans (mul_le_mul_of_nonneg_right ?_ (Real.sqrt_nonneg _))⟩
  rw [zpow_neg, zpow_natCast]
  norm_num

/-- four samples far from zero at 20 dB -/
example (sumR : List ℝ → ℝ) (hs : IsSum (fl 53) sumR) (sq pow10 : ℝ → ℝ)
    (hsq : ∀ x, |sq x - x ^ 2| ≤ 2 * 2 ^ (-((53 : ℕ) : ℤ)) * x ^ 2) (hpow : pow10 20 = 100) :
    ∃ s, awgnStdR (fl 53) sumR sq pow10 [1001, 999, 1001, 999] 20 = some s ∧
      |s - Real.sqrt ((4 / 3 + 1000000) / 100)| ≤ 38 / 2 ^ 52 * Real.sqrt ((4 / 3 + 1000000) / 100) := by
  have h10 : (10 : ℝ) ^ ((20 : ℝ) / 10) = 100 := by
    rw [show (20 : ℝ) / 10 = ((2 : ℕ) : ℝ) by norm_num, Real.rpow_natCast]; norm_num
  obtain ⟨s, e, h⟩ := C129_double sumR hs sq pow10 hsq [1001, 999, 1001, 999] (by simp) (by simp) 20 (by rw [hpow, h10]; norm_num)
  have hq : signalPower [1001, 999, 1001, 999] = 4 / 3 + 1000000 := by norm_num [signalPower]
  rw [hq, h10] at h
  refine ⟨s, e, h.trans (le_of_eq ?_)⟩
  norm_num

/-- one FFE and one DFE gradient of three samples -/
example (sumR : List ℝ → ℝ) (hs : IsSum (fl 53) sumR) :
    ∃ m g f, ddlmsGradR (fl 53) sumR [1, -1, 1 / 2] [9 / 10, -1, 7 / 10] [-1, 1] [0] [1] none = .ok (.both (some m) [some g] [some f]) ∧
      |m - 1 / 30| ≤ 1 / 2 ^ 50 ∧ |g - (-1 / 24)| ≤ 1 / 2 ^ 50 ∧ |f - (-3 / 40)| ≤ 1 / 2 ^ 50 := by
  have hsl : ([9 / 10, -1, 7 / 10] : List ℝ).map (sliceOne [-1, 1]) = [1, -1, 1] := by
    norm_num [sliceOne, argmin, List.findIdx_cons]
  have hex : ddlmsGrad [1, -1, 1 / 2] [9 / 10, -1, 7 / 10] [-1, (1 : ℝ)] [0] [1] none
      = .ok (.both (some (1 / 30)) [some (-1 / 24)] [some (-3 / 40)]) := by
    unfold ddlmsGrad lmsReference
    simp only [hsl]
    norm_num [computeDerivatives, ffeTapGrad, dfeTapGrad, npTake, show arangeZ 0 3 = [0, 1, 2] by decide,
      show arangeZ 1 3 = [1, 2] by decide, npGet, meanOpt, lmsReturn, List.mapM_cons, List.mapM_nil, pure, Except.pure, bind, Except.bind]
    exact ⟨by show (1 / 2 : ℝ) * ((-(1 / 10) + -(3 / 10) * (1 / 2)) / 3) = -(1 / 24); norm_num,
      by show (1 / 2 : ℝ) * (-(-(3 / 10)) / 2) = 3 / 40; norm_num⟩
  obtain ⟨o, e, h1, h2, h3⟩ := C129_lms 53 sumR hs [1, -1, 1 / 2] [9 / 10, -1, 7 / 10] [-1, 1] [0] [1] (by simp) none [1, -1, 1] hsl.symm
    (3 / 10) 1 1 (by norm_num) (by
      intro i hi
      simp only [List.length_cons, List.length_nil] at hi
      interval_cases i <;> norm_num [abs_le]) (by norm_num [abs_le]) (by norm_num) _ hex
  have hu : ((1 : ℝ) + 2 ^ (-((53 : ℕ) : ℤ))) ^ (3 + 3) - 1 ≤ 1 / 2 ^ 50 := by
    rw [zpow_neg, zpow_natCast]
    norm_num
  have hu0 := near_pow_nonneg (unit_nonneg 53) (3 + 3)
  simp only [List.length_cons, List.length_nil, zero_add, Nat.reduceAdd] at h1 h2 h3 hu hu0
  generalize ((1 : ℝ) + 2 ^ (-((53 : ℕ) : ℤ))) ^ 6 - 1 = G at h1 h2 h3 hu hu0
  generalize (1 : ℝ) / 2 ^ 50 = B at hu ⊢
  cases o with
  | loss l => cases h2
  | dfe l g => cases h2
  | ffe l g => cases h3
  | both l gf gd =>
    cases h1 with | some a1 =>
    cases h2 with | cons a2 b2 =>
    cases h3 with | cons a3 b3 =>
    cases a2 with | some c2 =>
    cases a3 with | some c3 =>
    cases b2
    cases b3
    exact ⟨_, _, _, e, by linarith, by linarith, by linarith⟩

end Verif
