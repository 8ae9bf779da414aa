import Verif.Lemmas.Ctle

/-! Properties of the CTLE model (C56). -/

open Finset

namespace Verif
open Verif.Spec

/-- C56: the discrete filter is the bilinear (Tustin) transform of the analog filter with the given zeros, poles and DC
gain: the transfer functions agree at every point `z` under `s = 2 fs osr (z - 1)/(z + 1)`. -/
theorem C56_tustin_partial (zs ps : List ℝ) (dc fs osr : ℝ) (hz : zs ≠ []) (hp : ps ≠ []) (hz0 : ∀ z ∈ zs, z ≠ 0)
    (hp0 : ∀ p ∈ ps, p ≠ 0) (hF : 0 < fs * osr)
    (hk : 1 / 10 ^ 14 < analogReal (10 ^ (dc / 20)) zs ps (2 * (fs * osr))) :
    ∃ b a, getCtleFilter zs ps dc fs osr = .ok (some (b, a)) ∧ a.getD 0 0 = 1 ∧
      b.length = max zs.length ps.length + 1 ∧ a.length = max zs.length ps.length + 1 ∧
      ∀ z : ℂ, z ≠ 0 → z ≠ -1 → zPoly a z ≠ 0 →
        zPoly b z / zPoly a z = analog (10 ^ (dc / 20)) zs ps (2 * (fs * osr) * ((z - 1) / (z + 1))) := by
  obtain ⟨d, hd, hdp, h⟩ := ctle_tustin_raw zs ps dc fs osr hz hp hz0 hp0 hF hk
  refine ⟨_, _, h, ?_, by simp [rawNum], by simp [rawNum], ?_⟩
  · rw [getD_map_lt _ 0 0 _ (by simp [rawNum]), rawNum_zero ps hp0 _ _ _ (le_max_right _ _), one_mul, ← hd]
    exact div_self hdp.ne'
  · intro z hz1 hz2 ha
    have hw : 1 + z⁻¹ ≠ 0 := by
      intro hc
      apply hz2
      have : z * (1 + z⁻¹) = 0 := by rw [hc, mul_zero]
      rw [mul_add, mul_inv_cancel₀ hz1, mul_one] at this
      exact eq_neg_of_add_eq_zero_left this
    have hz3 : z + 1 ≠ 0 := fun hc => hz2 (eq_neg_of_add_eq_zero_left hc)
    have hs : ∀ l : List ℝ, (∀ x ∈ l, x ≠ 0) →
        (l.map (fun p => (1 + z⁻¹) + ((|p|⁻¹ : ℝ) : ℂ) * (((2 * (fs * osr) : ℝ) : ℂ) * (1 - z⁻¹)))).prod
          = (1 + z⁻¹) ^ l.length * (l.map fun p => 1 + (2 * (fs * osr) * ((z - 1) / (z + 1)) : ℂ) / ((|p| : ℝ) : ℂ)).prod := by
      intro l hl
      induction l with
      | nil => simp
      | cons x xs ih =>
        rw [List.map_cons, List.prod_cons, ih (fun y hy => hl y (by simp [hy])), List.map_cons, List.prod_cons,
          List.length_cons, pow_succ]
        have hx : ((|x| : ℝ) : ℂ) ≠ 0 := by
          rw [Ne, Complex.ofReal_eq_zero, abs_eq_zero]; exact hl x (by simp)
        have e : (1 + z⁻¹) + ((|x|⁻¹ : ℝ) : ℂ) * (((2 * (fs * osr) : ℝ) : ℂ) * (1 - z⁻¹))
            = (1 + z⁻¹) * (1 + (2 * (fs * osr) * ((z - 1) / (z + 1)) : ℂ) / ((|x| : ℝ) : ℂ)) := by
          push_cast
          field_simp
        rw [e]; ring
    rw [zPoly_raw ps hp0 _ (le_max_right _ _), hs ps hp0] at ha ⊢
    rw [zPoly_raw zs hz0 _ (le_max_left _ _), hs zs hz0]
    unfold analog
    have hdc : (d : ℂ) ≠ 0 := by exact_mod_cast hdp.ne'
    have e1 : ∀ (n : ℕ) (X : ℂ), n ≤ max zs.length ps.length →
        (1 + z⁻¹) ^ (max zs.length ps.length - n) * ((1 + z⁻¹) ^ n * X) = (1 + z⁻¹) ^ max zs.length ps.length * X := by
      intro n X hn
      rw [← mul_assoc, ← pow_add]; congr 2; omega
    rw [e1 _ _ (le_max_right _ _)] at ha ⊢
    rw [e1 _ _ (le_max_left _ _)]
    have hpw : (1 + z⁻¹) ^ max zs.length ps.length ≠ 0 := pow_ne_zero _ hw
    generalize (1 + z⁻¹) ^ max zs.length ps.length = P at ha hpw ⊢
    generalize (List.map (fun p => 1 + (2 * (fs * osr) * ((z - 1) / (z + 1)) : ℂ) / ((|p| : ℝ) : ℂ)) ps).prod = X at ha ⊢
    have hX : X ≠ 0 := by
      rintro rfl; simp at ha
    rw [Complex.ofReal_one]
    field_simp

/-- C56: the filter has DC gain `10^(dc_gain/20)`. -/
theorem C56_dc_gain_partial (zs ps : List ℝ) (dc fs osr : ℝ) (hz : zs ≠ []) (hp : ps ≠ []) (hz0 : ∀ z ∈ zs, z ≠ 0)
    (hp0 : ∀ p ∈ ps, p ≠ 0) (hF : 0 < fs * osr)
    (hk : 1 / 10 ^ 14 < analogReal (10 ^ (dc / 20)) zs ps (2 * (fs * osr))) :
    ∃ b a, getCtleFilter zs ps dc fs osr = .ok (some (b, a)) ∧ a.sum ≠ 0 ∧ b.sum / a.sum = 10 ^ (dc / 20) := by
  obtain ⟨d, hd, hdp, h⟩ := ctle_tustin_raw zs ps dc fs osr hz hp hz0 hp0 hF hk
  have key : ∀ (l : List ℝ) (g : ℝ), (∀ z ∈ l, z ≠ 0) → l.length ≤ max zs.length ps.length →
      ((rawNum l (max zs.length ps.length) g (fs * osr)).map (· / d)).sum = g * 2 ^ max zs.length ps.length / d := by
    intro l g hl hM
    have := rawNum_eval (RingHom.id ℝ) l hl (max zs.length ps.length) g (fs * osr) 1 hM
    simp only [RingHom.id_apply, one_pow, mul_one, sub_self, mul_zero, add_zero, List.map_const', List.prod_replicate,
      ← pow_add] at this
    rw [show max zs.length ps.length - l.length + l.length = max zs.length ps.length by omega] at this
    have e : ∀ m : List ℝ, (m.map (· / d)).sum = m.sum / d := by
      intro m
      induction m with
      | nil => simp
      | cons x xs ih => rw [List.map_cons, List.sum_cons, ih, List.sum_cons, add_div]
    have e2 : ∀ m : List ℝ, m.sum = ∑ j ∈ range m.length, m.getD j 0 := by
      intro m
      rw [← range_list_sum]
      congr 1
      apply ext_getD 0 (by simp)
      intro i hi
      rw [getD_map_lt _ 0 0 _ (by simpa using hi), getD_of_lt 0 (List.range _) (by simpa using hi), List.getElem_range]
    rw [e, e2, show (rawNum l (max zs.length ps.length) g (fs * osr)).length = max zs.length ps.length + 1 by simp [rawNum],
      this]
    congr 3
    norm_num
  refine ⟨_, _, h, ?_, ?_⟩
  · rw [key ps 1 hp0 (le_max_right _ _)]; positivity
  · rw [key ps 1 hp0 (le_max_right _ _), key zs _ hz0 (le_max_left _ _)]
    field_simp

/-- the hypotheses of the theorems above are met by a typical CTLE: zero at 1 GHz, poles at 10 and 20 GHz, 32 GBd with
16 samples per symbol, gain 0 dB -/
example : (1 : ℝ) / 10 ^ 14 < analogReal (10 ^ ((0 : ℝ) / 20)) [1000000000] [10000000000, -20000000000] (2 * (32000000000 * 16)) := by
  unfold analogReal
  norm_num

/-- C56: with at least as many poles as zeros every pole of the filter lies strictly inside the unit circle. -/
theorem C56_stable_partial (zs ps : List ℝ) (dc fs osr : ℝ) (hz : zs ≠ []) (hp : ps ≠ []) (hz0 : ∀ z ∈ zs, z ≠ 0)
    (hp0 : ∀ p ∈ ps, p ≠ 0) (hF : 0 < fs * osr) (hlen : zs.length ≤ ps.length) :
    ∃ b a, getCtleFilter zs ps dc fs osr = .ok (some (b, a)) ∧ a.length = ps.length + 1 ∧ a.getD 0 0 = 1 ∧
      ∀ z : ℂ, zRoots a z = 0 → ‖z‖ < 1 := by
  obtain ⟨b, d, hd, hdp, h⟩ := ctle_den_raw zs ps dc fs osr hz hp hz0 hp0 hF
  rw [max_eq_right hlen] at h
  refine ⟨_, _, h, by simp [rawNum], ?_, ?_⟩
  · rw [getD_map_lt _ 0 0 _ (by simp [rawNum]), rawNum_zero ps hp0 _ _ _ (le_refl _), one_mul, ← hd]
    exact div_self hdp.ne'
  · intro z hr
    by_cases hz1 : z = 0
    · rw [hz1]; simp
    rw [zRoots_eq _ _ hz1, zPoly_raw ps hp0 _ (le_refl _)] at hr
    have hdc : (d : ℂ) ≠ 0 := by exact_mod_cast hdp.ne'
    simp only [Nat.sub_self, pow_zero, one_mul, Complex.ofReal_one, mul_eq_zero, inv_eq_zero, hdc, false_or,
      pow_eq_zero_iff', hz1, false_and] at hr
    rw [List.prod_eq_zero_iff] at hr
    obtain ⟨p, hpm, he⟩ := List.mem_map.1 hr
    exact tustin_pole p (hp0 p hpm) (fs * osr) hF z hz1 he

/-- C56: with more zeros than poles the claim fails for every such filter: the denominator vanishes at `z = -1` on the
unit circle, where the numerator does not (unless SciPy drops numerator coefficients). -/
theorem C56_negative_improper (zs ps : List ℝ) (dc fs osr : ℝ) (hz : zs ≠ []) (hp : ps ≠ []) (hz0 : ∀ z ∈ zs, z ≠ 0)
    (hp0 : ∀ p ∈ ps, p ≠ 0) (hF : 0 < fs * osr) (hlen : ps.length < zs.length)
    (hk : 1 / 10 ^ 14 < analogReal (10 ^ (dc / 20)) zs ps (2 * (fs * osr))) :
    ∃ b a, getCtleFilter zs ps dc fs osr = .ok (some (b, a)) ∧ zRoots a (-1) = 0 ∧ zRoots b (-1) ≠ 0 := by
  obtain ⟨d, hd, hdp, h⟩ := ctle_tustin_raw zs ps dc fs osr hz hp hz0 hp0 hF hk
  rw [max_eq_left hlen.le] at h
  refine ⟨_, _, h, ?_, ?_⟩
  · rw [zRoots_eq _ _ (by simp), zPoly_raw ps hp0 _ hlen.le]
    have : (1 + (-1 : ℂ)⁻¹) = 0 := by norm_num
    rw [this, zero_pow (by omega)]
    simp
  · rw [zRoots_eq _ _ (by simp), zPoly_raw zs hz0 _ (le_refl _)]
    have h1 : (1 + (-1 : ℂ)⁻¹) = 0 := by norm_num
    have hdc : (d : ℂ) ≠ 0 := by exact_mod_cast hdp.ne'
    have hg : (((10 : ℝ) ^ (dc / 20) : ℝ) : ℂ) ≠ 0 := by
      have : (0 : ℝ) < 10 ^ (dc / 20) := by positivity
      exact_mod_cast this.ne'
    refine mul_ne_zero (pow_ne_zero _ (by simp)) (mul_ne_zero (inv_ne_zero hdc) (mul_ne_zero hg (mul_ne_zero ?_ ?_)))
    · rw [Nat.sub_self, pow_zero]; exact one_ne_zero
    · rw [Ne, List.prod_eq_zero_iff]
      intro hm
      obtain ⟨x, hx, he⟩ := List.mem_map.1 hm
      rw [h1, zero_add] at he
      have hx0 : ((|x|⁻¹ : ℝ) : ℂ) ≠ 0 := by
        have : |x|⁻¹ ≠ 0 := inv_ne_zero (abs_ne_zero.2 (hz0 x hx))
        exact_mod_cast this
      have hF2 : ((2 * (fs * osr) : ℝ) : ℂ) ≠ 0 := by
        have : 2 * (fs * osr) ≠ 0 := by positivity
        exact_mod_cast this
      have h2 : (1 - (-1 : ℂ)⁻¹) ≠ 0 := by norm_num
      exact absurd he (mul_ne_zero hx0 (mul_ne_zero hF2 h2))

/-- two zeros and one pole: the pole at -1 is there -/
example : ctleCoeffs ([1, 2] : List ℚ) [2] 1 1 1 = .ok (some ([3, -1, 0], [1, 1, 0])) := by decide +kernel

/-- C56: when the leading numerator coefficient falls to 1e-14 SciPy's normalisation drops it, and neither the delay
nor the DC gain is right: with all three poles and the zero at 1 Hz and 5 MHz sampling the gain 1 becomes negative. -/
theorem C56_negative_trim :
    ∃ b a : List ℚ, ctleCoeffs [1] [1, 1, 1] 1 5000000 1 = .ok (some (b, a)) ∧ b.length = 1 ∧ a.length = 4 ∧ b.sum / a.sum < 0 := by
  refine ⟨[-9999999 / 1000000300000030000001], [1, -29999997 / 10000001, 299999940000003 / 100000020000001,
    -999999700000029999999 / 1000000300000030000001], ?_⟩
  decide +kernel

/-- C56: a zero or pole at frequency 0 gives no filter (NaN coefficients). -/
theorem C56_zero_frequency (zs ps : List ℝ) (dc fs osr : ℝ) (hz : zs ≠ []) (hp : ps ≠ []) (h0 : 0 ∈ zs ∨ 0 ∈ ps) :
    getCtleFilter zs ps dc fs osr = .ok none := by
  unfold getCtleFilter ctleCoeffs polyFromRoots
  have e : ∀ l : List ℝ, l.map (fun z => -1 * npSign z * z) = l.map (fun z => -|z|) := by
    intro l; apply List.map_congr_left; intro z _; exact npSign_mul z
  rw [e, e, if_neg (by simpa using hz), if_neg (by simpa using hp)]
  show (if _ ∨ _ then _ else _) = _
  rw [if_pos]
  · rfl
  · rw [monic_zero, monic_zero]
    have : ∀ l : List ℝ, 0 ∈ l → (l.map (fun z => |z|)).prod = 0 := by
      intro l hl
      rw [List.prod_eq_zero_iff]
      exact List.mem_map.2 ⟨0, hl, abs_zero⟩
    exact h0.imp (this zs) (this ps)

/-- C56: an empty list of zeros or poles raises ValueError. -/
theorem C56_rejects (zs ps : List ℝ) (dc fs osr : ℝ) (h : zs = [] ∨ ps = []) :
    getCtleFilter zs ps dc fs osr = .error .valueError := by
  unfold getCtleFilter ctleCoeffs polyFromRoots
  rcases h with rfl | rfl
  · rfl
  · by_cases hz : zs = []
    · subst hz; rfl
    · rw [if_neg (by simpa using hz)]; rfl

/-- C56: `ctle` without initial condition passes the signal through this filter: the output has the length of the signal
and satisfies the difference equation of the coefficients. -/
theorem C56_ctle (x zs ps : List ℝ) (dc fs osr : ℝ) (hz : zs ≠ []) (hp : ps ≠ []) (hz0 : ∀ z ∈ zs, z ≠ 0)
    (hp0 : ∀ p ∈ ps, p ≠ 0) (hF : 0 < fs * osr) :
    ∃ b a y, getCtleFilter zs ps dc fs osr = .ok (some (b, a)) ∧ ctle x zs ps dc fs osr none = .ok (some (y, none)) ∧
      y.length = x.length ∧ ∀ n : ℕ, n < x.length → DiffEq b a (withPast [] x) (withPast [] y) n := by
  obtain ⟨b, a, hc, hb, ha, h0⟩ := ctle_filter_ok zs ps dc fs osr hz hp hz0 hp0 hF
  have hrun : ctle x zs ps dc fs osr none = .ok (some ((lfRun id (b.map (· / a.getD 0 0)) (a.map (· / a.getD 0 0))
      (List.replicate (max b.length a.length - 1) 0) x).1, none)) := by
    have hc' : ctleCoeffs zs ps ((10 : ℝ) ^ (dc / 20)) fs osr = .ok (some (b, a)) := hc
    unfold ctle ctleWith
    rw [hc']
    show ((lfilter b a x (List.replicate (max b.length a.length - 1) 0)).bind _) = _
    unfold lfilter
    rw [if_neg (by rintro (h | h | h) <;> first | omega | exact h0 h), if_neg (by simp), if_neg (by omega)]
    rfl
  refine ⟨b, a, _, hc, hrun, by rw [lfRun_length], fun n hn => ?_⟩
  have hd := lfRun_diff b a (List.replicate (max b.length a.length - 1) 0) x h0 (by simp; omega) (by simp; omega) n hn
  rw [replicate_getD, mul_zero, add_zero] at hd
  unfold DiffEq
  rw [withPast_nat]
  exact hd

/-- C56: a signal may be filtered in pieces, passing on the final condition. -/
theorem C56_chunks (x1 x2 zs ps zi : List ℝ) (dc fs osr : ℝ) (hz : zs ≠ []) (hp : ps ≠ []) (hz0 : ∀ z ∈ zs, z ≠ 0)
    (hp0 : ∀ p ∈ ps, p ≠ 0) (hF : 0 < fs * osr)
    (hzi : ∀ b a, getCtleFilter zs ps dc fs osr = .ok (some (b, a)) → zi.length = max b.length a.length - 1) :
    ∃ y1 z1 y2 z2, ctle x1 zs ps dc fs osr (some zi) = .ok (some (y1, some z1)) ∧
      ctle x2 zs ps dc fs osr (some z1) = .ok (some (y2, some z2)) ∧
      ctle (x1 ++ x2) zs ps dc fs osr (some zi) = .ok (some (y1 ++ y2, some z2)) := by
  obtain ⟨b, a, hc, hb, ha, h0⟩ := ctle_filter_ok zs ps dc fs osr hz hp hz0 hp0 hF
  have hl := hzi b a hc
  have hc' : ctleCoeffs zs ps ((10 : ℝ) ^ (dc / 20)) fs osr = .ok (some (b, a)) := hc
  have hrun : ∀ x z : List ℝ, z.length = max b.length a.length - 1 → ctle x zs ps dc fs osr (some z) = .ok (some
      ((lfRun id (b.map (· / a.getD 0 0)) (a.map (· / a.getD 0 0)) z x).1,
        some (lfRun id (b.map (· / a.getD 0 0)) (a.map (· / a.getD 0 0)) z x).2)) := by
    intro x z hzl
    unfold ctle ctleWith
    rw [hc']
    show ((lfilter b a x z).bind _) = _
    unfold lfilter
    rw [if_neg (by rintro (h | h | h) <;> first | omega | exact h0 h), if_neg (by simp [hzl]), if_neg (by omega)]
    rfl
  refine ⟨_, _, _, _, hrun x1 zi hl, hrun x2 _ (by rw [lfRun_state_length, hl]), ?_⟩
  rw [hrun (x1 ++ x2) zi hl, lfRun_append]

end Verif
