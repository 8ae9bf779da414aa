import Verif.Props.Delay
import Verif.Lemmas.InterpError
import Verif.Lemmas.DelayFreq
import Mathlib.Analysis.SpecificLimits.Basic
import Mathlib.Analysis.Real.Pi.Irrational

/-! **C127**: how accurate the Lagrange delay filters and `digital_oversample` are on signals that are not polynomials. -/

open Finset

namespace Verif

/-- **C127** (partial: for int64 denominators only orders up to 20, see `C52_negative_overflow`). For every function with `n + 1`
continuous derivatives, the last bounded by `M`, the filter for the delay `alpha` misses the value at `tau + alpha` by at most
`M / (n + 1)!` times the product of the distances of `alpha` from the taps. -/
theorem C127_coefficients_partial (w : ℤ → ℤ) (n : ℕ) (hw : w = id ∨ (w = wrap64 ∧ n ≤ 20)) (hn : 0 < n) (α τ : ℝ) (forward : Bool)
    (f : ℝ → ℝ) (hf : ContDiff ℝ (n + 1 : ℕ) f) (M : ℝ) (hM : ∀ t, |iteratedDeriv (n + 1) f t| ≤ M) :
    ∃ c, lagrangeCoeffs w n α forward = .ok c ∧ c.length = n + 1 ∧
      |∑ k ∈ range (n + 1), c.getD k 0 * f (τ + ((k : ℝ) - (if n % 2 = 1 ∧ forward = false then n / 2 + 1 else n / 2 : ℕ))) - f (τ + α)|
        ≤ M / (n + 1).factorial
          * ∏ k ∈ range (n + 1), |α - ((k : ℝ) - (if n % 2 = 1 ∧ forward = false then n / 2 + 1 else n / 2 : ℕ))| := by
  obtain ⟨c, e, hl, hrep⟩ := C52_reproduces_partial (K := ℝ) w n hw hn α forward
  refine ⟨c, e, hl, ?_⟩
  revert hrep
  generalize (if n % 2 = 1 ∧ forward = false then n / 2 + 1 else n / 2 : ℕ) = z
  intro hrep
  obtain ⟨p, hp, hpe, herr⟩ := interp_error f n hf M hM (fun k => τ + ((k : ℝ) - (z : ℕ)))
    (fun a b h => by simpa using h) (τ + α)
  have h := hrep (p.comp (Polynomial.X + Polynomial.C τ)) (by
    rw [Polynomial.natDegree_comp, Polynomial.natDegree_X_add_C, mul_one]; exact hp)
  simp only [Polynomial.eval_comp, Polynomial.eval_add, Polynomial.eval_X, Polynomial.eval_C] at h
  have hsum : ∑ k ∈ range (n + 1), c.getD k 0 * f (τ + ((k : ℝ) - (z : ℕ))) = p.eval (τ + α) := by
    rw [add_comm τ α, ← h]
    refine sum_congr rfl fun k hk => ?_
    have := hpe k (by have := mem_range.1 hk; omega)
    rw [← this]
    congr 2
    push_cast
    ring
  rw [hsum]
  refine herr.trans (le_of_eq ?_)
  congr 1
  refine prod_congr rfl fun k _ => ?_
  congr 1
  ring

/-- **C127** (partial, as above). `digital_oversample` with Lagrange interpolation on the samples of such a function: every output
sample is within `M / 2^(order + 1)` of the function at its time, within twice that for an even order. -/
theorem C127_oversample_partial (w : ℤ → ℤ) (osr order : ℕ) (hw : w = id ∨ (w = wrap64 ∧ order ≤ 20)) (h0 : 0 < order) (ho : 0 < osr)
    (x : List ℝ) (hN : order ≤ x.length) (f : ℝ → ℝ) (hf : ContDiff ℝ (order + 1 : ℕ) f) (M : ℝ)
    (hM : ∀ t, |iteratedDeriv (order + 1) f t| ≤ M) (hx : ∀ m : ℕ, m < x.length → x.getD m 0 = f m) :
    ∃ t x2 x1, digitalOversample (fun a => lagrangeCoeffs w order a true) x osr order = .ok (t, x2, x1) ∧
      t.length = (x.length - order) * osr ∧
      ∀ r k : ℕ, r < x.length - order → k < osr →
        |t.getD (r * osr + k) 0 - f (((order / 2 : ℕ) : ℝ) + r + (k : ℝ) / osr)|
          ≤ M / 2 ^ (order + 1) * (if order % 2 = 1 then 1 else 2) := by
  have hM0 : 0 ≤ M := le_trans (abs_nonneg _) (hM 0)
  obtain ⟨t, x2, x1, e, h1, h2, h3, -, -⟩ := C53_samples (fun a => lagrangeCoeffs w order a true) x osr order
    (fun k _ _ => by
      obtain ⟨c, e, hl, -⟩ := C52_reproduces_partial w order hw h0 ((k : ℝ) / osr) true
      exact ⟨c, e, hl⟩) ho (by omega) hN
  refine ⟨t, x2, x1, e, h1, fun r k hr hk => ?_⟩
  rcases Nat.eq_zero_or_pos k with rfl | hk0
  · rw [add_zero, h2 r hr, hx _ (by omega), Nat.cast_zero, zero_div, add_zero]
    push_cast
    rw [sub_self, abs_zero]
    split_ifs <;> positivity
  · obtain ⟨c, e, -, herr⟩ := C127_coefficients_partial w order hw h0 ((k : ℝ) / osr) (((order / 2 : ℕ) : ℝ) + r) true f hf M hM
    rw [h3 r k c hr hk0 hk e]
    rw [if_neg (by simp)] at herr
    have hs : ∑ j ∈ range (order + 1), c.getD j 0 * x.getD (r + j) 0
        = ∑ j ∈ range (order + 1), c.getD j 0 * f (((order / 2 : ℕ) : ℝ) + r + ((j : ℝ) - (order / 2 : ℕ))) := by
      refine sum_congr rfl fun j hj => ?_
      rw [mem_range] at hj
      rw [hx _ (by omega)]
      congr 2
      push_cast
      ring
    rw [hs]
    have hosr : (0 : ℝ) < osr := by exact_mod_cast ho
    have hα := node_prod order h0 ((k : ℝ) / osr) (by positivity) ((div_le_one hosr).2 (by exact_mod_cast hk.le))
    have hfac : (0 : ℝ) < (order + 1).factorial := by exact_mod_cast Nat.factorial_pos _
    refine herr.trans ((mul_le_mul_of_nonneg_left hα (div_nonneg hM0 hfac.le)).trans (le_of_eq ?_))
    field_simp

/-- **C127** (partial, as above). A sinusoid of amplitude `A` and `omega` radians per sample: every output sample is within
`A (omega/2)^(order + 1)` of the sinusoid, within twice that for an even order. -/
theorem C127_sinusoid_partial (w : ℤ → ℤ) (osr order : ℕ) (hw : w = id ∨ (w = wrap64 ∧ order ≤ 20)) (h0 : 0 < order) (ho : 0 < osr)
    (x : List ℝ) (hN : order ≤ x.length) (A ω φ : ℝ) (hx : ∀ m : ℕ, m < x.length → x.getD m 0 = A * Real.cos (ω * m + φ)) :
    ∃ t x2 x1, digitalOversample (fun a => lagrangeCoeffs w order a true) x osr order = .ok (t, x2, x1) ∧
      t.length = (x.length - order) * osr ∧
      ∀ r k : ℕ, r < x.length - order → k < osr →
        |t.getD (r * osr + k) 0 - A * Real.cos (ω * (((order / 2 : ℕ) : ℝ) + r + (k : ℝ) / osr) + φ)|
          ≤ |A| * (|ω| / 2) ^ (order + 1) * (if order % 2 = 1 then 1 else 2) := by
  obtain ⟨t, x2, x1, e, hl, h⟩ := C127_oversample_partial w osr order hw h0 ho x hN (fun t => A * Real.cos (ω * t + φ))
    (contDiff_const.mul (Real.contDiff_cos.comp ((contDiff_const.mul contDiff_id).add contDiff_const)))
    (|A| * |ω| ^ (order + 1)) (iteratedDeriv_sinusoid_le A ω φ (order + 1)) hx
  refine ⟨t, x2, x1, e, hl, fun r k hr hk => (h r k hr hk).trans (le_of_eq ?_)⟩
  rw [div_pow]
  ring

/-- **C127** (partial, as above). Up to the Nyquist frequency, for every order, delay and phase: the filter misses the delayed
sinusoid by at most `|omega| (2 |sin(omega/2)|)^n / n!` times the product of the distances of `alpha` from the taps. -/
theorem C127_response_partial (w : ℤ → ℤ) (n : ℕ) (hw : w = id ∨ (w = wrap64 ∧ n ≤ 20)) (hn : 0 < n) (α τ : ℝ) (forward : Bool)
    (ω φ : ℝ) (hω : |ω| ≤ Real.pi) :
    ∃ c, lagrangeCoeffs w n α forward = .ok c ∧ c.length = n + 1 ∧
      |∑ k ∈ range (n + 1), c.getD k 0
          * Real.cos (ω * (τ + ((k : ℝ) - (if n % 2 = 1 ∧ forward = false then n / 2 + 1 else n / 2 : ℕ))) + φ)
        - Real.cos (ω * (τ + α) + φ)|
        ≤ |ω| * (2 * |Real.sin (ω / 2)|) ^ n / n.factorial
          * ∏ k ∈ range (n + 1), |α - ((k : ℝ) - (if n % 2 = 1 ∧ forward = false then n / 2 + 1 else n / 2 : ℕ))| := by
  obtain ⟨c, e, hl, hrep⟩ := C52_reproduces_partial (K := ℝ) w n hw hn α forward
  refine ⟨c, e, hl, ?_⟩
  have hw' : ∀ r ≤ n, w (lagDen n r) = lagDen n r := by
    rcases hw with rfl | ⟨rfl, h⟩
    · exact fun _ _ => rfl
    · exact lagDen_small n h
  rw [lagrangeCoeffs_eq w n hn α forward hw'] at e
  have hcd : ∀ k ≤ n, c.getD k 0 = Polynomial.eval α (Lagrange.basis (range (n + 1)) (tapPos ℝ (zeroTap n forward)) k) := by
    intro k hk
    rw [← Except.ok.inj e, map_range_getD _ _ _ _ (by omega)]
  have h1 := hrep 1 (by simp)
  simp only [Polynomial.eval_one, mul_one] at h1
  have hz : zeroTap n forward = (if n % 2 = 1 ∧ forward = false then n / 2 + 1 else n / 2 : ℕ) := rfl
  rw [← hz]
  generalize zeroTap n forward = z at hcd
  have htp : ∀ k : ℕ, tapPos ℝ z k = (k : ℝ) - z := fun k => by unfold tapPos; push_cast; ring
  obtain ⟨W, hW⟩ : ∃ W, W = ∏ k ∈ range (n + 1), (α - ((k : ℝ) - z)) := ⟨_, rfl⟩
  have hresp := response_error n z α (fun k => c.getD k 0) W h1 (fun k hk => by
    have h := tap_weight n z k hk α
    rw [← hcd k hk, htp k, prod_congr rfl fun c _ => by rw [htp c], ← hW] at h
    exact h) ω hω
  have hre : ∑ k ∈ range (n + 1), c.getD k 0 * Real.cos (ω * (τ + ((k : ℝ) - z)) + φ) - Real.cos (ω * (τ + α) + φ)
      = (Complex.exp (((ω * (τ + α) + φ : ℝ) : ℂ) * Complex.I)
        * (∑ k ∈ range (n + 1), (c.getD k 0 : ℂ) * Complex.exp (Complex.I * ((ω * ((k : ℝ) - z - α) : ℝ) : ℂ)) - 1)).re := by
    rw [mul_sub, mul_one, mul_sum, Complex.sub_re, Complex.re_sum, Complex.exp_ofReal_mul_I_re]
    congr 1
    refine sum_congr rfl fun k _ => ?_
    rw [mul_left_comm, ← Complex.exp_add, Complex.re_ofReal_mul,
      show ((ω * (τ + α) + φ : ℝ) : ℂ) * Complex.I + Complex.I * ((ω * ((k : ℝ) - z - α) : ℝ) : ℂ)
        = ((ω * (τ + ((k : ℝ) - z)) + φ : ℝ) : ℂ) * Complex.I by push_cast; ring, Complex.exp_ofReal_mul_I_re]
  rw [hre]
  refine (Complex.abs_re_le_norm _).trans ?_
  rw [norm_mul, Complex.norm_exp_ofReal_mul_I, one_mul]
  refine hresp.trans (le_of_eq ?_)
  rw [hW, abs_prod]
  ring

/-- **C127** (partial, as above). A sinusoid up to the Nyquist frequency: every output sample is within
`A |omega| (order + 1)/2 |sin(omega/2)|^order` of the sinusoid, within twice that for an even order. -/
theorem C127_below_nyquist_partial (w : ℤ → ℤ) (osr order : ℕ) (hw : w = id ∨ (w = wrap64 ∧ order ≤ 20)) (h0 : 0 < order)
    (ho : 0 < osr) (x : List ℝ) (hN : order ≤ x.length) (A ω φ : ℝ) (hω : |ω| ≤ Real.pi)
    (hx : ∀ m : ℕ, m < x.length → x.getD m 0 = A * Real.cos (ω * m + φ)) :
    ∃ t x2 x1, digitalOversample (fun a => lagrangeCoeffs w order a true) x osr order = .ok (t, x2, x1) ∧
      t.length = (x.length - order) * osr ∧
      ∀ r k : ℕ, r < x.length - order → k < osr →
        |t.getD (r * osr + k) 0 - A * Real.cos (ω * (((order / 2 : ℕ) : ℝ) + r + (k : ℝ) / osr) + φ)|
          ≤ |A| * |ω| * ((order + 1) / 2) * |Real.sin (ω / 2)| ^ order * (if order % 2 = 1 then 1 else 2) := by
  obtain ⟨t, x2, x1, e, h1, h2, h3, -, -⟩ := C53_samples (fun a => lagrangeCoeffs w order a true) x osr order
    (fun k _ _ => by
      obtain ⟨c, e, hl, -⟩ := C52_reproduces_partial w order hw h0 ((k : ℝ) / osr) true
      exact ⟨c, e, hl⟩) ho (by omega) hN
  refine ⟨t, x2, x1, e, h1, fun r k hr hk => ?_⟩
  rcases Nat.eq_zero_or_pos k with rfl | hk0
  · rw [add_zero, h2 r hr, hx _ (by omega), Nat.cast_zero, zero_div, add_zero]
    push_cast
    rw [sub_self, abs_zero]
    split_ifs <;> positivity
  · obtain ⟨c, e, -, herr⟩ := C127_response_partial w order hw h0 ((k : ℝ) / osr) (((order / 2 : ℕ) : ℝ) + r) true ω φ hω
    rw [h3 r k c hr hk0 hk e]
    rw [if_neg (by simp)] at herr
    have hs : ∑ j ∈ range (order + 1), c.getD j 0 * x.getD (r + j) 0
        = A * ∑ j ∈ range (order + 1), c.getD j 0 * Real.cos (ω * (((order / 2 : ℕ) : ℝ) + r + ((j : ℝ) - (order / 2 : ℕ))) + φ) := by
      rw [mul_sum]
      refine sum_congr rfl fun j hj => ?_
      rw [mem_range] at hj
      rw [hx _ (by omega), mul_left_comm]
      congr 4
      push_cast
      ring
    rw [hs, ← mul_sub, abs_mul]
    have hosr : (0 : ℝ) < osr := by exact_mod_cast ho
    have hα := node_prod order h0 ((k : ℝ) / osr) (by positivity) ((div_le_one hosr).2 (by exact_mod_cast hk.le))
    have hfac : (0 : ℝ) < order.factorial := by exact_mod_cast Nat.factorial_pos _
    refine (mul_le_mul_of_nonneg_left (herr.trans (mul_le_mul_of_nonneg_left hα (by positivity))) (abs_nonneg A)).trans (le_of_eq ?_)
    rw [Nat.factorial_succ, mul_pow, pow_succ]
    push_cast
    field_simp

/-- **C127**, convergence (denominators without overflow): below the Nyquist frequency the error of the interpolated sinusoid falls
under every bound for all large orders, for all records, rates, amplitudes up to `A` and phases alike. -/
theorem C127_converges (A ω : ℝ) (hω : |ω| < Real.pi) (ε : ℝ) (hε : 0 < ε) :
    ∃ n₀ : ℕ, ∀ order, n₀ ≤ order → 0 < order → ∀ (osr : ℕ), 0 < osr → ∀ (x : List ℝ) (B φ : ℝ), order ≤ x.length → |B| ≤ A →
      (∀ m : ℕ, m < x.length → x.getD m 0 = B * Real.cos (ω * m + φ)) →
      ∃ t x2 x1, digitalOversample (fun a => lagrangeCoeffs id order a true) x osr order = .ok (t, x2, x1) ∧
        t.length = (x.length - order) * osr ∧
        ∀ r k : ℕ, r < x.length - order → k < osr →
          |t.getD (r * osr + k) 0 - B * Real.cos (ω * (((order / 2 : ℕ) : ℝ) + r + (k : ℝ) / osr) + φ)| < ε := by
  obtain ⟨q, hq⟩ : ∃ q, q = |Real.sin (ω / 2)| := ⟨_, rfl⟩
  have hq0 : 0 ≤ q := by rw [hq]; exact abs_nonneg _
  have hq1 : q < 1 := by
    have hc : 0 < Real.cos (ω / 2) := Real.cos_pos_of_mem_Ioo ⟨by linarith [neg_abs_le ω], by linarith [le_abs_self ω]⟩
    have h := Real.sin_sq_add_cos_sq (ω / 2)
    rw [hq]
    refine (sq_lt_one_iff₀ (abs_nonneg _)).1 ?_
    rw [sq_abs]
    nlinarith
  have hlim := ((tendsto_self_mul_const_pow_of_lt_one hq0 hq1).add (tendsto_pow_atTop_nhds_zero_of_lt_one hq0 hq1)).const_mul (|A| * |ω|)
  rw [add_zero, mul_zero] at hlim
  obtain ⟨n₀, hn⟩ := Filter.eventually_atTop.1 (hlim.eventually (gt_mem_nhds hε))
  refine ⟨n₀, fun order hno h0 osr ho x B φ hN hB hx => ?_⟩
  obtain ⟨t, x2, x1, e, hl, h⟩ := C127_below_nyquist_partial id osr order (Or.inl rfl) h0 ho x hN B ω φ hω.le hx
  refine ⟨t, x2, x1, e, hl, fun r k hr hk => lt_of_le_of_lt (h r k hr hk) (lt_of_le_of_lt ?_ (hn order hno))⟩
  have hBA : |B| ≤ |A| := hB.trans (le_abs_self A)
  rw [← hq]
  have hp : 0 ≤ |ω| * (order + 1) * q ^ order := by positivity
  have h1 : |B| * (|ω| * (order + 1) * q ^ order) ≤ |A| * (|ω| * (order + 1) * q ^ order) := mul_le_mul_of_nonneg_right hBA hp
  have h2 : 0 ≤ |B| * (|ω| * (order + 1) * q ^ order) := mul_nonneg (abs_nonneg _) hp
  have h3 : |A| * |ω| * (order * q ^ order + q ^ order) = |A| * (|ω| * (order + 1) * q ^ order) := by ring
  rw [h3]
  split_ifs <;> nlinarith

/-- **C127, negative.** At the Nyquist frequency no order helps: the samples of this sinusoid are all 0, so are the interpolated
ones, and half way between two samples the error is the full amplitude. -/
theorem C127_negative_nyquist (order : ℕ) (h0 : 0 < order) (N : ℕ) (hN : order < N) :
    (∀ m : ℕ, m < N → (List.replicate N (0 : ℝ)).getD m 0 = Real.cos (Real.pi * m + Real.pi / 2)) ∧
    ∃ t x2 x1, digitalOversample (fun a => lagrangeCoeffs id order a true) (List.replicate N (0 : ℝ)) 2 order = .ok (t, x2, x1) ∧
      ∀ r : ℕ, r < N - order →
        |t.getD (r * 2 + 1) 0 - Real.cos (Real.pi * (((order / 2 : ℕ) : ℝ) + r + ((1 : ℕ) : ℝ) / (2 : ℕ)) + Real.pi / 2)| = 1 := by
  have hz : ∀ m : ℕ, (List.replicate N (0 : ℝ)).getD m 0 = 0 := by
    intro m
    rw [List.getD_eq_getElem?_getD, List.getElem?_replicate]
    split_ifs <;> rfl
  have hsin : ∀ m : ℕ, Real.sin (Real.pi * m) = 0 := fun m => by rw [mul_comm]; exact Real.sin_nat_mul_pi m
  refine ⟨fun m _ => ?_, ?_⟩
  · rw [hz, Real.cos_add_pi_div_two, hsin, neg_zero]
  · obtain ⟨t, x2, x1, e, -, h⟩ := C127_sinusoid_partial id 2 order (Or.inl rfl) h0 two_pos (List.replicate N (0 : ℝ))
      (by rw [List.length_replicate]; exact hN.le) 0 0 0 (fun m _ => by rw [hz]; ring)
    refine ⟨t, x2, x1, e, fun r hr => ?_⟩
    have h1 := h r 1 (by rw [List.length_replicate]; exact hr) (by norm_num)
    rw [abs_zero, zero_mul, zero_mul, zero_mul, sub_zero] at h1
    have h2 : t.getD (r * 2 + 1) 0 = 0 := abs_nonpos_iff.1 h1
    rw [h2, zero_sub, abs_neg, Real.cos_add_pi_div_two, abs_neg,
      show Real.pi * (((order / 2 : ℕ) : ℝ) + r + ((1 : ℕ) : ℝ) / (2 : ℕ)) = ((order / 2 + r : ℕ) : ℝ) * Real.pi + Real.pi / 2 by
        push_cast; ring,
      Real.sin_add_pi_div_two]
    have h3 := Real.sin_sq_add_cos_sq (((order / 2 + r : ℕ) : ℝ) * Real.pi)
    rw [Real.sin_nat_mul_pi] at h3
    rw [← sq_eq_sq₀ (abs_nonneg _) zero_le_one, sq_abs]
    linarith

/-- The sinc taps for half a sample are rational multiples of `1/pi`. -/
theorem sinc_half (i : ℤ) : ∃ q : ℚ, Real.sinc (Real.pi * ((i : ℝ) - 1 / 2)) = q / Real.pi := by
  have hne : ((i : ℝ) - 1 / 2) ≠ 0 := by
    intro h
    have h2 : (2 * i : ℤ) = 1 := by
      have : (2 * i : ℝ) = 1 := by linarith
      exact_mod_cast this
    omega
  have hpi := Real.pi_ne_zero
  rw [Real.sinc_of_ne_zero (mul_ne_zero hpi hne), show Real.pi * ((i : ℝ) - 1 / 2) = i * Real.pi - Real.pi / 2 by ring,
    Real.sin_sub_pi_div_two, Real.cos_int_mul_pi]
  refine ⟨-(-1) ^ i / (i - 1 / 2), ?_⟩
  push_cast
  rw [show (i : ℝ) * Real.pi - Real.pi / 2 = (i - 1 / 2) * Real.pi by ring, div_div]

/-- **C127, negative.** Sinc interpolation of any order changes the level of a constant signal half way between two samples. -/
theorem C127_negative_sinc (order : ℕ) (N : ℕ) (hN : order < N) (a : ℝ) (ha : a ≠ 0) :
    ∃ t x2 x1, digitalOversample (fun α => .ok (sincCoeffs order α true)) (List.replicate N a) 2 order = .ok (t, x2, x1) ∧
      ∀ r, r < N - order → t.getD (r * 2) 0 = a ∧ t.getD (r * 2 + 1) 0 ≠ a := by
  have hc : ∀ m < N, (List.replicate N a).getD m 0 = a := by
    intro m hm
    rw [List.getD_eq_getElem?_getD, List.getElem?_replicate, if_pos hm]
    rfl
  obtain ⟨t, x2, x1, e, -, h2, h3, -, -⟩ := C53_samples (fun α => .ok (sincCoeffs order α true)) (List.replicate N a) 2 order
    (fun k _ _ => ⟨_, rfl, (C64_sinc order _ true).1⟩) two_pos (by rw [List.length_replicate]; omega)
    (by rw [List.length_replicate]; omega)
  rw [List.length_replicate] at h2 h3
  refine ⟨t, x2, x1, e, fun r hr => ⟨by rw [h2 r hr, hc _ (by omega)], fun h => ?_⟩⟩
  rw [h3 r 1 _ hr one_pos one_lt_two rfl] at h
  have hq : ∀ j : ℕ, ∃ q : ℚ, j < order + 1 → (sincCoeffs order (((1 : ℕ) : ℝ) / (2 : ℕ)) true).getD j 0 = q / Real.pi := by
    intro j
    by_cases hj : j < order + 1
    · obtain ⟨q, hq⟩ := sinc_half ((j : ℤ) - (if order % 2 = 1 ∧ true = false then order / 2 + 1 else order / 2 : ℕ))
      refine ⟨q, fun _ => ?_⟩
      rw [(C64_sinc order _ true).2.1 j (by omega), ← hq]
      norm_num
    · exact ⟨0, fun h => absurd h hj⟩
  choose q hq using hq
  have hsum : ∑ j ∈ range (order + 1), (sincCoeffs order (((1 : ℕ) : ℝ) / (2 : ℕ)) true).getD j 0 * (List.replicate N a).getD (r + j) 0
      = a * (((∑ j ∈ range (order + 1), q j : ℚ) : ℝ) / Real.pi) := by
    rw [Rat.cast_sum, sum_div, mul_sum]
    refine sum_congr rfl fun j hj => ?_
    rw [mem_range] at hj
    rw [hq j hj, hc _ (by omega), mul_comm]
  rw [hsum] at h
  have h1 : ((∑ j ∈ range (order + 1), q j : ℚ) : ℝ) / Real.pi = 1 := mul_left_cancel₀ ha (by rw [h, mul_one])
  rw [div_eq_one_iff_eq Real.pi_ne_zero] at h1
  exact irrational_pi ⟨_, h1⟩

/-- Half a radian per sample and order 3: every sample is within `1/256`. -/
example : ∃ t x2 x1, digitalOversample (fun a => lagrangeCoeffs wrap64 3 a true)
      ((List.range 8).map fun m : ℕ => Real.cos (1 / 2 * m)) 4 3 = .ok (t, x2, x1) ∧
    |t.getD 6 0 - Real.cos (1 / 2 * (1 + 1 + 2 / 4))| ≤ 1 / 256 := by
  obtain ⟨t, x2, x1, e, -, h⟩ := C127_sinusoid_partial wrap64 4 3 (Or.inr ⟨rfl, by norm_num⟩) (by norm_num) (by norm_num)
    ((List.range 8).map fun m : ℕ => Real.cos (1 / 2 * m)) (by simp) 1 (1 / 2) 0 (fun m hm => by
      rw [map_range_getD _ _ _ _ (by simpa using hm), one_mul, add_zero])
  refine ⟨t, x2, x1, e, ?_⟩
  have h1 := h 1 2 (by simp) (by norm_num)
  norm_num at h1 ⊢
  exact h1

end Verif
