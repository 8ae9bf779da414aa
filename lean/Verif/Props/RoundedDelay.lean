import Verif.Lemmas.RoundedDelay
import Verif.Props.DelayError
import Mathlib.Analysis.SpecialFunctions.Trigonometric.Bounds

/-! **C128**: the Lagrange delay filters and `digital_oversample` in floating-point arithmetic. -/

open Finset

namespace Verif
open Spec

/-- **C128.** The Lagrange coefficients in `p`-bit arithmetic, whatever the order of the multiplications: each is the exact coefficient
up to `2 n + 3` rounding errors. -/
theorem C128_coefficients (p : ℕ) (hp : 1 ≤ p) (prodR : List ℝ → ℝ) (hprod : ∀ l, RoundedProd (fl p) l (prodR l)) (w : ℤ → ℤ) (n : ℕ)
    (hn : 0 < n) (α : ℝ) (forward : Bool) :
    ∃ c' c, lagrangeCoeffsR (fl p) prodR w n α forward = .ok c' ∧ lagrangeCoeffs w n α forward = .ok c ∧ c'.length = n + 1 ∧
      c.length = n + 1 ∧ ∀ k : ℕ, |c'.getD k 0 - c.getD k 0| ≤ ((1 + 2 ^ (-(p : ℤ))) ^ (2 * n + 3) - 1) * |c.getD k 0| := by
  have hu2 : (2 : ℝ) ^ (-(p : ℤ)) ≤ 1 / 2 := by
    have h : (2 : ℝ) ^ (-(p : ℤ)) ≤ 2 ^ (-(1 : ℤ)) := zpow_le_zpow_right₀ (by norm_num) (by omega)
    refine h.trans (le_of_eq ?_)
    rw [zpow_neg]; norm_num
  exact lagrangeCoeffsR_near (unit_nonneg p) hu2 (fl_error p) prodR hprod w n hn α forward

/-- **C128.** Every output sample of `digital_oversample` with Lagrange interpolation in `p`-bit arithmetic is the value of the exact
filter for the rounded delay, up to `4 order + 6` rounding errors relative to the sum of the absolute values of its terms. The samples
at the input times are the input samples, and the new time axis is the correctly rounded one. -/
theorem C128_samples (p : ℕ) (hp : 1 ≤ p) (prodR : List ℝ → ℝ) (hprod : ∀ l, RoundedProd (fl p) l (prodR l))
    (conv : List ℝ → List ℝ → List ℝ) (hconv : IsConvolve (fl p) conv) (w : ℤ → ℤ) (osr order : ℕ) (h0 : 0 < order) (ho : 0 < osr)
    (x : List ℝ) (hN : order ≤ x.length) :
    ∃ t x2 x1, digitalOversampleR (fl p) conv (fun a => lagrangeCoeffsR (fl p) prodR w order a true) x osr order = .ok (t, x2, x1) ∧
      t.length = (x.length - order) * osr ∧
      (∀ r < x.length - order, t.getD (r * osr) 0 = x.getD (order / 2 + r) 0) ∧
      (∀ (r k : ℕ) (c : List ℝ), r < x.length - order → 0 < k → k < osr →
        lagrangeCoeffs w order (fl p ((k : ℝ) / osr)) true = .ok c →
        |t.getD (r * osr + k) 0 - ∑ j ∈ range (order + 1), c.getD j 0 * x.getD (r + j) 0|
          ≤ ((1 + 2 ^ (-(p : ℤ))) ^ (4 * order + 6) - 1) * ∑ j ∈ range (order + 1), |c.getD j 0| * |x.getD (r + j) 0|) ∧
      x2.length = t.length ∧ (∀ m < t.length, x2.getD m 0 = fl p ((m : ℝ) / osr)) ∧
      x1 = (List.range (x.length - order + 1)).map (fun k : ℕ => (k : ℝ)) := by
  have hu := unit_nonneg p
  choose cf c0 hcf hc0 hl1 hl2 hnear using fun a : ℝ => C128_coefficients p hp prodR hprod w order h0 a true
  obtain ⟨t, x2, x1, e, q1, q2, q3, q4, q5, q6⟩ := digitalOversampleR_eq p conv hconv
    (fun a => lagrangeCoeffsR (fl p) prodR w order a true) cf x osr order (fun a => ⟨hcf a, hl1 a⟩) ho (by omega) hN
  refine ⟨t, x2, x1, e, q1, q2, fun r k c hr hk0 hk hc => ?_, q4, q5, q6⟩
  have h := q3 r k hr hk0 hk
  have hce : c = c0 (fl p ((k : ℝ) / osr)) := by
    rw [hc0] at hc
    exact (Except.ok.inj hc).symm
  rw [hce]
  have hn := hnear (fl p ((k : ℝ) / osr))
  generalize fl p ((k : ℝ) / osr) = a at h hn ⊢
  have hG := near_pow_nonneg hu (2 * order + 3)
  have e4 : ((1 : ℝ) + 2 ^ (-(p : ℤ))) ^ (4 * order + 6) = ((1 + 2 ^ (-(p : ℤ))) ^ (2 * order + 3)) ^ 2 := by
    rw [← pow_mul]; congr 1; ring
  rw [e4]
  generalize ((1 : ℝ) + 2 ^ (-(p : ℤ))) ^ (2 * order + 3) = G at h hn hG
  have s1 : |∑ j ∈ range (order + 1), (cf a).getD j 0 * x.getD (r + j) 0 - ∑ j ∈ range (order + 1), (c0 a).getD j 0 * x.getD (r + j) 0|
      ≤ (G - 1) * ∑ j ∈ range (order + 1), |(c0 a).getD j 0| * |x.getD (r + j) 0| := by
    rw [← sum_sub_distrib, mul_sum]
    refine (abs_sum_le_sum_abs _ _).trans (sum_le_sum fun j _ => ?_)
    rw [← sub_mul, abs_mul, ← mul_assoc]
    exact mul_le_mul_of_nonneg_right (hn j) (abs_nonneg _)
  have s2 : ∑ j ∈ range (order + 1), |(cf a).getD j 0| * |x.getD (r + j) 0|
      ≤ G * ∑ j ∈ range (order + 1), |(c0 a).getD j 0| * |x.getD (r + j) 0| := by
    rw [mul_sum]
    refine sum_le_sum fun j _ => ?_
    rw [← mul_assoc]
    refine mul_le_mul_of_nonneg_right ?_ (abs_nonneg _)
    have := abs_sub_abs_le_abs_sub ((cf a).getD j 0) ((c0 a).getD j 0)
    have := hn j
    linarith
  have s3 := mul_le_mul_of_nonneg_left s2 hG
  refine (abs_sub_le _ _ _).trans ((add_le_add (h.trans s3) s1).trans (le_of_eq ?_))
  ring

/-- **C128** (partial: for int64 denominators only orders up to 20). The sum of the absolute values of the Lagrange coefficients, for a
delay between 0 and 1: at most `order // 2 + 3`, so an error in the input samples is amplified at most by that. -/
theorem C128_gain_partial (w : ℤ → ℤ) (n : ℕ) (hw : w = id ∨ (w = wrap64 ∧ n ≤ 20)) (hn : 0 < n) (α : ℝ) (h0 : 0 ≤ α) (h1 : α ≤ 1) :
    ∃ c, lagrangeCoeffs w n α true = .ok c ∧ c.length = n + 1 ∧ ∑ k ∈ range (n + 1), |c.getD k 0| ≤ (n / 2 : ℕ) + 3 := by
  have hw' : ∀ r ≤ n, w (lagDen n r) = lagDen n r := by
    rcases hw with rfl | ⟨rfl, h⟩
    · exact fun _ _ => rfl
    · exact lagDen_small n h
  have hz : zeroTap n true = n / 2 := by simp [zeroTap]
  refine ⟨_, lagrangeCoeffs_eq w n hn α true hw', by simp, ?_⟩
  refine le_trans (le_of_eq ?_) (basis_abs_sum n hn α h0 h1)
  refine sum_congr rfl fun k hk => ?_
  rw [map_range_getD _ _ _ _ (mem_range.1 hk), hz]

/-- **C128** (partial: for int64 denominators only orders up to 20, and arithmetic without overflow or underflow).
`digital_oversample` with Lagrange interpolation in `p`-bit arithmetic, on samples within `e` of a function `f` bounded by `F` with slope
at most `L` and derivative of order `order + 1` at most `M`: the error is at most the one of exact arithmetic, plus `L u` for the rounded
delay, plus `(order // 2 + 3) (e + ((1 + u)^(4 order + 6) - 1) (F + e))`. -/
theorem C128_oversample_partial (p : ℕ) (hp : 1 ≤ p) (prodR : List ℝ → ℝ) (hprod : ∀ l, RoundedProd (fl p) l (prodR l))
    (conv : List ℝ → List ℝ → List ℝ) (hconv : IsConvolve (fl p) conv) (w : ℤ → ℤ) (osr order : ℕ)
    (hw : w = id ∨ (w = wrap64 ∧ order ≤ 20)) (h0 : 0 < order) (ho : 0 < osr) (hosr : osr ≤ 2 ^ p)
    (x : List ℝ) (hN : order ≤ x.length) (f : ℝ → ℝ) (hf : ContDiff ℝ (order + 1 : ℕ) f) (M L F e : ℝ)
    (hM : ∀ t, |iteratedDeriv (order + 1) f t| ≤ M) (hL : ∀ s t, |f s - f t| ≤ L * |s - t|) (hF : ∀ t, |f t| ≤ F)
    (hx : ∀ m : ℕ, m < x.length → |x.getD m 0 - f m| ≤ e) (he : 0 ≤ e) :
    ∃ t x2 x1, digitalOversampleR (fl p) conv (fun a => lagrangeCoeffsR (fl p) prodR w order a true) x osr order = .ok (t, x2, x1) ∧
      t.length = (x.length - order) * osr ∧
      ∀ r k : ℕ, r < x.length - order → k < osr →
        |t.getD (r * osr + k) 0 - f (((order / 2 : ℕ) : ℝ) + r + (k : ℝ) / osr)|
          ≤ M / 2 ^ (order + 1) * (if order % 2 = 1 then 1 else 2) + L * 2 ^ (-(p : ℤ))
            + ((order / 2 : ℕ) + 3) * (e + ((1 + 2 ^ (-(p : ℤ))) ^ (4 * order + 6) - 1) * (F + e)) := by
  have hu := unit_nonneg p
  have hM0 : 0 ≤ M := le_trans (abs_nonneg _) (hM 0)
  have hF0 : 0 ≤ F := le_trans (abs_nonneg _) (hF 0)
  have hL0 : 0 ≤ L := by
    have := (abs_nonneg _).trans (hL 1 0)
    simpa using this
  have hG := near_pow_nonneg hu (4 * order + 6)
  obtain ⟨t, x2, x1, eq, q1, q2, q3, -, -, -⟩ := C128_samples p hp prodR hprod conv hconv w osr order h0 ho x hN
  refine ⟨t, x2, x1, eq, q1, fun r k hr hk => ?_⟩
  obtain ⟨u, hud⟩ : ∃ u : ℝ, u = 2 ^ (-(p : ℤ)) := ⟨_, rfl⟩
  obtain ⟨G, hGd⟩ : ∃ G : ℝ, G = (1 + u) ^ (4 * order + 6) - 1 := ⟨_, rfl⟩
  rw [← hud] at hu hG q3 ⊢
  rw [← hGd] at hG q3 ⊢
  have hB : 0 ≤ M / 2 ^ (order + 1) * (if order % 2 = 1 then (1 : ℝ) else 2) := by split_ifs <;> positivity
  rcases Nat.eq_zero_or_pos k with rfl | hk0
  · rw [add_zero, q2 r hr, Nat.cast_zero, zero_div, add_zero]
    have h1 := hx (order / 2 + r) (by omega)
    rw [Nat.cast_add] at h1
    have h2 : e ≤ ((order / 2 : ℕ) + 3) * (e + G * (F + e)) := by
      have := mul_nonneg hG (add_nonneg hF0 he)
      have hh := Nat.cast_nonneg (α := ℝ) (order / 2)
      nlinarith [mul_nonneg hh (add_nonneg he this)]
    have := mul_nonneg hL0 hu
    linarith
  · have hosr0 : (0 : ℝ) < osr := by exact_mod_cast ho
    obtain ⟨α, hα⟩ : ∃ α : ℝ, α = (k : ℝ) / osr := ⟨_, rfl⟩
    have ha0 : 0 ≤ α := by rw [hα]; positivity
    have hosru : u * osr ≤ 1 := by
      rw [hud, zpow_neg, zpow_natCast, inv_mul_le_iff₀ (by positivity), mul_one]
      exact_mod_cast hosr
    have ha1 : α + 1 / osr ≤ 1 := by
      rw [hα, ← add_div, div_le_one hosr0]
      exact_mod_cast hk
    have hu1 : u ≤ 1 / osr := by rw [le_div_iff₀ hosr0]; exact hosru
    obtain ⟨β, hβ⟩ : ∃ β : ℝ, β = fl p α := ⟨_, rfl⟩
    have hβe : |β - α| ≤ u * α := by
      have := fl_error p α
      rw [abs_of_nonneg ha0, ← hud, ← hβ] at this
      exact this
    have hosr1 : (1 : ℝ) / osr ≤ 1 := by rw [div_le_one hosr0]; exact_mod_cast ho
    have hαle : α ≤ 1 := by
      have : (0 : ℝ) ≤ 1 / osr := by positivity
      linarith
    have huα : u * α ≤ u := by nlinarith
    have hb := abs_le.1 hβe
    have hb0 : 0 ≤ β := by nlinarith
    have hb1 : β ≤ 1 := by linarith
    rw [← hα]

    obtain ⟨c, ec, -, hgain⟩ := C128_gain_partial w order hw h0 β hb0 hb1
    obtain ⟨c', ec', -, herr⟩ := C127_coefficients_partial w order hw h0 β (((order / 2 : ℕ) : ℝ) + r) true f hf M hM
    have hcc : c' = c := by rw [ec] at ec'; exact (Except.ok.inj ec').symm
    rw [hcc, if_neg (by simp)] at herr
    have hq := q3 r k c hr hk0 hk (by rw [← hα, ← hβ]; exact ec)
    have hfac : (0 : ℝ) < (order + 1).factorial := by exact_mod_cast Nat.factorial_pos _
    have hnode := node_prod order h0 β hb0 hb1
    have herr2 : |∑ j ∈ range (order + 1), c.getD j 0 * f (((order / 2 : ℕ) : ℝ) + r + ((j : ℝ) - (order / 2 : ℕ)))
        - f (((order / 2 : ℕ) : ℝ) + r + β)| ≤ M / 2 ^ (order + 1) * (if order % 2 = 1 then 1 else 2) := by
      refine herr.trans ((mul_le_mul_of_nonneg_left hnode (div_nonneg hM0 hfac.le)).trans (le_of_eq ?_))
      field_simp
    have hxe : ∀ j ∈ range (order + 1), |x.getD (r + j) 0 - f (((order / 2 : ℕ) : ℝ) + r + ((j : ℝ) - (order / 2 : ℕ)))| ≤ e := by
      intro j hj
      rw [mem_range] at hj
      have := hx (r + j) (by omega)
      rw [show ((order / 2 : ℕ) : ℝ) + r + ((j : ℝ) - (order / 2 : ℕ)) = ((r + j : ℕ) : ℝ) by push_cast; ring]
      exact this
    have hxb : ∀ j ∈ range (order + 1), |x.getD (r + j) 0| ≤ F + e := by
      intro j hj
      have a1 := hxe j hj
      have a2 := hF (((order / 2 : ℕ) : ℝ) + r + ((j : ℝ) - (order / 2 : ℕ)))
      have a3 := abs_sub_abs_le_abs_sub (x.getD (r + j) 0) (f (((order / 2 : ℕ) : ℝ) + r + ((j : ℝ) - (order / 2 : ℕ))))
      linarith
    have t1 : ∑ j ∈ range (order + 1), |c.getD j 0| * |x.getD (r + j) 0| ≤ ((order / 2 : ℕ) + 3) * (F + e) := by
      refine le_trans (sum_le_sum fun j hj => mul_le_mul_of_nonneg_left (hxb j hj) (abs_nonneg _)) ?_
      rw [← sum_mul]
      exact mul_le_mul_of_nonneg_right hgain (add_nonneg hF0 he)
    have t2 : |∑ j ∈ range (order + 1), c.getD j 0 * x.getD (r + j) 0
        - ∑ j ∈ range (order + 1), c.getD j 0 * f (((order / 2 : ℕ) : ℝ) + r + ((j : ℝ) - (order / 2 : ℕ)))|
        ≤ ((order / 2 : ℕ) + 3) * e := by
      rw [← sum_sub_distrib]
      refine (abs_sum_le_sum_abs _ _).trans (le_trans ?_ (mul_le_mul_of_nonneg_right hgain he))
      rw [sum_mul]
      refine sum_le_sum fun j hj => ?_
      rw [← mul_sub, abs_mul]
      exact mul_le_mul_of_nonneg_left (hxe j hj) (abs_nonneg _)
    have t3 : |f (((order / 2 : ℕ) : ℝ) + r + β) - f (((order / 2 : ℕ) : ℝ) + r + α)| ≤ L * u := by
      refine (hL _ _).trans (mul_le_mul_of_nonneg_left ?_ hL0)
      rw [add_sub_add_left_eq_sub]
      exact hβe.trans huα
    have t4 := mul_le_mul_of_nonneg_left t1 hG
    have a1 := abs_le.1 (hq.trans t4)
    have a2 := abs_le.1 t2
    have a3 := abs_le.1 herr2
    have a4 := abs_le.1 t3
    have t5 : (((order / 2 : ℕ) : ℝ) + 3) * (e + G * (F + e))
        = (((order / 2 : ℕ) : ℝ) + 3) * e + G * ((((order / 2 : ℕ) : ℝ) + 3) * (F + e)) := by ring
    rw [t5, abs_le]
    constructor <;> linarith

/-- **C128** (partial, as above). Double precision, orders up to 20: a sinusoid of amplitude `A` and `omega` radians per sample, sampled
and rounded, is oversampled within `A` times the error of exact arithmetic plus `(|omega| + 4096) 2^-53`. -/
theorem C128_double_partial (prodR : List ℝ → ℝ) (hprod : ∀ l, RoundedProd (fl 53) l (prodR l))
    (conv : List ℝ → List ℝ → List ℝ) (hconv : IsConvolve (fl 53) conv) (osr order : ℕ) (h0 : 0 < order) (h20 : order ≤ 20)
    (ho : 0 < osr) (hosr : osr ≤ 2 ^ 53) (x : List ℝ) (hN : order ≤ x.length) (A ω φ : ℝ)
    (hx : ∀ m : ℕ, m < x.length → x.getD m 0 = fl 53 (A * Real.cos (ω * m + φ))) :
    ∃ t x2 x1, digitalOversampleR (fl 53) conv (fun a => lagrangeCoeffsR (fl 53) prodR wrap64 order a true) x osr order = .ok (t, x2, x1) ∧
      t.length = (x.length - order) * osr ∧
      ∀ r k : ℕ, r < x.length - order → k < osr →
        |t.getD (r * osr + k) 0 - A * Real.cos (ω * (((order / 2 : ℕ) : ℝ) + r + (k : ℝ) / osr) + φ)|
          ≤ |A| * ((|ω| / 2) ^ (order + 1) * (if order % 2 = 1 then 1 else 2) + (|ω| + 4096) / 2 ^ 53) := by
  have hA := abs_nonneg A
  have hω := abs_nonneg ω
  have hcos : ∀ t, |A * Real.cos (ω * t + φ)| ≤ |A| := fun t => by
    rw [abs_mul]
    exact mul_le_of_le_one_right hA (Real.abs_cos_le_one _)
  have huv : (2 : ℝ) ^ (-((53 : ℕ) : ℤ)) = 1 / 2 ^ 53 := by rw [zpow_neg, zpow_natCast, one_div]
  obtain ⟨t, x2, x1, e, hl, h⟩ := C128_oversample_partial 53 (by norm_num) prodR hprod conv hconv wrap64 osr order (Or.inr ⟨rfl, h20⟩) h0 ho
    hosr x hN (fun t => A * Real.cos (ω * t + φ))
    (contDiff_const.mul (Real.contDiff_cos.comp ((contDiff_const.mul contDiff_id).add contDiff_const)))
    (|A| * |ω| ^ (order + 1)) (|A| * |ω|) |A| (2 ^ (-((53 : ℕ) : ℤ)) * |A|) (iteratedDeriv_sinusoid_le A ω φ (order + 1))
    (fun s t => by
      rw [← mul_sub, abs_mul, mul_assoc]
      refine mul_le_mul_of_nonneg_left ?_ hA
      refine (Real.abs_cos_sub_cos_le _ _).trans (le_of_eq ?_)
      rw [add_sub_add_right_eq_sub, ← mul_sub, abs_mul])
    hcos (fun m hm => by
      rw [hx m hm]
      exact (fl_error 53 _).trans (mul_le_mul_of_nonneg_left (hcos _) (unit_nonneg 53)))
    (mul_nonneg (unit_nonneg 53) hA)
  refine ⟨t, x2, x1, e, hl, fun r k hr hk => (h r k hr hk).trans ?_⟩
  have hu := unit_nonneg 53
  have hu2 : (2 : ℝ) ^ (-((53 : ℕ) : ℤ)) ≤ 1 / 1000 := by rw [huv]; norm_num
  obtain ⟨u, hud⟩ : ∃ u : ℝ, u = 2 ^ (-((53 : ℕ) : ℤ)) := ⟨_, rfl⟩
  rw [show (|ω| + 4096) / 2 ^ 53 = (|ω| + 4096) * u by rw [hud, huv]; ring]
  rw [← hud] at hu hu2 ⊢
  have hk86 : ((4 * order + 6 : ℕ) : ℝ) ≤ 86 := by exact_mod_cast (by omega)
  have hG := one_add_pow_le u hu (4 * order + 6) (by nlinarith)
  have hG2 : (1 + u) ^ (4 * order + 6) - 1 ≤ 172 * u := by nlinarith
  have hh : ((order / 2 : ℕ) : ℝ) + 3 ≤ 13 := by
    have : order / 2 ≤ 10 := by omega
    have : ((order / 2 : ℕ) : ℝ) ≤ 10 := by exact_mod_cast this
    linarith
  have hG0 := near_pow_nonneg hu (4 * order + 6)
  have k2 : u * |A| + ((1 + u) ^ (4 * order + 6) - 1) * (|A| + u * |A|) ≤ 174 * u * |A| := by
    have : ((1 + u) ^ (4 * order + 6) - 1) * (|A| + u * |A|) ≤ 172 * u * ((1 + u) * |A|) := by
      refine mul_le_mul hG2 (le_of_eq (by ring)) (by positivity) (by positivity)
    have h3 : 172 * u * ((1 + u) * |A|) ≤ 173 * u * |A| := by
      have : 172 * (1 + u) ≤ 173 := by linarith
      nlinarith [mul_nonneg hu hA]
    linarith
  have k3 : (((order / 2 : ℕ) : ℝ) + 3) * (u * |A| + ((1 + u) ^ (4 * order + 6) - 1) * (|A| + u * |A|)) ≤ 13 * (174 * u * |A|) :=
    mul_le_mul hh k2 (by positivity) (by norm_num)
  have k4 : |A| * |ω| ^ (order + 1) / 2 ^ (order + 1) = |A| * (|ω| / 2) ^ (order + 1) := by rw [div_pow]; ring
  rw [k4]
  have := mul_nonneg hu hA
  nlinarith

/-! ### examples -/

theorem roundedProd_exists (r : ℝ → ℝ) : ∃ prodR : List ℝ → ℝ, ∀ l, RoundedProd r l (prodR l) := by
  have h : ∀ l : List ℝ, ∃ s, RoundedProd r l s := by
    intro l
    induction l with
    | nil => exact ⟨1, .nil⟩
    | cons a l ih =>
      rcases eq_or_ne l [] with rfl | hl
      · exact ⟨a, .single a⟩
      · obtain ⟨s, hs⟩ := ih
        exact ⟨_, .mul [a] l a s (by simp) hl (.single a) hs⟩
  choose f hf using h
  exact ⟨f, hf⟩

/-- a product and a convolution in double precision exist -/
example : ∃ (prodR : List ℝ → ℝ) (conv : List ℝ → List ℝ → List ℝ), (∀ l, RoundedProd (fl 53) l (prodR l)) ∧ IsConvolve (fl 53) conv := by
  obtain ⟨f, hf⟩ := roundedProd_exists (fl 53)
  obtain ⟨g, hg⟩ := isConvolve_exists (fl 53)
  exact ⟨f, g, hf, hg⟩

/-- order 3, eight samples of a cosine with 1/4 rad per sample, oversampled by 4 in double precision: every sample within 0.0003 -/
example (prodR : List ℝ → ℝ) (hprod : ∀ l, RoundedProd (fl 53) l (prodR l)) (conv : List ℝ → List ℝ → List ℝ)
    (hconv : IsConvolve (fl 53) conv) :
    ∃ t x2 x1, digitalOversampleR (fl 53) conv (fun a => lagrangeCoeffsR (fl 53) prodR wrap64 3 a true)
        ((List.range 8).map fun m : ℕ => fl 53 (1 * Real.cos (1 / 4 * m + 0))) 4 3 = .ok (t, x2, x1) ∧ t.length = 20 ∧
      ∀ r k : ℕ, r < 5 → k < 4 → |t.getD (r * 4 + k) 0 - Real.cos (1 / 4 * (1 + r + (k : ℝ) / 4))| ≤ 3 / 10000 := by
  obtain ⟨t, x2, x1, e, hl, h⟩ := C128_double_partial prodR hprod conv hconv 4 3 (by norm_num) (by norm_num) (by norm_num) (by norm_num)
    ((List.range 8).map fun m : ℕ => fl 53 (1 * Real.cos (1 / 4 * m + 0))) (by simp) 1 (1 / 4) 0
    (fun m hm => map_range_getD _ _ _ _ (by simpa using hm))
  refine ⟨t, x2, x1, e, by rw [hl]; simp, fun r k hr hk => ?_⟩
  have := h r k (by simpa using hr) hk
  rw [one_mul, add_zero] at this
  norm_num at this ⊢
  refine this.trans ?_
  norm_num

/-- the coefficients of order 1 for the delay 1/3 in double precision -/
example (prodR : List ℝ → ℝ) (hprod : ∀ l, RoundedProd (fl 53) l (prodR l)) :
    ∃ c', lagrangeCoeffsR (fl 53) prodR wrap64 1 (1 / 3) true = .ok c' ∧ |c'.getD 0 0 - 2 / 3| ≤ 2 / 3 * (1 / 2 ^ 49) := by
  obtain ⟨c', c, e1, e2, -, -, h⟩ := C128_coefficients 53 (by norm_num) prodR hprod wrap64 1 (by norm_num) (1 / 3) true
  refine ⟨c', e1, ?_⟩
  have hc : lagrangeCoeffs wrap64 1 (1 / 3 : ℝ) true = .ok [2 / 3, 1 / 3] := by
    unfold lagrangeCoeffs
    rw [show getIndices 1 true = [0, 1] by decide]
    norm_num [offDiag, wrap64, List.range_succ]
  rw [hc] at e2
  have h := h 0
  rw [← Except.ok.inj e2, List.getD_cons_zero, abs_of_nonneg (by norm_num : (0 : ℝ) ≤ 2 / 3), mul_comm] at h
  refine h.trans (mul_le_mul_of_nonneg_left ?_ (by norm_num))
  rw [zpow_neg, zpow_natCast]
  norm_num

end Verif
