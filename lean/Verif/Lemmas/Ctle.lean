import Mathlib.Algebra.BigOperators.Ring.List
import Mathlib.Algebra.Order.BigOperators.GroupWithZero.List
import Mathlib.Data.Nat.Choose.Sum
import Mathlib.Tactic.FieldSimp
import Mathlib.Tactic.Linarith
import Mathlib.Tactic.Positivity
import Verif.Model.Ctle
import Verif.Spec.Ctle
import Verif.Lemmas.Ffe

/-! Lemmas for the CTLE: polynomials as coefficient lists and Tustin's transform. -/

open Finset

set_option linter.unusedSectionVars false

namespace Verif

section
variable {K : Type} [Field K] {A : Type*} [CommRing A] (φ : K →+* A)

/-- homogeneous evaluation `Σ l[i] S^i T^(n-i)` -/
def hom (l : List K) (S T : A) : A := ∑ i ∈ range l.length, φ (l.getD i 0) * S ^ i * T ^ (l.length - 1 - i)

theorem mulRoot_length (p : List K) (r : K) : (mulRoot p r).length = p.length + 1 := by
  simp [mulRoot]

theorem mulRoot_getD (p : List K) (r : K) (i : ℕ) (h : i < p.length + 1) :
    (mulRoot p r).getD i 0 = (0 :: p).getD i 0 - r * p.getD i 0 := by
  unfold mulRoot
  rw [zipWith_getD _ 0 0 0 _ _ (by simpa using h) (by simpa using h)]
  congr 1
  by_cases hi : i < p.length
  · rw [List.getD_append _ _ _ _ (by simpa using hi), getD_map_lt _ 0 0 _ hi]
  · have : i = p.length := by omega
    subst this
    rw [List.getD_append_right _ _ _ _ (by simp)]
    simp

theorem hom_mulRoot (p : List K) (hp : p ≠ []) (r : K) (S T : A) :
    hom φ (mulRoot p r) S T = (S - φ r * T) * hom φ p S T := by
  unfold hom
  rw [mulRoot_length]
  have hl := List.length_pos_of_ne_nil hp
  have h1 : ∑ i ∈ range (p.length + 1), φ ((mulRoot p r).getD i 0) * S ^ i * T ^ (p.length + 1 - 1 - i)
      = ∑ i ∈ range (p.length + 1), φ ((0 :: p).getD i 0) * S ^ i * T ^ (p.length - i)
        - φ r * ∑ i ∈ range (p.length + 1), φ (p.getD i 0) * S ^ i * T ^ (p.length - i) := by
    rw [Finset.mul_sum, ← Finset.sum_sub_distrib]
    refine Finset.sum_congr rfl fun i hi => ?_
    rw [mulRoot_getD p r i (mem_range.1 hi), map_sub, map_mul, Nat.add_sub_cancel]
    ring
  rw [h1, Finset.sum_range_succ', Finset.sum_range_succ, getD_of_le 0 p (le_refl _)]
  simp only [List.getD_cons_zero, List.getD_cons_succ, map_zero, zero_mul, add_zero]
  rw [sub_mul]
  congr 1
  · rw [Finset.mul_sum]
    refine Finset.sum_congr rfl fun i _ => ?_
    rw [show p.length - (i + 1) = p.length - 1 - i by omega]
    ring
  · rw [mul_assoc]
    congr 1
    rw [Finset.mul_sum]
    refine Finset.sum_congr rfl fun i hi => ?_
    rw [mem_range] at hi
    rw [show p.length - i = (p.length - 1 - i) + 1 by omega]
    ring

theorem foldl_mulRoot_length (roots p : List K) : (roots.foldl mulRoot p).length = p.length + roots.length := by
  induction roots generalizing p with
  | nil => simp
  | cons r rs ih => rw [List.foldl_cons, ih, mulRoot_length, List.length_cons]; omega

theorem hom_foldl (roots p : List K) (hp : p ≠ []) (S T : A) :
    hom φ (roots.foldl mulRoot p) S T = hom φ p S T * (roots.map (fun r => S - φ r * T)).prod := by
  induction roots generalizing p with
  | nil => simp
  | cons r rs ih =>
    rw [List.foldl_cons, ih _ (by intro h; have := mulRoot_length p r; rw [h] at this; simp at this),
      hom_mulRoot φ p hp, List.map_cons, List.prod_cons]
    ring

theorem hom_fromRoots (roots : List K) (S T : A) :
    hom φ (roots.foldl mulRoot [1]) S T = (roots.map (fun r => S - φ r * T)).prod := by
  rw [hom_foldl φ roots [1] (by simp)]
  simp [hom]

theorem hom_map_mul (c : K) (l : List K) (S T : A) : hom φ (l.map (c * ·)) S T = φ c * hom φ l S T := by
  unfold hom
  rw [List.length_map, Finset.mul_sum]
  refine Finset.sum_congr rfl fun i hi => ?_
  rw [getD_map_lt _ 0 0 _ (mem_range.1 hi), map_mul]
  ring

theorem hom_map_div (c : K) (l : List K) (S T : A) : hom φ (l.map (· / c)) S T = φ c⁻¹ * hom φ l S T := by
  rw [← hom_map_mul]
  congr 2
  funext x
  rw [div_eq_mul_inv, mul_comm]

theorem foldl_mulRoot_zero (roots p : List K) (hp : p ≠ []) :
    (roots.foldl mulRoot p).getD 0 0 = p.getD 0 0 * (roots.map (fun r => -r)).prod := by
  induction roots generalizing p with
  | nil => simp
  | cons r rs ih =>
    rw [List.foldl_cons, ih _ (by intro h; have := mulRoot_length p r; rw [h] at this; simp at this),
      mulRoot_getD _ _ _ (by omega), List.map_cons, List.prod_cons, List.getD_cons_zero]
    ring

end

section
variable {K : Type} [Field K] {A : Type*} [CommRing A] (φ : K →+* A)

theorem range_list_sum (n : ℕ) (f : ℕ → K) : ((List.range n).map f).sum = ∑ i ∈ range n, f i := by
  induction n with
  | zero => simp
  | succ n ih => rw [List.range_succ, List.map_append, List.sum_append, ih, Finset.sum_range_succ]; simp

theorem bilinear_eval (c : List K) (M : ℕ) (F : K) (w : A) (h : c.length ≤ M + 1) :
    ∑ j ∈ range (M + 1), φ (bilinearCoef c M F j) * w ^ j
      = ∑ i ∈ range c.length, φ (c.getD (c.length - 1 - i) 0) * (φ (2 * F) * (1 - w)) ^ i * (1 + w) ^ (M - i) := by
  unfold bilinearCoef
  simp only [range_list_sum, map_sum, Finset.sum_mul]
  rw [Finset.sum_comm]
  refine Finset.sum_congr rfl fun i hi => ?_
  rw [mem_range] at hi
  rw [Finset.sum_comm]
  have hpow : (φ (2 * F) * (1 - w)) ^ i * (1 + w) ^ (M - i)
      = ∑ k ∈ range (i + 1), ∑ l ∈ range (M - i + 1),
          φ (2 * F) ^ i * ((-1) ^ k * (i.choose k : A) * ((M - i).choose l : A)) * w ^ (k + l) := by
    rw [mul_pow, show (1 - w) = -w + 1 by ring, show (1 + w) = w + 1 by ring, add_pow, add_pow, mul_assoc,
      Finset.sum_mul_sum, Finset.mul_sum]
    refine Finset.sum_congr rfl fun k _ => ?_
    rw [Finset.mul_sum]
    refine Finset.sum_congr rfl fun l _ => ?_
    rw [neg_pow]
    simp only [one_pow]
    ring
  rw [mul_assoc, hpow, Finset.mul_sum]
  refine Finset.sum_congr rfl fun k hk => ?_
  rw [Finset.sum_comm, Finset.mul_sum]
  refine Finset.sum_congr rfl fun l hl => ?_
  rw [mem_range] at hk hl
  rw [Finset.sum_eq_single (k + l)]
  · rw [if_pos rfl]
    simp only [map_mul, map_pow, map_natCast, map_neg, map_one]
    ring
  · intro j _ hj
    rw [if_neg (fun e => hj e.symm), map_zero, zero_mul]
  · intro hm
    exact absurd (mem_range.2 (by omega)) hm

/-- the transformed polynomial in factored form -/
theorem bilinear_hom (l : List K) (hl : l ≠ []) (M : ℕ) (F : K) (w : A) (h : l.length ≤ M + 1) :
    ∑ j ∈ range (M + 1), φ (bilinearCoef l.reverse M F j) * w ^ j
      = (1 + w) ^ (M + 1 - l.length) * hom φ l (φ (2 * F) * (1 - w)) (1 + w) := by
  have hp := List.length_pos_of_ne_nil hl
  rw [bilinear_eval φ l.reverse M F w (by simpa using h), List.length_reverse]
  unfold hom
  rw [Finset.mul_sum]
  refine Finset.sum_congr rfl fun i hi => ?_
  rw [mem_range] at hi
  rw [reverse_getD 0 l _ (by omega), show l.length - 1 - (l.length - 1 - i) = i by omega,
    show M - i = (M + 1 - l.length) + (l.length - 1 - i) by omega, pow_add]
  ring

end

section
variable {K : Type} [Field K] [LinearOrder K] [IsStrictOrderedRing K]

theorem npSign_mul (x : K) : -1 * npSign x * x = -|x| := by
  unfold npSign
  rcases lt_trichotomy x 0 with h | h | h
  · rw [if_neg (not_lt.2 h.le), if_pos h, abs_of_neg h]; ring
  · subst h; simp
  · rw [if_pos h, abs_of_pos h]; ring

/-- polynomial with constant term 1 and roots at `-|z|` -/
def monicOne (zs : List K) : List K :=
  let p := (zs.map (fun z => -|z|)).foldl mulRoot [1]
  p.map (· / p.getD 0 0)

theorem monic_zero (zs : List K) : ((zs.map (fun z => -|z|)).foldl mulRoot [1]).getD 0 0 = (zs.map (fun z => |z|)).prod := by
  rw [foldl_mulRoot_zero _ _ (by simp), List.map_map]
  simp [Function.comp_def]

theorem monicOne_length (zs : List K) : (monicOne zs).length = zs.length + 1 := by
  simp [monicOne, foldl_mulRoot_length]; omega

theorem prod_abs_ne (zs : List K) (h : ∀ z ∈ zs, z ≠ 0) : (zs.map (fun z => |z|)).prod ≠ 0 := by
  rw [Ne, List.prod_eq_zero_iff]
  intro hm
  obtain ⟨z, hz, he⟩ := List.mem_map.1 hm
  exact h z hz (abs_eq_zero.1 he)

theorem hom_monicOne {A : Type*} [CommRing A] (φ : K →+* A) (zs : List K) (h : ∀ z ∈ zs, z ≠ 0) (S T : A) :
    hom φ (monicOne zs) S T = (zs.map (fun z => T + φ |z|⁻¹ * S)).prod := by
  unfold monicOne
  simp only []
  rw [hom_map_div, hom_fromRoots, monic_zero, List.map_map]
  induction zs with
  | nil => simp
  | cons z zs ih =>
    have hz : |z| ≠ 0 := abs_ne_zero.2 (h z (by simp))
    have := ih (fun y hy => h y (by simp [hy]))
    simp only [List.map_cons, List.prod_cons, Function.comp] at this ⊢
    rw [← this, mul_inv, map_mul]
    have e : φ |z|⁻¹ * (S - φ (-|z|) * T) = T + φ |z|⁻¹ * S := by
      rw [map_neg, mul_sub, neg_mul, mul_neg, sub_neg_eq_add, ← mul_assoc, ← map_mul, inv_mul_cancel₀ hz, map_one, one_mul]
      ring
    rw [← e]
    ring

/-- numerator (scaled by the gain) and denominator before normalisation -/
def rawNum (zs : List K) (M : ℕ) (g F : K) : List K :=
  (List.range (M + 1)).map (bilinearCoef ((monicOne zs).reverse.map (g * ·)) M F)

theorem rawNum_eval {A : Type*} [CommRing A] (φ : K →+* A) (zs : List K) (h : ∀ z ∈ zs, z ≠ 0) (M : ℕ) (g F : K) (w : A)
    (hM : zs.length ≤ M) :
    ∑ j ∈ range (M + 1), φ ((rawNum zs M g F).getD j 0) * w ^ j
      = φ g * ((1 + w) ^ (M - zs.length)
        * (zs.map (fun z => (1 + w) + φ |z|⁻¹ * (φ (2 * F) * (1 - w)))).prod) := by
  have e : (monicOne zs).reverse.map (g * ·) = ((monicOne zs).map (g * ·)).reverse := by simp
  have hb := bilinear_hom φ ((monicOne zs).map (g * ·))
    (by intro h0; have := monicOne_length zs; rw [List.map_eq_nil_iff.1 h0] at this; simp at this) M F w
    (by rw [List.length_map, monicOne_length]; omega)
  rw [List.length_map, monicOne_length, hom_map_mul, hom_monicOne φ zs h,
    show M + 1 - (zs.length + 1) = M - zs.length by omega] at hb
  rw [show φ g * ((1 + w) ^ (M - zs.length) * (zs.map (fun z => (1 + w) + φ |z|⁻¹ * (φ (2 * F) * (1 - w)))).prod)
    = (1 + w) ^ (M - zs.length) * (φ g * (zs.map (fun z => (1 + w) + φ |z|⁻¹ * (φ (2 * F) * (1 - w)))).prod) by ring,
    ← hb]
  refine Finset.sum_congr rfl fun j hj => ?_
  unfold rawNum
  rw [getD_map_lt _ 0 0 _ (by simpa using hj), getD_of_lt 0 (List.range _) (by simpa using hj), List.getElem_range, e]

theorem rawNum_zero (zs : List K) (h : ∀ z ∈ zs, z ≠ 0) (M : ℕ) (g F : K) (hM : zs.length ≤ M) :
    (rawNum zs M g F).getD 0 0 = g * (zs.map (fun z => 1 + 2 * F / |z|)).prod := by
  have := rawNum_eval (RingHom.id K) zs h M g F 0 hM
  rw [Finset.sum_range_succ'] at this
  simp only [RingHom.id_apply, zero_pow (Nat.succ_ne_zero _), mul_zero, Finset.sum_const_zero, zero_add, pow_zero, mul_one,
    add_zero, one_pow, one_mul, sub_zero] at this
  rw [this]
  congr 3
  funext z
  rw [div_eq_mul_inv, mul_comm]

theorem prod_pos_of (zs : List K) (F : K) (hF : 0 < F) : 0 < (zs.map (fun z => 1 + 2 * F / |z|)).prod := by
  apply List.prod_pos
  intro v hv
  obtain ⟨z, _, rfl⟩ := List.mem_map.1 hv
  have := abs_nonneg z
  positivity

theorem ctleCoeffs_eq (zs ps : List K) (g fs osr : K) (hz : zs ≠ []) (hp : ps ≠ []) (hz0 : ∀ z ∈ zs, z ≠ 0)
    (hp0 : ∀ p ∈ ps, p ≠ 0) :
    ctleCoeffs zs ps g fs osr =
      (do
        let r ← sciNormalize (rawNum zs (max zs.length ps.length) g (fs * osr))
          (rawNum ps (max zs.length ps.length) 1 (fs * osr))
        return some r) := by
  unfold ctleCoeffs polyFromRoots
  have e : ∀ l : List K, l.map (fun z => -1 * npSign z * z) = l.map (fun z => -|z|) := by
    intro l; apply List.map_congr_left; intro z _; exact npSign_mul z
  rw [e, e, if_neg (by simpa using hz), if_neg (by simpa using hp)]
  show (if _ ∨ _ then _ else _) = _
  rw [if_neg (by rw [monic_zero, monic_zero]; exact not_or.2 ⟨prod_abs_ne zs hz0, prod_abs_ne ps hp0⟩)]
  have e1 : ∀ l : List K, l.map (1 * ·) = l := by intro l; simp
  unfold bilinear rawNum
  rw [e1]
  show ((sciNormalize _ _).bind _) = ((sciNormalize _ _).bind _)
  have el : ∀ l : List K, (monicOne l).length - 1 = l.length := by intro l; rw [monicOne_length]; omega
  simp only [List.length_map, List.length_reverse]
  have h1 := el zs
  have h2 := el ps
  simp only [monicOne, List.length_map] at h1 h2
  rw [h1, h2]
  rfl

theorem sciNormalize_eq (num den : List K) (hd : den.getD 0 0 ≠ 0) :
    sciNormalize num den = .ok
      ((num.map (· / den.getD 0 0)).drop (min ((num.map (· / den.getD 0 0)).takeWhile
        (fun v => decide (|v| ≤ 1 / 10 ^ 14))).length (num.length - 1)), den.map (· / den.getD 0 0)) := by
  unfold sciNormalize
  cases den with
  | nil => simp at hd
  | cons d ds =>
    rw [List.getD_cons_zero] at hd
    simp [hd]

theorem sciNormalize_keep (num den : List K) (hd : den.getD 0 0 ≠ 0) (hn : num ≠ [])
    (h : 1 / 10 ^ 14 < |num.getD 0 0 / den.getD 0 0|) :
    sciNormalize num den = .ok (num.map (· / den.getD 0 0), den.map (· / den.getD 0 0)) := by
  rw [sciNormalize_eq num den hd]
  cases num with
  | nil => exact absurd rfl hn
  | cons n ns =>
    rw [List.getD_cons_zero] at h
    rw [List.map_cons, List.takeWhile_cons, if_neg (by simpa using h)]
    simp

end

end Verif

namespace Verif
open Verif.Spec

/-- the coefficients of the filter are those of Tustin's transform, unless SciPy drops a leading numerator coefficient -/
theorem ctle_tustin_raw (zs ps : List ℝ) (dc fs osr : ℝ) (hz : zs ≠ []) (hp : ps ≠ []) (hz0 : ∀ z ∈ zs, z ≠ 0)
    (hp0 : ∀ p ∈ ps, p ≠ 0) (hF : 0 < fs * osr)
    (hk : 1 / 10 ^ 14 < analogReal (10 ^ (dc / 20)) zs ps (2 * (fs * osr))) :
    ∃ d : ℝ, d = (ps.map (fun z => 1 + 2 * (fs * osr) / |z|)).prod ∧ 0 < d ∧ getCtleFilter zs ps dc fs osr = .ok (some
      ((rawNum zs (max zs.length ps.length) (10 ^ (dc / 20)) (fs * osr)).map (· / d),
        (rawNum ps (max zs.length ps.length) 1 (fs * osr)).map (· / d))) := by
  have hd := prod_pos_of ps (fs * osr) hF
  refine ⟨_, rfl, hd, ?_⟩
  unfold getCtleFilter
  rw [ctleCoeffs_eq zs ps _ fs osr hz hp hz0 hp0]
  have hden := rawNum_zero ps hp0 (max zs.length ps.length) 1 (fs * osr) (le_max_right _ _)
  have hnum := rawNum_zero zs hz0 (max zs.length ps.length) (10 ^ (dc / 20)) (fs * osr) (le_max_left _ _)
  rw [one_mul] at hden
  rw [sciNormalize_keep _ _ (by rw [hden]; exact hd.ne') (by simp [rawNum]), hden]
  · rfl
  · rw [hden, hnum]
    exact lt_of_lt_of_le hk (le_abs_self _)

/-- value of the transformed polynomials as a polynomial in `1/z` -/
theorem zPoly_raw (zs : List ℝ) (hz0 : ∀ z ∈ zs, z ≠ 0) (M : ℕ) (hM : zs.length ≤ M) (g F d : ℝ) (z : ℂ) :
    zPoly ((rawNum zs M g F).map (· / d)) z = (d : ℂ)⁻¹ * (g * ((1 + z⁻¹) ^ (M - zs.length)
      * (zs.map (fun p => (1 + z⁻¹) + ((|p|⁻¹ : ℝ) : ℂ) * (((2 * F : ℝ) : ℂ) * (1 - z⁻¹)))).prod)) := by
  have := rawNum_eval Complex.ofRealHom zs hz0 M g F z⁻¹ hM
  simp only [Complex.ofRealHom_eq_coe] at this
  rw [← this]
  unfold zPoly
  rw [List.length_map, Finset.mul_sum]
  have hl : (rawNum zs M g F).length = M + 1 := by simp [rawNum]
  rw [hl]
  refine Finset.sum_congr rfl fun j hj => ?_
  rw [getD_map_lt _ 0 0 _ (by rw [hl]; exact mem_range.1 hj), Complex.ofReal_div]
  ring

/-- the denominator is always that of Tustin's transform -/
theorem ctle_den_raw (zs ps : List ℝ) (dc fs osr : ℝ) (hz : zs ≠ []) (hp : ps ≠ []) (hz0 : ∀ z ∈ zs, z ≠ 0)
    (hp0 : ∀ p ∈ ps, p ≠ 0) (hF : 0 < fs * osr) :
    ∃ b, ∃ d : ℝ, d = (ps.map (fun z => 1 + 2 * (fs * osr) / |z|)).prod ∧ 0 < d ∧ getCtleFilter zs ps dc fs osr =
      .ok (some (b, (rawNum ps (max zs.length ps.length) 1 (fs * osr)).map (· / d))) := by
  have hd := prod_pos_of ps (fs * osr) hF
  have hden := rawNum_zero ps hp0 (max zs.length ps.length) 1 (fs * osr) (le_max_right _ _)
  rw [one_mul] at hden
  have h1 := ctleCoeffs_eq zs ps ((10 : ℝ) ^ (dc / 20)) fs osr hz hp hz0 hp0
  rw [sciNormalize_eq _ _ (by rw [hden]; exact hd.ne'), hden] at h1
  exact ⟨_, _, rfl, hd, h1⟩

theorem zRoots_eq (c : List ℝ) (z : ℂ) (hz : z ≠ 0) : zRoots c z = z ^ (c.length - 1) * zPoly c z := by
  unfold zRoots zPoly
  rw [Finset.mul_sum]
  refine Finset.sum_congr rfl fun k hk => ?_
  rw [mem_range] at hk
  have : z ^ (c.length - 1) = z ^ (c.length - 1 - k) * z ^ k := by rw [← pow_add]; congr 1; omega
  rw [this, inv_pow]
  field_simp

theorem tustin_pole (p : ℝ) (hp : p ≠ 0) (F : ℝ) (hF : 0 < F) (z : ℂ) (hz : z ≠ 0)
    (h : (1 + z⁻¹) + ((|p|⁻¹ : ℝ) : ℂ) * (((2 * F : ℝ) : ℂ) * (1 - z⁻¹)) = 0) : ‖z‖ < 1 := by
  have hp' : 0 < |p| := abs_pos.2 hp
  have hpc : ((|p| : ℝ) : ℂ) ≠ 0 := by exact_mod_cast hp'.ne'
  have e : z * ((|p| + 2 * F : ℝ) : ℂ) = ((2 * F - |p| : ℝ) : ℂ) := by
    have : z * (|p| : ℝ) * ((1 + z⁻¹) + ((|p|⁻¹ : ℝ) : ℂ) * (((2 * F : ℝ) : ℂ) * (1 - z⁻¹))) = 0 := by rw [h, mul_zero]
    push_cast at this ⊢
    field_simp at this
    linear_combination this
  have hn := congrArg norm e
  rw [norm_mul, Complex.norm_real, Complex.norm_real, Real.norm_eq_abs, Real.norm_eq_abs,
    abs_of_pos (show 0 < |p| + 2 * F by linarith)] at hn
  have hlt : |(2 * F - |p|)| < |p| + 2 * F := by
    rw [abs_lt]; constructor <;> linarith
  rw [← hn] at hlt
  have hpos : 0 < |p| + 2 * F := by linarith
  nlinarith [norm_nonneg z]

theorem ctle_filter_ok (zs ps : List ℝ) (dc fs osr : ℝ) (hz : zs ≠ []) (hp : ps ≠ []) (hz0 : ∀ z ∈ zs, z ≠ 0)
    (hp0 : ∀ p ∈ ps, p ≠ 0) (hF : 0 < fs * osr) :
    ∃ b a, getCtleFilter zs ps dc fs osr = .ok (some (b, a)) ∧ 0 < b.length ∧ 1 < a.length ∧ a.getD 0 0 ≠ 0 := by
  have hd := prod_pos_of ps (fs * osr) hF
  have hden := rawNum_zero ps hp0 (max zs.length ps.length) 1 (fs * osr) (le_max_right _ _)
  rw [one_mul] at hden
  have h1 := ctleCoeffs_eq zs ps ((10 : ℝ) ^ (dc / 20)) fs osr hz hp hz0 hp0
  rw [sciNormalize_eq _ _ (by rw [hden]; exact hd.ne'), hden] at h1
  refine ⟨_, _, h1, ?_, ?_, ?_⟩
  · rw [List.length_drop, List.length_map]
    have : 0 < (rawNum zs (max zs.length ps.length) (10 ^ (dc / 20)) (fs * osr)).length := by simp [rawNum]
    omega
  · have := List.length_pos_of_ne_nil hp
    simp [rawNum]; omega
  · rw [getD_map_lt _ 0 0 _ (by simp [rawNum]), hden, div_self hd.ne']
    exact one_ne_zero

end Verif
