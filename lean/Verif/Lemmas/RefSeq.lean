import Verif.Lemmas.PrbsCorr

/-! Reference sequences built from a sequence with two-valued autocorrelation: which filters suppress them, and where
the correlation with a filtered copy is largest. -/

open Finset

namespace Verif

variable {N : ℕ} [NeZero N]

/-- correlation of a sequence with a filtered copy of itself -/
theorem corr_filtered (ref h : ZMod N → ℝ) (s : ZMod N) :
    ∑ z, ref (z + s) * ∑ r, h r * ref (z + r) = ∑ r, h r * ∑ z, ref z * ref (z + (r - s)) := by
  have h1 : ∀ z, ref (z + s) * ∑ r, h r * ref (z + r) = ∑ r, h r * (ref (z + s) * ref (z + r)) := by
    intro z
    rw [mul_sum]
    exact sum_congr rfl (fun r _ => by ring)
  rw [sum_congr rfl (fun z _ => h1 z), sum_comm]
  refine sum_congr rfl (fun r _ => ?_)
  rw [← mul_sum, ← sum_shift (fun z => ref z * ref (z + (r - s))) s]
  congr 1
  exact sum_congr rfl (fun z _ => by rw [add_assoc z s, add_sub_cancel])

/-! ### two levels -/

section Affine
variable (u : ZMod N → ℝ) (hu : ∀ τ, ∑ z, u z * u (z + τ) = if τ = 0 then (N : ℝ) else -1) (h1 : ∑ z, u z = 1)
  (al be : ℝ)
include hu h1

theorem affine_corr (τ : ZMod N) : ∑ z, (al * u z + be) * (al * u (z + τ) + be)
    = al ^ 2 * (if τ = 0 then (N : ℝ) else -1) + 2 * al * be + N * be ^ 2 := by
  have e : ∀ z, (al * u z + be) * (al * u (z + τ) + be)
      = al ^ 2 * (u z * u (z + τ)) + al * be * u z + al * be * u (z + τ) + be ^ 2 := fun z => by ring
  rw [sum_congr rfl (fun z _ => e z)]
  simp only [sum_add_distrib, ← mul_sum]
  rw [hu, sum_shift u τ, h1, sum_const, card_univ, ZMod.card, nsmul_eq_mul]
  ring

theorem affine_lock (hal : al ≠ 0) (h : ZMod N → ℝ) (hd : ∀ s, s ≠ 0 → h s < h 0) (s : ZMod N) (hs : s ≠ 0) :
    ∑ z, (al * u (z + s) + be) * ∑ r, h r * (al * u (z + r) + be)
      < ∑ z, (al * u z + be) * ∑ r, h r * (al * u (z + r) + be) := by
  have key : ∀ s, ∑ z, (al * u (z + s) + be) * ∑ r, h r * (al * u (z + r) + be)
      = al ^ 2 * ((N : ℝ) + 1) * h s + (2 * al * be + N * be ^ 2 - al ^ 2) * ∑ r, h r := by
    intro s
    rw [corr_filtered (fun z => al * u z + be) h s]
    have e : ∀ r, h r * ∑ z, (al * u z + be) * (al * u (z + (r - s)) + be)
        = al ^ 2 * ((N : ℝ) + 1) * (if r = s then h r else 0) + (2 * al * be + N * be ^ 2 - al ^ 2) * h r := by
      intro r
      rw [affine_corr u hu h1 al be]
      by_cases e : r = s
      · rw [if_pos (by rw [e, sub_self]), if_pos e]; ring
      · rw [if_neg (fun h => e (sub_eq_zero.1 h)), if_neg e]; ring
    rw [sum_congr rfl (fun r _ => e r), sum_add_distrib, ← mul_sum, ← mul_sum, sum_ite_eq', if_pos (mem_univ _)]
  have k0 := key 0
  simp only [add_zero] at k0
  rw [key s, k0]
  have hN : (0 : ℝ) < N := by exact_mod_cast NeZero.pos N
  have : 0 < al ^ 2 * ((N : ℝ) + 1) := by positivity
  have := mul_lt_mul_of_pos_left (hd s hs) this
  linarith

theorem affine_inj (hal : al ≠ 0) (hab : al + N * be ≠ 0) (x : ZMod N → ℝ)
    (hx : ∀ z, ∑ r, x r * (al * u (z + r) + be) = 0) : x = 0 := by
  -- the mean of the output is the gain at frequency zero
  have hS : ∑ r, x r = 0 := by
    have h2 : ∑ z, ∑ r, x r * (al * u (z + r) + be) = (al + N * be) * ∑ r, x r := by
      rw [sum_comm, mul_sum]
      refine sum_congr rfl (fun r _ => ?_)
      rw [← mul_sum, sum_add_distrib, ← mul_sum, sum_shift u r, h1, sum_const, card_univ, ZMod.card, nsmul_eq_mul]
      ring
    rw [sum_congr rfl (fun z _ => hx z), sum_const_zero] at h2
    exact (mul_eq_zero.1 h2.symm).resolve_left hab
  have h3 : ∀ z, ∑ r, x r * u (z + r) = 0 := by
    intro z
    have e := hx z
    have e2 : ∑ r, x r * (al * u (z + r) + be) = al * ∑ r, x r * u (z + r) + be * ∑ r, x r := by
      rw [mul_sum, mul_sum, ← sum_add_distrib]
      exact sum_congr rfl (fun r _ => by ring)
    rw [e2, hS, mul_zero, add_zero] at e
    exact (mul_eq_zero.1 e).resolve_left hal
  have h4 := filtered_energy_ge u hu x
  simp only [h3] at h4
  norm_num at h4
  have h5 : ∑ r, x r ^ 2 = 0 := le_antisymm h4 (sum_nonneg (fun _ _ => sq_nonneg _))
  funext r
  have := (sum_eq_zero_iff_of_nonneg (fun i _ => sq_nonneg (x i))).1 h5 r (mem_univ _)
  simpa using this

end Affine

/-! ### four levels -/

section TwoTap
variable (u : ZMod N → ℝ) (hu : ∀ τ, ∑ z, u z * u (z + τ) = if τ = 0 then (N : ℝ) else -1)
  (e : ZMod N) (he : 2 * e = 1) (ga si : ℝ) (hsi : si = 1 ∨ si = -1) (a b : ZMod N) (hab : a ≠ b)

/-- doubling as a permutation of the residues -/
def dbl (e : ZMod N) (he : 2 * e = 1) : ZMod N ≃ ZMod N where
  toFun z := 2 * z
  invFun z := e * z
  left_inv z := by show e * (2 * z) = z; rw [← mul_assoc, mul_comm e, he, one_mul]
  right_inv z := by show 2 * (e * z) = z; rw [← mul_assoc, he, one_mul]

theorem sum_dbl (e : ZMod N) (he : 2 * e = 1) (f : ZMod N → ℝ) : ∑ z, f (2 * z) = ∑ z, f z :=
  Fintype.sum_equiv (dbl e he) _ _ (fun _ => rfl)

/-- the four-level sequence -/
def twoTap (z : ZMod N) : ℝ := ga * (2 * u (2 * z + a) + si * u (2 * z + b))

include hu he hsi in
theorem twoTap_corr (τ : ZMod N) : ∑ z, twoTap u ga si a b z * twoTap u ga si a b (z + τ)
    = ga ^ 2 * (((N : ℝ) + 1) * (5 * (if τ = 0 then 1 else 0) + 2 * si * (if τ = e * (b - a) then 1 else 0)
        + 2 * si * (if τ = -(e * (b - a)) then 1 else 0)) - (5 + 4 * si)) := by
  have hs2 : si ^ 2 = 1 := by rcases hsi with h | h <;> rw [h] <;> norm_num
  have e1 : ∀ z, twoTap u ga si a b z * twoTap u ga si a b (z + τ)
      = (fun w => ga ^ 2 * (4 * (u (w + a) * u (w + (2 * τ + a))) + si ^ 2 * (u (w + b) * u (w + (2 * τ + b)))
        + 2 * si * (u (w + a) * u (w + (2 * τ + b))) + 2 * si * (u (w + b) * u (w + (2 * τ + a))))) (2 * z) := by
    intro z
    simp only [twoTap, mul_add, add_assoc]
    ring
  have half : ∀ x y : ZMod N, 2 * x = y ↔ x = e * y := by
    intro x y
    constructor
    · rintro rfl; rw [← mul_assoc, mul_comm e, he, one_mul]
    · rintro rfl; rw [← mul_assoc, he, one_mul]
  have c1 : (a = 2 * τ + a) ↔ τ = 0 := by
    rw [eq_comm, add_eq_right, half, mul_zero]
  have c2 : (b = 2 * τ + b) ↔ τ = 0 := by
    rw [eq_comm, add_eq_right, half, mul_zero]
  have c3 : (a = 2 * τ + b) ↔ τ = -(e * (b - a)) := by
    rw [← mul_neg, ← half, neg_sub, eq_comm, ← eq_sub_iff_add_eq]
  have c4 : (b = 2 * τ + a) ↔ τ = e * (b - a) := by
    rw [← half, eq_comm, ← eq_sub_iff_add_eq]
  rw [sum_congr rfl (fun z _ => e1 z), sum_dbl e he
    (fun w => ga ^ 2 * (4 * (u (w + a) * u (w + (2 * τ + a))) + si ^ 2 * (u (w + b) * u (w + (2 * τ + b)))
        + 2 * si * (u (w + a) * u (w + (2 * τ + b))) + 2 * si * (u (w + b) * u (w + (2 * τ + a)))))]
  rw [← mul_sum]
  simp only [sum_add_distrib, ← mul_sum]
  rw [corr_shift u hu, corr_shift u hu, corr_shift u hu, corr_shift u hu, hs2]
  simp only [c1, c2, c3, c4]
  congr 1
  split_ifs <;> ring

include hu he hsi in
theorem twoTap_filtered (h : ZMod N → ℝ) (s : ZMod N) :
    ∑ z, twoTap u ga si a b (z + s) * ∑ r, h r * twoTap u ga si a b (z + r)
      = ga ^ 2 * (((N : ℝ) + 1) * (5 * h s + 2 * si * h (s + e * (b - a)) + 2 * si * h (s - e * (b - a)))
        - (5 + 4 * si) * ∑ r, h r) := by
  rw [corr_filtered (twoTap u ga si a b) h s]
  have c1 : ∀ r, (r - s = 0) ↔ r = s := fun r => sub_eq_zero
  have c2 : ∀ r, (r - s = e * (b - a)) ↔ r = s + e * (b - a) := fun r => by rw [sub_eq_iff_eq_add, add_comm]
  have c3 : ∀ r, (r - s = -(e * (b - a))) ↔ r = s - e * (b - a) := fun r => by
    rw [sub_eq_iff_eq_add, neg_add_eq_sub]
  have e1 : ∀ r, h r * ∑ z, twoTap u ga si a b z * twoTap u ga si a b (z + (r - s))
      = ga ^ 2 * (((N : ℝ) + 1) * (5 * (if r = s then h r else 0) + 2 * si * (if r = s + e * (b - a) then h r else 0)
        + 2 * si * (if r = s - e * (b - a) then h r else 0)) - (5 + 4 * si) * h r) := by
    intro r
    rw [twoTap_corr u hu e he ga si hsi a b]
    simp only [c1, c2, c3]
    split_ifs <;> ring
  rw [sum_congr rfl (fun r _ => e1 r), ← mul_sum, sum_sub_distrib, ← mul_sum, ← mul_sum]
  simp only [sum_add_distrib, ← mul_sum, sum_ite_eq', mem_univ, if_true]

include hu he hsi hab in
theorem twoTap_lock (hga : ga ≠ 0) (h : ZMod N → ℝ) (hd : ∀ s, s ≠ 0 → 11 * |h s| < 3 * h 0) (s : ZMod N)
    (hs : s ≠ 0) :
    ∑ z, twoTap u ga si a b (z + s) * ∑ r, h r * twoTap u ga si a b (z + r)
      < ∑ z, twoTap u ga si a b z * ∑ r, h r * twoTap u ga si a b (z + r) := by
  have k0 := twoTap_filtered u hu e he ga si hsi a b h 0
  simp only [add_zero] at k0
  rw [twoTap_filtered u hu e he ga si hsi a b h s, k0]
  have hN : (0 : ℝ) < N := by exact_mod_cast NeZero.pos N
  set c := e * (b - a) with hc
  have c0 : c ≠ 0 := by
    intro h0
    have : 2 * c = b - a := by rw [hc, ← mul_assoc, he, one_mul]
    rw [h0, mul_zero] at this
    exact hab (sub_eq_zero.1 this.symm).symm
  have cc : c ≠ -c := by
    intro h0
    apply c0
    have h2 : 2 * c = 0 := by rw [two_mul]; nth_rw 2 [h0]; rw [add_neg_cancel]
    have : e * (2 * c) = c := by rw [← mul_assoc, mul_comm e, he, one_mul]
    rw [← this, h2, mul_zero]
  have b1 := abs_lt.1 (lt_of_lt_of_eq (by linarith [hd c c0] : |h c| < 3 * h 0 / 11) rfl)
  have b2 := abs_lt.1 (by linarith [hd (-c) (neg_ne_zero.2 c0)] : |h (-c)| < 3 * h 0 / 11)
  have b3 := abs_lt.1 (by linarith [hd s hs] : |h s| < 3 * h 0 / 11)
  have main : 5 * h s + 2 * si * h (s + c) + 2 * si * h (s - c)
      < 5 * h 0 + 2 * si * h (0 + c) + 2 * si * h (0 - c) := by
    rw [zero_add, zero_sub]
    have h0 : 0 < h 0 := by have := hd c c0; have := abs_nonneg (h c); linarith
    -- at most one of the two neighbours is the main tap
    have t1 : |h (s + c)| ≤ h 0 := by
      by_cases q : s + c = 0
      · rw [q, abs_of_pos h0]
      · have := hd _ q; have := abs_nonneg (h (s + c)); linarith
    have t2 : |h (s - c)| ≤ h 0 := by
      by_cases q : s - c = 0
      · rw [q, abs_of_pos h0]
      · have := hd _ q; have := abs_nonneg (h (s - c)); linarith
    have t3 : |h (s + c)| + |h (s - c)| ≤ h 0 + 3 * h 0 / 11 := by
      by_cases q : s + c = 0
      · have q' : s - c ≠ 0 := by
          intro q'
          apply cc
          rw [sub_eq_zero.1 q'] at q; exact eq_neg_of_add_eq_zero_left q
        have := hd _ q'
        linarith
      · have := hd _ q
        linarith
    have t4 := abs_le.1 (le_refl (|h (s + c)|))
    have t5 := abs_le.1 (le_refl (|h (s - c)|))
    rcases hsi with q | q <;> rw [q] <;> linarith
  have hg : 0 < ga ^ 2 := by positivity
  apply mul_lt_mul_of_pos_left _ hg
  have := mul_lt_mul_of_pos_left main (by linarith : (0 : ℝ) < N + 1)
  linarith

include hu he hsi in
theorem twoTap_inj (hga : ga ≠ 0) (x : ZMod N → ℝ)
    (hx : ∀ z, ∑ r, x r * twoTap u ga si a b (z + r) = 0) : x = 0 := by
  have hs2 : si ^ 2 = 1 := by rcases hsi with h | h <;> rw [h] <;> norm_num
  -- the equivalent filter for `u`
  have back : ∀ (c : ZMod N) (w : ZMod N), ∑ r, x r * u (w + (2 * r + c)) = ∑ q, x (e * (q - c)) * u (w + q) := by
    intro c w
    rw [← sum_shift (fun q => x (e * (q - c)) * u (w + q)) c,
      ← sum_dbl e he (fun q => x (e * (q + c - c)) * u (w + (q + c)))]
    refine sum_congr rfl (fun r _ => ?_)
    rw [add_sub_cancel_right, ← mul_assoc, mul_comm e, he, one_mul]
  have h1 : ∀ w, ∑ q, (2 * x (e * (q - a)) + si * x (e * (q - b))) * u (w + q) = 0 := by
    intro w
    have h := hx (e * w)
    have e1 : ∀ r, x r * twoTap u ga si a b (e * w + r)
        = ga * (2 * (x r * u (w + (2 * r + a))) + si * (x r * u (w + (2 * r + b)))) := by
      intro r
      rw [twoTap, show 2 * (e * w + r) = w + 2 * r by rw [mul_add, ← mul_assoc, he, one_mul], add_assoc, add_assoc]
      ring
    rw [sum_congr rfl (fun r _ => e1 r), ← mul_sum, sum_add_distrib, ← mul_sum, ← mul_sum, back, back] at h
    have h := (mul_eq_zero.1 h).resolve_left hga
    rw [← h, mul_sum, mul_sum, ← sum_add_distrib]
    exact sum_congr rfl (fun q _ => by ring)
  have h4 := filtered_energy_ge u hu (fun q => 2 * x (e * (q - a)) + si * x (e * (q - b)))
  simp only [h1] at h4
  norm_num at h4
  have h5 := le_antisymm h4 (sum_nonneg (fun _ _ => sq_nonneg _))
  have h6 : ∀ q, 2 * x (e * (q - a)) + si * x (e * (q - b)) = 0 := by
    intro q
    have := (sum_eq_zero_iff_of_nonneg (fun i _ => sq_nonneg _)).1 h5 q (mem_univ _)
    simpa using this
  -- energies of both terms
  have h7 : ∀ c : ZMod N, ∑ q, x (e * (q - c)) ^ 2 = ∑ r, x r ^ 2 := by
    intro c
    rw [← sum_shift (fun q => x (e * (q - c)) ^ 2) c, ← sum_dbl e he (fun q => x (e * (q + c - c)) ^ 2)]
    refine sum_congr rfl (fun r _ => ?_)
    rw [add_sub_cancel_right, ← mul_assoc, mul_comm e, he, one_mul]
  have h8 : 4 * ∑ r, x r ^ 2 = ∑ r, x r ^ 2 := by
    rw [← h7 a, mul_sum]
    rw [h7 a, ← h7 b]
    refine sum_congr rfl (fun q _ => ?_)
    have h := h6 q
    have : 2 * x (e * (q - a)) = -(si * x (e * (q - b))) := by linarith
    calc 4 * x (e * (q - a)) ^ 2 = (2 * x (e * (q - a))) ^ 2 := by ring
      _ = si ^ 2 * x (e * (q - b)) ^ 2 := by rw [this]; ring
      _ = _ := by rw [hs2, one_mul]
  have h9 : ∑ r, x r ^ 2 = 0 := by linarith
  funext r
  have := (sum_eq_zero_iff_of_nonneg (fun i _ => sq_nonneg (x i))).1 h9 r (mem_univ _)
  simpa using this

end TwoTap

end Verif
