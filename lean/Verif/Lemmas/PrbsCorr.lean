import Verif.Lemmas.PrbsPeriod
import Mathlib.Data.ZMod.Basic
import Mathlib.Data.Real.Basic
import Mathlib.Algebra.BigOperators.Fin
import Mathlib.Algebra.BigOperators.Group.Finset.Sigma
import Mathlib.Algebra.BigOperators.Ring.Finset
import Mathlib.Algebra.Order.Chebyshev
import Mathlib.Tactic.LinearCombination

/-! Periodic correlations of the supported PRBS sequences as functions on `ZMod (2^n - 1)`. -/

open Finset

namespace Verif

open Gf2

instance instNeZeroPeriod (p : PrbsEnum) : NeZero (2 ^ p.value - 1) :=
  ⟨(two_pow_sub_pos (value_pos p)).ne'⟩

/-- sums over one period -/
theorem zmod_sum_val (N : ℕ) [NeZero N] (f : ℕ → ℝ) : ∑ z : ZMod N, f z.val = ∑ t ∈ range N, f t := by
  obtain ⟨k, rfl⟩ : ∃ k, N = k + 1 := ⟨N - 1, (Nat.succ_pred_eq_of_ne_zero (NeZero.ne N)).symm⟩
  exact Fin.sum_univ_eq_sum_range f (k + 1)

theorem zmod_sum_cast (N : ℕ) [NeZero N] (f : ZMod N → ℝ) :
    ∑ t ∈ range N, f (t : ZMod N) = ∑ z, f z := by
  rw [← zmod_sum_val N (fun t => f (t : ZMod N))]
  exact sum_congr rfl (fun z _ => by rw [ZMod.natCast_zmod_val])

/-- the antipodal sequence of a supported PRBS -/
noncomputable def uSeq (p : PrbsEnum) (seed : List Int) (z : ZMod (2 ^ p.value - 1)) : ℝ :=
  2 * (bitAt (getPolynomial p) seed z.val : ℝ) - 1

theorem uSeq_cast (p : PrbsEnum) (seed : List Int) (h : seed.length = p.value) (t : ℕ) :
    uSeq p seed (t : ZMod (2 ^ p.value - 1)) = 2 * (bitAt (getPolynomial p) seed t : ℝ) - 1 := by
  rw [uSeq, ZMod.val_natCast, bitAt_mod p seed h]

theorem uSeq_cases (p : PrbsEnum) (seed : List Int) (z : ZMod (2 ^ p.value - 1)) :
    uSeq p seed z = 1 ∨ uSeq p seed z = -1 := by
  rw [uSeq]
  rcases bitAt_mem (getPolynomial p) seed z.val with h | h <;> rw [h] <;> norm_num

theorem uSeq_sq (p : PrbsEnum) (seed : List Int) (z : ZMod (2 ^ p.value - 1)) :
    uSeq p seed z * uSeq p seed z = 1 := by
  rcases uSeq_cases p seed z with h | h <;> rw [h] <;> norm_num

theorem period_cast (p : PrbsEnum) : ((2 ^ p.value - 1 : ℕ) : ℝ) = 2 * 2 ^ (p.value - 1) - 1 := by
  have h : (2 : ℕ) ^ p.value = 2 * 2 ^ (p.value - 1) := by
    rw [← Nat.pow_succ']; congr 1; have := value_pos p; omega
  have h1 : 1 ≤ 2 ^ p.value := Nat.one_le_two_pow
  rw [Nat.cast_sub h1, h]
  push_cast; ring

/-- a PRBS has one more 1 than 0 in a period -/
theorem uSeq_sum (p : PrbsEnum) (seed : List Int) (h : seed.length = p.value) (hne : ∃ x ∈ seed, x % 2 = 1) :
    ∑ z, uSeq p seed z = 1 := by
  have hb := (bitAt_balance p seed h hne 0).1
  rw [count_map_range] at hb
  simp only [Nat.zero_add] at hb
  have e : ∀ t : ℕ, (2 * (bitAt (getPolynomial p) seed t : ℝ) - 1)
      = 2 * (if bitAt (getPolynomial p) seed t = 1 then 1 else 0) - 1 := by
    intro t
    rcases bitAt_mem (getPolynomial p) seed t with h | h <;> rw [h] <;> norm_num
  have : ∑ z, uSeq p seed z = ∑ t ∈ range (2 ^ p.value - 1), (2 * (bitAt (getPolynomial p) seed t : ℝ) - 1) :=
    zmod_sum_val _ (fun t => 2 * (bitAt (getPolynomial p) seed t : ℝ) - 1)
  rw [this, sum_congr rfl (fun t _ => e t), sum_sub_distrib, ← mul_sum, sum_boole, hb, sum_const, card_range,
    nsmul_eq_mul, period_cast]
  push_cast; ring

/-- two-valued periodic autocorrelation -/
theorem uSeq_corr (p : PrbsEnum) (seed : List Int) (h : seed.length = p.value) (hne : ∃ x ∈ seed, x % 2 = 1)
    (τ : ZMod (2 ^ p.value - 1)) :
    ∑ z, uSeq p seed z * uSeq p seed (z + τ) = if τ = 0 then ((2 ^ p.value - 1 : ℕ) : ℝ) else -1 := by
  split_ifs with h0
  · subst h0
    rw [sum_congr rfl (fun z _ => by rw [add_zero, uSeq_sq])]
    rw [sum_const, card_univ, ZMod.card, nsmul_eq_mul, mul_one]
  · have hd : ¬ (2 ^ p.value - 1) ∣ τ.val := by
      intro hd
      exact h0 (by rw [← ZMod.natCast_zmod_val τ]; exact (ZMod.natCast_eq_zero_iff _ _).2 hd)
    have hb := bitAt_shift_distance p seed h hne τ.val hd 0
    simp only [Nat.zero_add] at hb
    have e : ∀ t : ℕ, uSeq p seed (t : ZMod (2 ^ p.value - 1)) * uSeq p seed ((t : ZMod (2 ^ p.value - 1)) + τ)
        = 1 - 2 * (if bitAt (getPolynomial p) seed t ≠ bitAt (getPolynomial p) seed (τ.val + t) then 1 else 0) := by
      intro t
      have : (t : ZMod (2 ^ p.value - 1)) + τ = ((τ.val + t : ℕ) : ZMod (2 ^ p.value - 1)) := by
        push_cast; rw [ZMod.natCast_zmod_val, add_comm]
      rw [this, uSeq_cast p seed h, uSeq_cast p seed h]
      rcases bitAt_mem (getPolynomial p) seed t with h1 | h1 <;>
        rcases bitAt_mem (getPolynomial p) seed (τ.val + t) with h2 | h2 <;> rw [h1, h2] <;> norm_num
    rw [← zmod_sum_cast (2 ^ p.value - 1) (fun z => uSeq p seed z * uSeq p seed (z + τ)),
      sum_congr rfl (fun t _ => e t), sum_sub_distrib, ← mul_sum, sum_boole, hb, sum_const, card_range,
      nsmul_eq_mul, period_cast]
    push_cast; ring

/-- shift and add: the sum modulo two of a PRBS and a shifted copy is another shifted copy -/
theorem shift_and_add (p : PrbsEnum) (seed : List Int) (hseed : seed.length = p.value)
    (hne : ∃ x ∈ seed, x % 2 = 1) (τ : ℕ) (hτ : ¬ (2 ^ p.value - 1) ∣ τ) :
    ∃ d < 2 ^ p.value - 1, ∀ t, bitAt (getPolynomial p) seed (t + d)
      = (bitAt (getPolynomial p) seed t + bitAt (getPolynomial p) seed (t + τ)) % 2 := by
  have hv := value_pos p
  have hl := poly_length p
  have hclt : code seed < 2 ^ p.value := by rw [← hseed]; exact code_lt _
  obtain ⟨f, hf⟩ : ∃ f, f = step p.value (code (getPolynomial p)) := ⟨_, rfl⟩
  have hlin : XLin f := hf ▸ xlin_step _ _
  have hc0 := code_ne_zero hne
  have hy' : f^[τ] (code seed) < 2 ^ p.value := hf ▸ iterate_step_lt hv _ _ _ hclt
  have hz : code seed ^^^ f^[τ] (code seed) < 2 ^ p.value := Nat.xor_lt_two_pow hclt hy'
  have hz0 : code seed ^^^ f^[τ] (code seed) ≠ 0 := by
    intro h
    rw [Nat.xor_eq_zero_iff] at h
    apply hτ
    have hper : Function.IsPeriodicPt f τ (code seed) := h.symm
    have := hper.minimalPeriod_dvd
    rw [hf] at this
    rwa [supported_maximal p hclt hc0] at this
  have hmem : code seed ^^^ f^[τ] (code seed) ∈ Finset.Ico 1 (2 ^ p.value) := by
    rw [mem_Ico]; omega
  rw [← (orbit_full hv hclt hc0 (supported_maximal p hclt hc0)).1, mem_image] at hmem
  obtain ⟨d, hd, hdz⟩ := hmem
  rw [mem_range] at hd
  refine ⟨d, hd, fun t => ?_⟩
  rw [bitAt_eq_code _ _ (by omega) (by omega), bitAt_eq_code _ _ (by omega) (by omega),
    bitAt_eq_code _ _ (by omega) (by omega), hseed, ← hf]
  rw [← hf] at hdz
  rw [show t + d + 1 = (t + 1) + d by omega, show t + τ + 1 = (t + 1) + τ by omega, Function.iterate_add_apply,
    hdz, (hlin.iterate (t + 1)).map_xor, ← Function.iterate_add_apply]
  generalize f^[t + 1] (code seed) = a
  generalize f^[t + 1 + τ] (code seed) = b
  have hx : (a ^^^ b) % 2 = (a % 2) ^^^ (b % 2) := by
    have := @Nat.xor_mod_two_pow a b 1; simpa using this
  rw [hx]
  rcases Nat.mod_two_eq_zero_or_one a with ha | ha <;>
  rcases Nat.mod_two_eq_zero_or_one b with hb' | hb' <;> simp [ha, hb']

/-! ### sequences with two-valued autocorrelation -/

section Abstract
variable {N : ℕ} [NeZero N] (u : ZMod N → ℝ)

theorem sum_shift (f : ZMod N → ℝ) (a : ZMod N) : ∑ z, f (z + a) = ∑ z, f z :=
  Fintype.sum_equiv (Equiv.addRight a) _ _ (fun _ => rfl)

theorem corr_shift (hu : ∀ τ, ∑ z, u z * u (z + τ) = if τ = 0 then (N : ℝ) else -1) (a b : ZMod N) :
    ∑ z, u (z + a) * u (z + b) = if a = b then (N : ℝ) else -1 := by
  have h := hu (b - a)
  rw [← sum_shift (fun z => u z * u (z + (b - a))) a] at h
  simp only [add_assoc, add_sub_cancel] at h
  rw [h]
  by_cases e : a = b
  · rw [if_pos e, if_pos (by rw [e, sub_self])]
  · rw [if_neg e, if_neg (fun h => e (sub_eq_zero.1 h).symm)]

/-- energy of a filtered sequence -/
theorem filtered_energy (hu : ∀ τ, ∑ z, u z * u (z + τ) = if τ = 0 then (N : ℝ) else -1) (y : ZMod N → ℝ) :
    ∑ z, (∑ r, y r * u (z + r)) ^ 2 = ((N : ℝ) + 1) * ∑ r, y r ^ 2 - (∑ r, y r) ^ 2 := by
  have h1 : ∀ z, (∑ r, y r * u (z + r)) ^ 2 = ∑ r, ∑ s, y r * y s * (u (z + r) * u (z + s)) := by
    intro z
    rw [sq, sum_mul_sum]
    exact sum_congr rfl (fun r _ => sum_congr rfl (fun s _ => by ring))
  have h2 : ∀ r s, ∑ z, y r * y s * (u (z + r) * u (z + s))
      = ((N : ℝ) + 1) * (if r = s then y r * y s else 0) - y r * y s := by
    intro r s
    rw [← mul_sum, corr_shift u hu]
    split_ifs <;> ring
  rw [sum_congr rfl (fun z _ => h1 z), sum_comm]
  rw [sum_congr rfl (fun r _ => sum_comm)]
  rw [sum_congr rfl (fun r _ => sum_congr rfl (fun s _ => h2 r s))]
  simp only [sum_sub_distrib, ← mul_sum, sum_ite_eq, mem_univ, if_true]
  rw [sq (∑ r, y r), sum_mul_sum]
  congr 1
  · congr 1
    exact sum_congr rfl (fun r _ => by ring)
  · exact sum_congr rfl (fun r _ => by rw [mul_sum])

/-- the only filter suppressing the sequence is zero -/
theorem filtered_energy_ge (hu : ∀ τ, ∑ z, u z * u (z + τ) = if τ = 0 then (N : ℝ) else -1) (y : ZMod N → ℝ) :
    ∑ r, y r ^ 2 ≤ ∑ z, (∑ r, y r * u (z + r)) ^ 2 := by
  rw [filtered_energy u hu]
  have := sq_sum_le_card_mul_sum_sq (s := (univ : Finset (ZMod N))) (f := y)
  rw [card_univ, ZMod.card] at this
  linarith

end Abstract

end Verif
