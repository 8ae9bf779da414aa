import Verif.Spec.Timing
import Verif.Lemmas.EstimPrbs2
import Verif.Lemmas.GrayEcho

/-! Helper lemmas: what the sums of the Mueller-Muller detector are for a periodic reference. -/

open Finset

namespace Verif

open Spec (unitScale flipBit txLevel periodic chanOut cursor isiSum peakLevel levelVariance timingError echo echoSign)

section Abstract
variable {N : ℕ} [NeZero N] (ref g : ZMod N → ℝ)

/-- the received periodic signal -/
noncomputable def rxZ (z : ZMod N) : ℝ := ∑ r, g r * ref (z + r)

/-- what one sample adds to the timing error -/
noncomputable def mmZ (z : ZMod N) : ℝ := ref z * rxZ ref g (z + 1) - ref (z + 1) * rxZ ref g z

theorem mmZ_sum : ∑ z, mmZ ref g z
    = ∑ r, g r * (∑ z, ref z * ref (z + (r + 1)) - ∑ z, ref z * ref (z + (r - 1))) := by
  have e1 : ∑ z, ref z * rxZ ref g (z + 1) = ∑ r, g r * ∑ z, ref z * ref (z + (r + 1)) := by
    simp only [rxZ, mul_sum]
    rw [sum_comm]
    refine sum_congr rfl fun r _ => sum_congr rfl fun z _ => ?_
    rw [show z + 1 + r = z + (r + 1) by ring]; ring
  have e2 : ∑ z, ref (z + 1) * rxZ ref g z = ∑ r, g r * ∑ z, ref z * ref (z + (r - 1)) := by
    rw [← sum_shift (fun z => ref (z + 1) * rxZ ref g z) (-1)]
    simp only [rxZ, mul_sum]
    rw [sum_comm]
    refine sum_congr rfl fun r _ => sum_congr rfl fun z _ => ?_
    rw [neg_add_cancel_right, show z + -1 + r = z + (r - 1) by ring]; ring
  simp only [mmZ, sum_sub_distrib]
  rw [e1, e2]
  simp only [mul_sub, sum_sub_distrib]

/-- with a flat correlation at the lags in use, the sum compares the two neighbours of the main tap -/
theorem mmZ_flat (A B : ℝ)
    (h1 : ∀ r, g r ≠ 0 → ∑ z, ref z * ref (z + (r + 1)) = if r + 1 = 0 then A else B)
    (h2 : ∀ r, g r ≠ 0 → ∑ z, ref z * ref (z + (r - 1)) = if r - 1 = 0 then A else B) :
    ∑ z, mmZ ref g z = (A - B) * (g (-1) - g 1) := by
  rw [mmZ_sum]
  have e : ∀ r, g r * (∑ z, ref z * ref (z + (r + 1)) - ∑ z, ref z * ref (z + (r - 1)))
      = (A - B) * (if r = -1 then g r else 0) - (A - B) * (if r = 1 then g r else 0) := by
    intro r
    by_cases hg : g r = 0
    · rw [hg]; simp
    · rw [h1 r hg, h2 r hg]
      have c1 : r + 1 = 0 ↔ r = -1 := ⟨fun h => by linear_combination h, fun h => by rw [h]; ring⟩
      have c2 : r - 1 = 0 ↔ r = 1 := ⟨fun h => by linear_combination h, fun h => by rw [h]; ring⟩
      simp only [c1, c2]
      split_ifs <;> ring
  rw [sum_congr rfl fun r _ => e r, sum_sub_distrib, ← mul_sum, ← mul_sum, sum_ite_eq' univ, sum_ite_eq' univ,
    if_pos (mem_univ _), if_pos (mem_univ _)]
  ring

/-- the main tap does not add to the timing error at any sample -/
theorem mmZ_abs (X : ℝ) (hX : ∀ z, |ref z| ≤ X) (z : ZMod N) :
    |mmZ ref g z| ≤ 2 * X ^ 2 * ∑ r ∈ univ.erase 0, |g r| := by
  have hX0 : 0 ≤ X := (abs_nonneg _).trans (hX z)
  have e : mmZ ref g z = ∑ r ∈ univ.erase 0, g r * (ref z * ref (z + 1 + r) - ref (z + 1) * ref (z + r)) := by
    have : mmZ ref g z = ∑ r, g r * (ref z * ref (z + 1 + r) - ref (z + 1) * ref (z + r)) := by
      rw [mmZ, rxZ, rxZ, mul_sum, mul_sum, ← sum_sub_distrib]
      exact sum_congr rfl fun r _ => by ring
    rw [this, ← add_sum_erase univ _ (mem_univ (0 : ZMod N))]
    simp only [add_zero]
    ring
  rw [e, mul_sum]
  refine (abs_sum_le_sum_abs _ _).trans (sum_le_sum fun r _ => ?_)
  rw [abs_mul, mul_comm]
  refine mul_le_mul_of_nonneg_right ?_ (abs_nonneg _)
  have hp : ∀ a b : ZMod N, |ref a * ref b| ≤ X ^ 2 := by
    intro a b
    rw [abs_mul, sq]
    exact mul_le_mul (hX a) (hX b) (abs_nonneg _) hX0
  have := abs_sub (ref z * ref (z + 1 + r)) (ref (z + 1) * ref (z + r))
  linarith [hp z (z + 1 + r), hp (z + 1) (z + r)]

/-- sums over whole periods and a rest -/
theorem sum_periods_rest (f : ZMod N → ℝ) (φ : ZMod N) (q r : ℕ) (b : ℝ) (hb : ∀ z, |f z| ≤ b) :
    |∑ t ∈ range (q * N + r), f (t + φ) - q * ∑ z, f z| ≤ r * b := by
  rw [sum_range_add, sum_range_zmod (fun z => f (z + φ)), sum_shift, add_sub_cancel_left]
  refine (abs_sum_le_sum_abs _ _).trans ((sum_le_sum fun t _ => hb _).trans ?_)
  rw [sum_const, card_range, nsmul_eq_mul]

end Abstract

/-! ### the references -/

section Refs
variable (p : PrbsEnum) (fs bi pnPre gray pnPost : Bool)

theorem lag_affine (al be : ℝ) (ref : ZMod (2 ^ p.value - 1) → ℝ)
    (h : ∀ z, ref z = al * uSeq p (onesSeed p) z + be) (τ : ZMod (2 ^ p.value - 1)) :
    ∑ z, ref z * ref (z + τ) = if τ = 0
      then al ^ 2 * ((2 ^ p.value - 1 : ℕ) : ℝ) + 2 * al * be + ((2 ^ p.value - 1 : ℕ) : ℝ) * be ^ 2
      else -al ^ 2 + 2 * al * be + ((2 ^ p.value - 1 : ℕ) : ℝ) * be ^ 2 := by
  have hu := uSeq_corr p (onesSeed p) (by simp) (onesSeed_ne p) τ
  have h1 := uSeq_sum p (onesSeed p) (by simp) (onesSeed_ne p)
  have h2 := sum_shift (uSeq p (onesSeed p)) τ
  have e : ∀ z, ref z * ref (z + τ) = al ^ 2 * (uSeq p (onesSeed p) z * uSeq p (onesSeed p) (z + τ))
      + al * be * uSeq p (onesSeed p) z + al * be * uSeq p (onesSeed p) (z + τ) + be ^ 2 := by
    intro z; rw [h, h]; ring
  rw [sum_congr rfl fun z _ => e z, sum_add_distrib, sum_add_distrib, sum_add_distrib, ← mul_sum, ← mul_sum, ← mul_sum,
    h2, h1, hu, sum_const, card_univ, ZMod.card, nsmul_eq_mul]
  split_ifs <;> ring

theorem lag_pam4 (ga : ℝ) (a b : ZMod (2 ^ p.value - 1)) (ref : ZMod (2 ^ p.value - 1) → ℝ)
    (h : ∀ z, ref z = ga * (2 * uSeq p (onesSeed p) (2 * z + a) + uSeq p (onesSeed p) (2 * z + b)))
    (τ : ZMod (2 ^ p.value - 1)) :
    ∑ z, ref z * ref (z + τ) = ga ^ 2 * ((((2 ^ p.value - 1 : ℕ) : ℝ) + 1)
      * ((if τ = 0 then 5 else 0) + (if a = 2 * τ + b then 2 else 0) + (if b = 2 * τ + a then 2 else 0)) - 9) := by
  have hu := uSeq_corr p (onesSeed p) (by simp) (onesSeed_ne p)
  have hdbl : ∀ f : ZMod (2 ^ p.value - 1) → ℝ, ∑ z, f (2 * z) = ∑ z, f z := by
    intro f
    have h2 := half_mod p
    refine Fintype.sum_equiv ⟨fun z => 2 * z, fun z => ((2 ^ (p.value - 1) : ℕ) : ZMod (2 ^ p.value - 1)) * z,
      fun z => ?_, fun z => ?_⟩ _ _ fun _ => rfl
    · show _ * (2 * z) = z
      linear_combination z * h2
    · show 2 * (_ * z) = z
      linear_combination z * h2
  have hc : ∀ x y : ZMod (2 ^ p.value - 1),
      ∑ z, uSeq p (onesSeed p) (2 * z + x) * uSeq p (onesSeed p) (2 * z + y)
        = if x = y then ((2 ^ p.value - 1 : ℕ) : ℝ) else -1 := by
    intro x y
    rw [hdbl (fun z => uSeq p (onesSeed p) (z + x) * uSeq p (onesSeed p) (z + y))]
    exact corr_shift _ hu x y
  have e : ∀ z, ref z * ref (z + τ) = ga ^ 2 * (4 * (uSeq p (onesSeed p) (2 * z + a) * uSeq p (onesSeed p) (2 * z + (2 * τ + a)))
      + 2 * (uSeq p (onesSeed p) (2 * z + a) * uSeq p (onesSeed p) (2 * z + (2 * τ + b)))
      + 2 * (uSeq p (onesSeed p) (2 * z + b) * uSeq p (onesSeed p) (2 * z + (2 * τ + a)))
      + uSeq p (onesSeed p) (2 * z + b) * uSeq p (onesSeed p) (2 * z + (2 * τ + b))) := by
    intro z
    rw [h, h, show 2 * (z + τ) + a = 2 * z + (2 * τ + a) by ring, show 2 * (z + τ) + b = 2 * z + (2 * τ + b) by ring]
    ring
  have ha : ∀ x : ZMod (2 ^ p.value - 1), x = 2 * τ + x ↔ τ = 0 := by
    intro x
    have h2 := half_mod p
    constructor
    · intro he
      have : 2 * τ = 0 := by linear_combination -he
      linear_combination ((2 ^ (p.value - 1) : ℕ) : ZMod (2 ^ p.value - 1)) * this - τ * h2
    · intro h; rw [h]; ring
  rw [sum_congr rfl fun z _ => e z, ← mul_sum, sum_add_distrib, sum_add_distrib, sum_add_distrib, ← mul_sum, ← mul_sum,
    ← mul_sum, hc, hc, hc, hc]
  simp only [ha]
  split_ifs <;> ring


/-- correlation of a reference with its own shifts -/
theorem ref_lag (c : Constellation) (hc : c ≠ .pam3) :
    ∃ A B : ℝ, A - B = levelVariance c fs * (((2 ^ p.value - 1 : ℕ) : ℝ) + 1) ∧
      ∀ τ, (c = .pam4 → τ ≠ ((echo p bi gray : ℕ) : ZMod (2 ^ p.value - 1)) ∧ τ ≠ -((echo p bi gray : ℕ) : ZMod (2 ^ p.value - 1))) →
        ∑ z, refZ p c fs bi pnPre gray pnPost z * refZ p c fs bi pnPre gray pnPost (z + τ) = if τ = 0 then A else B := by
  set g : ℝ := (if pnPost then -1 else 1) * unitScale c fs with hgd
  have hg2 : g ^ 2 = unitScale c fs ^ 2 := by rw [hgd]; cases pnPost <;> simp
  set ep : ℝ := if pnPre then -1 else 1 with hep
  have hep2 : ep ^ 2 = 1 := by rw [hep]; cases pnPre <;> simp
  cases c with
  | nrz =>
    have h : ∀ z, refZ p .nrz fs bi pnPre gray pnPost z = (g * ep) * uSeq p (onesSeed p) z + 0 := by
      intro z
      rw [refZ, uSeq]
      simp only [txLevel]
      rw [flip_sign, ← hgd, ← hep]; ring
    refine ⟨_, _, ?_, fun τ _ => lag_affine p (g * ep) 0 _ h τ⟩
    simp only [levelVariance]
    rw [← hg2]
    linear_combination (g ^ 2 * (((2 ^ p.value - 1 : ℕ) : ℝ) + 1)) * hep2
  | ook =>
    have h : ∀ z, refZ p .ook fs bi pnPre gray pnPost z = (g * ep / 2) * uSeq p (onesSeed p) z + g / 2 := by
      intro z
      rw [refZ, uSeq]
      simp only [txLevel]
      have := flip_sign pnPre (bitAt (getPolynomial p) (onesSeed p) z.val)
      rw [← hep] at this
      rw [← hgd]
      linear_combination (g / 2) * this
    refine ⟨_, _, ?_, fun τ _ => lag_affine p (g * ep / 2) (g / 2) _ h τ⟩
    simp only [levelVariance]
    rw [← hg2]
    linear_combination (g ^ 2 / 4 * (((2 ^ p.value - 1 : ℕ) : ℝ) + 1)) * hep2
  | pam3 => exact absurd rfl hc
  | pam4 =>
    refine ⟨unitScale .pam4 fs ^ 2 * ((((2 ^ p.value - 1 : ℕ) : ℝ) + 1) * 5 - (5 + 4 * echoSign pnPre gray)),
      unitScale .pam4 fs ^ 2 * (-(5 + 4 * echoSign pnPre gray)), ?_, fun τ hτ => ?_⟩
    · simp only [levelVariance]; ring
    · obtain ⟨n1, n2⟩ := hτ rfl
      rw [refZ_four_corr, if_neg n1, if_neg n2]
      split_ifs <;> ring

theorem refZ_abs (c : Constellation) (z : ZMod (2 ^ p.value - 1)) :
    |refZ p c fs bi pnPre gray pnPost z| ≤ peakLevel c fs := by
  have hs := unitScale_pos c fs
  have hbm := bitAt_mem (getPolynomial p) (onesSeed p)
  have hf : ∀ t, flipBit pnPre (bitAt (getPolynomial p) (onesSeed p) t) = 0
      ∨ flipBit pnPre (bitAt (getPolynomial p) (onesSeed p) t) = 1 := by
    intro t
    rcases hbm t with h | h <;> rw [h] <;> cases pnPre <;> simp [flipBit]
  have key : ∀ v : ℝ, |v| ≤ (if c = .pam4 then 3 else 1) →
      |(if pnPost then (-1 : ℝ) else 1) * unitScale c fs * v| ≤ peakLevel c fs := by
    intro v hv
    rw [abs_mul, abs_mul, abs_of_pos hs, peakLevel]
    have : |(if pnPost then (-1 : ℝ) else 1)| = 1 := by cases pnPost <;> simp
    rw [this, one_mul]
    exact mul_le_mul_of_nonneg_left hv hs.le
  rw [refZ, Spec.txLevel.eq_def]
  apply key
  cases c with
  | nrz => refine le_of_le_of_eq ?_ (if_neg (by decide)).symm; rcases hf z.val with h | h <;> rw [h] <;> norm_num
  | ook => refine le_of_le_of_eq ?_ (if_neg (by decide)).symm; rcases hf z.val with h | h <;> rw [h] <;> norm_num
  | pam3 => simp
  | pam4 =>
    simp only [if_true]
    have h1 := hf (2 * z.val)
    have h2 := hf (2 * z.val + 1)
    cases bi <;> cases gray <;> simp only [Bool.false_eq_true, if_false, if_true] <;>
      rcases h1 with h1 | h1 <;> rcases h2 with h2 | h2 <;> rw [h1, h2] <;> norm_num

end Refs

/-! ### cursors -/

theorem cursor_tapZ {N : ℕ} [NeZero N] (h : List ℝ) (pre : ℕ) (hl : h.length < N) (hp : pre < h.length) :
    tapZ N h pre (-1) = cursor h pre 1 ∧ tapZ N h pre 1 = cursor h pre (-1) := by
  have cast_eq : ∀ a b : ℤ, (a : ZMod N) = (b : ZMod N) → |a - b| < N → a = b := by
    intro a b he hab
    rw [ZMod.intCast_eq_intCast_iff_dvd_sub] at he
    have := Int.eq_zero_of_abs_lt_dvd he (by rw [abs_sub_comm]; exact hab)
    omega
  constructor
  · rw [cursor, if_pos (by omega), show ((pre : ℤ) + 1).toNat = pre + 1 by omega]
    by_cases hk : pre + 1 < h.length
    · have := tapZ_at (N := N) h pre hl.le (pre + 1) hk
      rwa [show (pre : ZMod N) - ((pre + 1 : ℕ) : ZMod N) = -1 by push_cast; ring] at this
    · rw [getD_of_le _ _ (by omega)]
      refine tapZ_else h pre _ fun k hk he => ?_
      have := cast_eq (pre - k) (-1) (by push_cast; exact he) (by rw [abs_lt]; omega)
      omega
  · rw [cursor]
    by_cases h0 : pre = 0
    · rw [if_neg (by omega)]
      refine tapZ_else h pre _ fun k hk he => ?_
      have := cast_eq (pre - k) 1 (by push_cast; exact he) (by rw [abs_lt]; omega)
      omega
    · rw [if_pos (by omega), show ((pre : ℤ) + -1).toNat = pre - 1 by omega]
      have := tapZ_at (N := N) h pre hl.le (pre - 1) (by omega)
      rwa [show (pre : ZMod N) - ((pre - 1 : ℕ) : ZMod N) = 1 by
        rw [Nat.cast_sub (by omega)]; push_cast; ring] at this

theorem isi_tapZ {N : ℕ} [NeZero N] (h : List ℝ) (pre : ℕ) (hl : h.length ≤ N) (hp : pre < h.length) :
    ∑ r ∈ univ.erase 0, |tapZ N h pre r| ≤ isiSum h pre := by
  have h1 : ∀ r : ZMod N, |tapZ N h pre r| ≤ ∑ k ∈ range h.length, if (pre : ZMod N) - k = r then |h.getD k 0| else 0 := by
    intro r
    rw [tapZ]
    refine (abs_sum_le_sum_abs _ _).trans (sum_le_sum fun k _ => ?_)
    split_ifs <;> simp
  have hinj : ∀ k < h.length, (pre : ZMod N) - k = 0 → k = pre := by
    intro k hk he
    have : (pre : ZMod N) = (k : ZMod N) := by linear_combination he
    rw [ZMod.natCast_eq_natCast_iff', Nat.mod_eq_of_lt (by omega), Nat.mod_eq_of_lt (by omega)] at this
    exact this.symm
  refine (sum_le_sum fun r _ => h1 r).trans ?_
  rw [sum_comm, isiSum, ← add_sum_erase (range h.length) _ (mem_range.2 hp)]
  have z0 : ∑ r ∈ univ.erase (0 : ZMod N), (if (pre : ZMod N) - pre = r then |h.getD pre 0| else 0) = 0 := by
    refine sum_eq_zero fun r hr => if_neg ?_
    rw [sub_self]
    exact (ne_of_mem_erase hr).symm
  rw [z0, zero_add]
  refine sum_le_sum fun k hk => ?_
  rw [sum_ite_eq]
  split_ifs
  · exact le_rfl
  · exact abs_nonneg _

end Verif
