import Verif.Lemmas.EstimPrbs
import Verif.Lemmas.Gf2
import Verif.Spec.Timing

/-! Where the symbols of a Gray coded PRBS are correlated: the sum of two neighbouring bits is another sample of the same
sequence, at a distance computed in the kernel. -/

open Finset

namespace Verif

open Gf2

open Spec (unitScale flipBit txLevel periodic sumShift echo echoSign levelVariance)

/-- the matrix of `1 + step` -/
def sumMat (n taps : ℕ) : List ℕ := (basis n).map fun s => s ^^^ step n taps s

/-- most significant bit first -/
def toBits : ℕ → ℕ → List Bool
  | 0, _ => []
  | n + 1, k => (k / 2 ^ n % 2 == 1) :: toBits n k

theorem bits_sumShift (p : PrbsEnum) : bitsVal (toBits p.value (sumShift p)) 0 = sumShift p := by
  cases p <;> decide +kernel

theorem powMat_sumShift (p : PrbsEnum) : powMat p.value (code (getPolynomial p)) (toBits p.value (sumShift p)) (basis p.value)
    = sumMat p.value (code (getPolynomial p)) := by
  cases p <;> decide +kernel

theorem step_sumShift (p : PrbsEnum) (s : ℕ) (hs : s < 2 ^ p.value) :
    (step p.value (code (getPolynomial p)))^[sumShift p] s = s ^^^ step p.value (code (getPolynomial p)) s := by
  have h := iterate_eq_app (value_pos p) (code (getPolynomial p)) (toBits p.value (sumShift p)) hs
  rw [bits_sumShift, powMat_sumShift, sumMat] at h
  rw [← h]
  have hl := xlin_step p.value (code (getPolynomial p))
  exact app_basis (f := fun s => s ^^^ step p.value (code (getPolynomial p)) s) ⟨by simp [hl.map_zero], fun a b => by
    rw [hl.map_xor]
    apply Nat.eq_of_testBit_eq
    intro i
    simp only [Nat.testBit_xor]
    cases a.testBit i <;> cases b.testBit i <;> simp⟩ p.value s hs

/-- the sum of two neighbouring bits -/
theorem bit_sumShift (p : PrbsEnum) (seed : List Int) (hseed : seed.length = p.value) (t : ℕ) :
    bitAt (getPolynomial p) seed (t + sumShift p)
      = (bitAt (getPolynomial p) seed t + bitAt (getPolynomial p) seed (t + 1)) % 2 := by
  have hv := value_pos p
  have hl := poly_length p
  have hclt : code seed < 2 ^ p.value := by rw [← hseed]; exact code_lt _
  rw [bitAt_eq_code _ _ (by omega) (by omega), bitAt_eq_code _ _ (by omega) (by omega),
    bitAt_eq_code _ _ (by omega) (by omega), hseed]
  rw [show t + sumShift p + 1 = sumShift p + (t + 1) by omega, show t + 1 + 1 = 1 + (t + 1) by omega, Function.iterate_add_apply _ (sumShift p),
    step_sumShift p _ (iterate_step_lt hv _ _ _ hclt), Function.iterate_add_apply _ 1, Function.iterate_one]
  generalize (step p.value (code (getPolynomial p)))^[t + 1] (code seed) = a
  generalize step p.value (code (getPolynomial p)) a = b
  have hx : (a ^^^ b) % 2 = (a % 2) ^^^ (b % 2) := by
    have := @Nat.xor_mod_two_pow a b 1; simpa using this
  rw [hx]
  rcases Nat.mod_two_eq_zero_or_one a with ha | ha <;>
  rcases Nat.mod_two_eq_zero_or_one b with hb' | hb' <;> simp [ha, hb']

/-- the distance of the two samples in a four-level symbol is twice the echo -/
theorem echo_double (p : PrbsEnum) (bi gray : Bool) :
    2 * ((echo p bi gray : ℕ) : ZMod (2 ^ p.value - 1)) = (if gray then (sumShift p : ZMod (2 ^ p.value - 1)) else if bi then 1 else 0)
        - (if bi then 0 else 1) ∨
    2 * ((echo p bi gray : ℕ) : ZMod (2 ^ p.value - 1)) = (if bi then 0 else 1)
        - (if gray then (sumShift p : ZMod (2 ^ p.value - 1)) else if bi then 1 else 0) := by
  have key : ∀ a b : ℤ, ((2 ^ p.value - 1 : ℕ) : ℤ) ∣ a - b → ((b : ℤ) : ZMod (2 ^ p.value - 1)) = (a : ZMod (2 ^ p.value - 1)) :=
    fun a b h => (ZMod.intCast_eq_intCast_iff_dvd_sub _ _ _).2 h
  cases gray with
  | false =>
    have hh : 2 * ((2 ^ (p.value - 1) - 1 : ℕ) : ZMod (2 ^ p.value - 1)) = -1 := by
      have := half_mod p
      rw [Nat.cast_sub Nat.one_le_two_pow, mul_sub, this]; norm_num
    cases bi
    · left; show 2 * ((2 ^ (p.value - 1) - 1 : ℕ) : ZMod (2 ^ p.value - 1)) = 0 - 1
      rw [hh]; ring
    · right; show 2 * ((2 ^ (p.value - 1) - 1 : ℕ) : ZMod (2 ^ p.value - 1)) = 0 - 1
      rw [hh]; ring
  | true =>
    have c : (bi = false → ((2 ^ p.value - 1 : ℕ) : ℤ) ∣ ((sumShift p : ℤ) - 1) - 2 * (echo p bi true : ℤ) ∨
          ((2 ^ p.value - 1 : ℕ) : ℤ) ∣ (1 - (sumShift p : ℤ)) - 2 * (echo p bi true : ℤ)) ∧
        (bi = true → ((2 ^ p.value - 1 : ℕ) : ℤ) ∣ ((sumShift p : ℤ) - 0) - 2 * (echo p bi true : ℤ) ∨
          ((2 ^ p.value - 1 : ℕ) : ℤ) ∣ (0 - (sumShift p : ℤ)) - 2 * (echo p bi true : ℤ)) := by
      cases p <;> cases bi <;> decide +kernel
    cases bi
    · rcases c.1 rfl with h | h
      · left; have := key _ _ h; push_cast at this; simpa using this
      · right; have := key _ _ h; push_cast at this; simpa using this
    · rcases c.2 rfl with h | h
      · left; have := key _ _ h; push_cast at this; simpa using this
      · right; have := key _ _ h; push_cast at this; simpa using this

/-- the four-level reference as two samples of the two-level sequence, for all options -/
theorem refZ_four (p : PrbsEnum) (fs bi pnPre gray pnPost : Bool) :
    ∃ (ga : ℝ) (a b : ZMod (2 ^ p.value - 1)), ga ^ 2 = unitScale .pam4 fs ^ 2 ∧
      (2 * ((echo p bi gray : ℕ) : ZMod (2 ^ p.value - 1)) = b - a ∨ 2 * ((echo p bi gray : ℕ) : ZMod (2 ^ p.value - 1)) = a - b) ∧
      ∀ z, refZ p .pam4 fs bi pnPre gray pnPost z = twoTap (uSeq p (onesSeed p)) ga (echoSign pnPre gray) a b z := by
  set g : ℝ := (if pnPost then -1 else 1) * unitScale .pam4 fs with hgd
  set ep : ℝ := if pnPre then -1 else 1 with hep
  have hep0 : ep = 1 ∨ ep = -1 := by rw [hep]; cases pnPre <;> simp
  have hg2 : (g * ep) ^ 2 = unitScale .pam4 fs ^ 2 := by
    rw [hgd, hep]; cases pnPost <;> cases pnPre <;> simp
  refine ⟨g * ep, if bi then 0 else 1, if gray then (sumShift p : ZMod (2 ^ p.value - 1)) else if bi then 1 else 0, hg2,
    echo_double p bi gray, fun z => ?_⟩
  set b := bitAt (getPolynomial p) (onesSeed p) with hb
  have hbm := bitAt_mem (getPolynomial p) (onesSeed p)
  rw [← hb] at hbm
  have u0 : ∀ z : ZMod (2 ^ p.value - 1), uSeq p (onesSeed p) (2 * z + 0) = 2 * (b (2 * z.val) : ℝ) - 1 := by
    intro z
    have := uSeq_two p z 0
    rwa [Nat.cast_zero] at this
  have u1 : ∀ z : ZMod (2 ^ p.value - 1), uSeq p (onesSeed p) (2 * z + 1) = 2 * (b (2 * z.val + 1) : ℝ) - 1 := by
    intro z
    have := uSeq_two p z 1
    rwa [Nat.cast_one] at this
  have ud : ∀ z : ZMod (2 ^ p.value - 1), uSeq p (onesSeed p) (2 * z + (sumShift p : ZMod (2 ^ p.value - 1)))
      = 2 * (((b (2 * z.val) + b (2 * z.val + 1)) % 2 : ℤ) : ℝ) - 1 := by
    intro z
    rw [uSeq_two p z (sumShift p), bit_sumShift p _ (by simp)]
  have xorFlip : ∀ s t, (flipBit pnPre (b s) + flipBit pnPre (b t)) % 2 = (b s + b t) % 2 := by
    intro s t
    rcases hbm s with h1 | h1 <;> rcases hbm t with h2 | h2 <;> rw [h1, h2] <;> cases pnPre <;> decide
  have epp : ep * ep = 1 := by rcases hep0 with h | h <;> rw [h] <;> norm_num
  have val : ∀ z : ZMod (2 ^ p.value - 1), refZ p .pam4 fs bi pnPre gray pnPost z
      = g * (2 * (2 * (flipBit pnPre (if bi then b (2 * z.val) else b (2 * z.val + 1)) : ℝ) - 1)
        + (2 * ((if gray then (flipBit pnPre (if bi then b (2 * z.val + 1) else b (2 * z.val))
              + flipBit pnPre (if bi then b (2 * z.val) else b (2 * z.val + 1))) % 2
            else flipBit pnPre (if bi then b (2 * z.val + 1) else b (2 * z.val)) : ℤ) : ℝ) - 1)) := fun z => rfl
  have sg : echoSign pnPre true = ep := by rw [hep, echoSign]; cases pnPre <;> simp
  have sn : echoSign pnPre false = 1 := by rw [echoSign]; simp
  cases gray with
  | false =>
    cases bi <;> rw [val, twoTap, sn] <;> simp only [Bool.false_eq_true, if_false, if_true] <;>
      rw [u0, u1, flip_sign, flip_sign, ← hep] <;> ring
  | true =>
    cases bi
    · rw [val, twoTap, sg]
      simp only [Bool.false_eq_true, if_false, if_true]
      rw [ud, u1, flip_sign, ← hep, xorFlip]
      linear_combination (-g * (2 * (((b (2 * z.val) + b (2 * z.val + 1)) % 2 : ℤ) : ℝ) - 1)) * epp
    · rw [val, twoTap, sg]
      simp only [if_true]
      rw [ud, u0, flip_sign, ← hep, xorFlip, add_comm (b (2 * z.val + 1))]
      linear_combination (-g * (2 * (((b (2 * z.val) + b (2 * z.val + 1)) % 2 : ℤ) : ℝ) - 1)) * epp

/-- the correlation of the four-level reference with its own shifts, for all options -/
theorem refZ_four_corr (p : PrbsEnum) (fs bi pnPre gray pnPost : Bool) (τ : ZMod (2 ^ p.value - 1)) :
    ∑ z, refZ p .pam4 fs bi pnPre gray pnPost z * refZ p .pam4 fs bi pnPre gray pnPost (z + τ)
      = unitScale .pam4 fs ^ 2 * ((((2 ^ p.value - 1 : ℕ) : ℝ) + 1) * (5 * (if τ = 0 then 1 else 0)
          + 2 * echoSign pnPre gray * (if τ = ((echo p bi gray : ℕ) : ZMod (2 ^ p.value - 1)) then 1 else 0)
          + 2 * echoSign pnPre gray * (if τ = -((echo p bi gray : ℕ) : ZMod (2 ^ p.value - 1)) then 1 else 0))
        - (5 + 4 * echoSign pnPre gray)) := by
  obtain ⟨ga, a, b, h1, h2, h3⟩ := refZ_four p fs bi pnPre gray pnPost
  have hs : echoSign pnPre gray = 1 ∨ echoSign pnPre gray = -1 := by
    rw [echoSign]; cases pnPre <;> cases gray <;> simp
  have hu := uSeq_corr p (onesSeed p) (by simp) (onesSeed_ne p)
  have e : refZ p .pam4 fs bi pnPre gray pnPost = twoTap (uSeq p (onesSeed p)) ga (echoSign pnPre gray) a b := funext h3
  have hh := half_mod p
  rw [e, twoTap_corr _ hu _ hh ga _ hs a b τ, h1]
  set h := ((2 ^ (p.value - 1) : ℕ) : ZMod (2 ^ p.value - 1))
  set E := ((echo p bi gray : ℕ) : ZMod (2 ^ p.value - 1))
  rcases h2 with h2 | h2
  · have : h * (b - a) = E := by rw [← h2]; linear_combination E * hh
    rw [this]
  · have : h * (b - a) = -E := by
      have : h * (a - b) = E := by rw [← h2]; linear_combination E * hh
      linear_combination -this
    rw [this, neg_neg]
    ring

theorem echo_half (p : PrbsEnum) (bi gray : Bool) : 0 < echo p bi gray ∧ 2 * echo p bi gray < 2 ^ p.value - 1 := by
  cases gray with
  | false =>
    show 0 < 2 ^ (p.value - 1) - 1 ∧ 2 * (2 ^ (p.value - 1) - 1) < 2 ^ p.value - 1
    have hhalf : 2 ^ p.value = 2 * 2 ^ (p.value - 1) := by
      rw [← Nat.pow_succ']; congr 1; have := value_pos p; omega
    have := period_ge p
    omega
  | true => cases p <;> cases bi <;> decide +kernel

theorem echo_three (p : PrbsEnum) (bi gray : Bool) : 3 ≤ echo p bi gray := by
  cases gray with
  | false =>
    show 3 ≤ 2 ^ (p.value - 1) - 1
    have hhalf : 2 ^ p.value = 2 * 2 ^ (p.value - 1) := by
      rw [← Nat.pow_succ']; congr 1; have := value_pos p; omega
    have := period_ge p
    omega
  | true => cases p <;> cases bi <;> decide +kernel

/-- shorter distances are not the echo -/
theorem echo_far (p : PrbsEnum) (bi gray : Bool) (i : ℤ) (hi : |i| < echo p bi gray) :
    (i : ZMod (2 ^ p.value - 1)) ≠ ((echo p bi gray : ℕ) : ZMod (2 ^ p.value - 1)) ∧
      (i : ZMod (2 ^ p.value - 1)) ≠ -((echo p bi gray : ℕ) : ZMod (2 ^ p.value - 1)) := by
  obtain ⟨h0, h1⟩ := echo_half p bi gray
  rw [abs_lt] at hi
  constructor
  · intro h
    have h' : (i : ZMod (2 ^ p.value - 1)) = ((echo p bi gray : ℤ) : ZMod (2 ^ p.value - 1)) := by rw [h]; push_cast; rfl
    rw [ZMod.intCast_eq_intCast_iff_dvd_sub] at h'
    have := Int.eq_zero_of_abs_lt_dvd h' (by rw [abs_lt]; constructor <;> omega)
    omega
  · intro h
    have h' : (i : ZMod (2 ^ p.value - 1)) = ((-echo p bi gray : ℤ) : ZMod (2 ^ p.value - 1)) := by rw [h]; push_cast; rfl
    rw [ZMod.intCast_eq_intCast_iff_dvd_sub] at h'
    have := Int.eq_zero_of_abs_lt_dvd h' (by rw [abs_lt]; constructor <;> omega)
    omega

end Verif
