import Verif.Props.Timing
import Verif.Lemmas.Noise

/-! C101: the weights of the Mueller-Muller detector. -/

open Finset

namespace Verif

namespace Spec

/-- sum over a period of `N` symbols of the products of the symbols and their neighbours: what the correlation of a PRBS does not cancel -/
noncomputable def offPeak (c : Constellation) (fullScale pnPre gray : Bool) (N : ℕ) : ℝ :=
  unitScale c fullScale ^ 2 * (match c with
    | .nrz => -1
    | .ook => (N - 1 + 2 * (if pnPre then -1 else 1)) / 4
    | .pam3 => 0
    | .pam4 => -(5 + 4 * echoSign pnPre gray))

end Spec

open Spec (unitScale flipBit txLevel periodic chanOut cursor isiSum peakLevel levelVariance timingError echo echoSign offPeak)

theorem ref_lag_exact (p : PrbsEnum) (fs bi pnPre gray pnPost : Bool) (c : Constellation) (hc : c ≠ .pam3)
    (τ : ZMod (2 ^ p.value - 1)) (hτ : c = .pam4 → τ ≠ ((echo p bi gray : ℕ) : ZMod (2 ^ p.value - 1)) ∧ τ ≠ -((echo p bi gray : ℕ) : ZMod (2 ^ p.value - 1))) :
    ∑ z, refZ p c fs bi pnPre gray pnPost z * refZ p c fs bi pnPre gray pnPost (z + τ)
      = offPeak c fs pnPre gray (2 ^ p.value - 1) + if τ = 0 then levelVariance c fs * (((2 ^ p.value - 1 : ℕ) : ℝ) + 1) else 0 := by
  set g : ℝ := (if pnPost then -1 else 1) * unitScale c fs with hgd
  have hg2 : g ^ 2 = unitScale c fs ^ 2 := by rw [hgd]; cases pnPost <;> simp
  set ep : ℝ := if pnPre then -1 else 1 with hep
  have hep2 : ep ^ 2 = 1 := by rw [hep]; cases pnPre <;> simp
  cases c with
  | nrz =>
    have h : ∀ z, refZ p .nrz fs bi pnPre gray pnPost z = (g * ep) * uSeq p (onesSeed p) z + 0 := by
      intro z
      rw [refZ, uSeq]
      simp only [txLevel]
      rw [flip_sign, ← hgd, ← hep]; ring
    rw [lag_affine p (g * ep) 0 _ h τ]
    simp only [levelVariance, offPeak]
    rw [← hg2]
    split_ifs
    · linear_combination (g ^ 2 * ((2 ^ p.value - 1 : ℕ) : ℝ)) * hep2
    · linear_combination (-g ^ 2) * hep2
  | ook =>
    have h : ∀ z, refZ p .ook fs bi pnPre gray pnPost z = (g * ep / 2) * uSeq p (onesSeed p) z + g / 2 := by
      intro z
      rw [refZ, uSeq]
      simp only [txLevel]
      have := flip_sign pnPre (bitAt (getPolynomial p) (onesSeed p) z.val)
      rw [← hep] at this
      rw [← hgd]
      linear_combination (g / 2) * this
    rw [lag_affine p (g * ep / 2) (g / 2) _ h τ]
    simp only [levelVariance, offPeak]
    rw [← hg2, ← hep]
    split_ifs
    · linear_combination (g ^ 2 / 4 * ((2 ^ p.value - 1 : ℕ) : ℝ)) * hep2
    · linear_combination (-g ^ 2 / 4) * hep2
  | pam3 => exact absurd rfl hc
  | pam4 =>
    obtain ⟨n1, n2⟩ := hτ rfl
    rw [refZ_four_corr, if_neg n1, if_neg n2]
    simp only [levelVariance, offPeak]
    split_ifs <;> ring

/-- **C101.** Unequal weights: over whole periods the timing error is the weighted difference of the cursors times the contrast of the
levels, plus the difference of the weights times the uncancelled correlation and the sum of all taps; the step follows this number. -/
theorem C101_weights (p : PrbsEnum) (c : Constellation) (fs bi pnPre gray pnPost : Bool) (hc : c ≠ .pam3)
    (x : ℤ → ℝ)
    (hx : x = periodic (2 ^ p.value - 1) (txLevel c fs bi pnPre gray pnPost (bitAt (getPolynomial p) (onesSeed p))))
    (h : List ℝ) (pre : ℕ) (hp : pre < h.length)
    (hl : h.length < if c = .pam4 then echo p bi gray else 2 ^ p.value - 1) (φ : ℤ) (q : ℕ) (hq : 0 < q)
    (s ref : List ℝ) (hsl : s.length = q * (2 ^ p.value - 1) + 1) (hrl : ref.length = s.length)
    (hs : ∀ t : ℕ, t < s.length → s.getD t 0 = chanOut h pre x (t + φ))
    (hr : ∀ t : ℕ, t < s.length → ref.getD t 0 = x (t + φ)) (preW postW tol e : ℝ) (ht : 0 < tol)
    (he : e = 2 ^ p.value / (2 ^ p.value - 1) * levelVariance c fs * (postW * cursor h pre 1 - preW * cursor h pre (-1))
      + (postW - preW) * (offPeak c fs pnPre gray (2 ^ p.value - 1) / (2 ^ p.value - 1)) * h.sum) :
    ∃ v : ℤ, muellerMuller s ref preW postW tol = .ok (some v) ∧ (v = 0 ∨ v = 1 ∨ v = -1) ∧
      (v = 0 ↔ |e| < tol) ∧ (v = 1 ↔ tol ≤ e) ∧ (v = -1 ↔ e ≤ -tol) := by
  have hNp := period_ge p
  have hpow : (2 : ℝ) ^ p.value = ((2 ^ p.value - 1 : ℕ) : ℝ) + 1 := by
    rw [Nat.cast_sub Nat.one_le_two_pow]; push_cast; ring
  have hNr : (0 : ℝ) < ((2 ^ p.value - 1 : ℕ) : ℝ) := by exact_mod_cast (by omega : 0 < 2 ^ p.value - 1)
  have hlN : h.length < 2 ^ p.value - 1 := by
    have := (echo_half p bi gray).2
    split_ifs at hl <;> omega
  have hM1 : 1 ≤ q * (2 ^ p.value - 1) := Nat.mul_pos hq (by omega)
  set rz := refZ p c fs bi pnPre gray pnPost with hrz
  set g := tapZ (2 ^ p.value - 1) h pre with hgd
  have hxz : ∀ t : ℤ, x t = rz (t : ZMod (2 ^ p.value - 1)) := fun t => by rw [hx]; exact refZ_int p c fs bi pnPre gray pnPost t
  have hco : ∀ t : ℤ, chanOut h pre x t = rxZ rz g (t : ZMod (2 ^ p.value - 1)) := fun t => chanOut_zmod h pre x rz hxz t
  have hlag : ∀ j : ℤ, (j = 1 ∨ j = -1) → ∑ r, g r * ∑ z, rz z * rz (z + (r + (j : ZMod (2 ^ p.value - 1))))
      = offPeak c fs pnPre gray (2 ^ p.value - 1) * h.sum + levelVariance c fs * (((2 ^ p.value - 1 : ℕ) : ℝ) + 1) * g (-(j : ZMod (2 ^ p.value - 1))) := by
    intro j hj
    have e1 : ∀ r, g r * ∑ z, rz z * rz (z + (r + (j : ZMod (2 ^ p.value - 1))))
        = offPeak c fs pnPre gray (2 ^ p.value - 1) * (g r * 1) + levelVariance c fs * (((2 ^ p.value - 1 : ℕ) : ℝ) + 1) * if r = -(j : ZMod (2 ^ p.value - 1)) then g r else 0 := by
      intro r
      by_cases hgr : g r = 0
      · rw [hgr]; simp
      rw [ref_lag_exact p fs bi pnPre gray pnPost c hc]
      · have : r + (j : ZMod (2 ^ p.value - 1)) = 0 ↔ r = -(j : ZMod (2 ^ p.value - 1)) := eq_neg_iff_add_eq_zero.symm
        simp only [this]
        split_ifs <;> ring
      · intro hc4
        obtain ⟨k, hk, rfl⟩ : ∃ k < h.length, (pre : ZMod (2 ^ p.value - 1)) - k = r := by
          by_contra hne
          push Not at hne
          exact hgr (tapZ_else h pre r hne)
        rw [if_pos hc4] at hl
        have := echo_far p bi gray ((pre : ℤ) - k + j) (by
          rw [abs_lt]
          rcases hj with rfl | rfl <;> constructor <;> omega)
        push_cast at this
        exact this
    rw [sum_congr rfl fun r _ => e1 r, sum_add_distrib, ← mul_sum, ← mul_sum, tapZ_sum h pre fun _ => 1, sum_ite_eq' univ, if_pos (mem_univ _)]
    congr 2
    simp only [mul_one]
    rw [list_sum_getD']
  have hpost : ∑ z, rz z * rxZ rz g (z + 1) = ∑ r, g r * ∑ z, rz z * rz (z + (r + ((1 : ℤ) : ZMod (2 ^ p.value - 1)))) := by
    simp only [rxZ, mul_sum]
    rw [sum_comm]
    refine sum_congr rfl fun r _ => sum_congr rfl fun z _ => ?_
    rw [show z + 1 + r = z + (r + ((1 : ℤ) : ZMod (2 ^ p.value - 1))) by push_cast; ring]; ring
  have hpre : ∑ z, rz (z + 1) * rxZ rz g z = ∑ r, g r * ∑ z, rz z * rz (z + (r + ((-1 : ℤ) : ZMod (2 ^ p.value - 1)))) := by
    rw [← sum_shift (fun z => rz (z + 1) * rxZ rz g z) (-1)]
    simp only [rxZ, mul_sum]
    rw [sum_comm]
    refine sum_congr rfl fun r _ => sum_congr rfl fun z _ => ?_
    rw [neg_add_cancel_right, show z + -1 + r = z + (r + ((-1 : ℤ) : ZMod (2 ^ p.value - 1))) by push_cast; ring]; ring
  have hcur : g (-1) = cursor h pre 1 ∧ g 1 = cursor h pre (-1) := cursor_tapZ (N := 2 ^ p.value - 1) h pre hlN hp
  rw [hlag 1 (.inl rfl), Int.cast_one, hcur.1] at hpost
  rw [hlag (-1) (.inr rfl), Int.cast_neg, neg_neg, Int.cast_one, hcur.2] at hpre
  have hsum : ∀ f : ZMod (2 ^ p.value - 1) → ℝ, ∑ t ∈ range (q * (2 ^ p.value - 1)), f (t + (φ : ZMod (2 ^ p.value - 1))) = q * ∑ z, f z := by
    intro f
    rw [sum_range_zmod (fun z => f (z + (φ : ZMod (2 ^ p.value - 1)))), sum_shift]
  have hte : timingError ref.length (fun k => s.getD k 0) (fun k => ref.getD k 0) preW postW = e := by
    rw [timingError, hrl, hsl, Nat.add_sub_cancel]
    have a1 : ∑ k ∈ range (q * (2 ^ p.value - 1)), ref.getD k 0 * s.getD (k + 1) 0 = q * ∑ z, rz z * rxZ rz g (z + 1) := by
      rw [← hsum]
      refine sum_congr rfl fun k hk => ?_
      rw [mem_range] at hk
      rw [hr k (by omega), hs (k + 1) (by omega), hxz, hco]
      push_cast
      rw [show (k : ZMod (2 ^ p.value - 1)) + 1 + φ = k + φ + 1 by ring]
    have a2 : ∑ k ∈ range (q * (2 ^ p.value - 1)), ref.getD (k + 1) 0 * s.getD k 0 = q * ∑ z, rz (z + 1) * rxZ rz g z := by
      rw [← hsum]
      refine sum_congr rfl fun k hk => ?_
      rw [mem_range] at hk
      rw [hr (k + 1) (by omega), hs k (by omega), hxz, hco]
      push_cast
      rw [show (k : ZMod (2 ^ p.value - 1)) + 1 + φ = k + φ + 1 by ring]
    rw [a1, a2, hpost, hpre, he, Nat.cast_add, Nat.cast_mul, Nat.cast_one, add_sub_cancel_right, hpow, add_sub_cancel_right]
    have hqr : (0 : ℝ) < q := by exact_mod_cast hq
    field_simp
    ring
  have h2 := C55_sign s ref preW postW tol hrl.symm (by omega) ht
  rw [hte] at h2
  exact h2

/-- **C101** (negation for unequal weights). OOK received without any distortion: both cursors next to the main tap are zero, yet with unequal
weights the detector steps in the same direction over every number of whole periods at every phase. -/
theorem C101_negative_weights (p : PrbsEnum) (bi pnPre gray : Bool) (x : ℤ → ℝ)
    (hx : x = periodic (2 ^ p.value - 1) (txLevel .ook false bi pnPre gray false (bitAt (getPolynomial p) (onesSeed p))))
    (φ : ℤ) (q : ℕ) (hq : 0 < q) (preW postW tol : ℝ) (ht : 0 < tol) (hw : 5 * tol ≤ |postW - preW|) :
    cursor [1] 0 1 = 0 ∧ cursor [1] 0 (-1) = 0 ∧
      muellerMuller ((List.range (q * (2 ^ p.value - 1) + 1)).map fun t : ℕ => x (t + φ))
        ((List.range (q * (2 ^ p.value - 1) + 1)).map fun t : ℕ => x (t + φ)) preW postW tol
          = .ok (some (if preW < postW then 1 else -1)) := by
  have hN := period_ge p
  refine ⟨rfl, rfl, ?_⟩
  obtain ⟨v, h1, -, -, h2, h3⟩ := C101_weights p .ook false bi pnPre gray false (by decide) x hx [1] 0 (by simp)
    (by rw [if_neg (by decide)]; simp; omega) φ q hq
    ((List.range (q * (2 ^ p.value - 1) + 1)).map fun t : ℕ => x (t + φ))
    ((List.range (q * (2 ^ p.value - 1) + 1)).map fun t : ℕ => x (t + φ)) (by simp) rfl
    (fun t ht => by
      rw [List.length_map, List.length_range] at ht
      rw [map_range_getD _ _ _ _ ht, chanOut]
      simp)
    (fun t ht => by
      rw [List.length_map, List.length_range] at ht
      rw [map_range_getD _ _ _ _ ht]) preW postW tol _ ht rfl
  rw [h1]
  refine congrArg (fun v => Except.ok (some v)) ?_
  have c1 : cursor [1] 0 1 = 0 := rfl
  have c2 : cursor [1] 0 (-1) = 0 := rfl
  rw [c1, c2] at h2 h3
  obtain ⟨ρ, hρ⟩ : ∃ ρ, ρ = offPeak .ook false pnPre gray (2 ^ p.value - 1) / ((2 : ℝ) ^ p.value - 1) := ⟨_, rfl⟩
  have hpow : (127 : ℝ) ≤ 2 ^ p.value - 1 := by
    have : ((127 : ℕ) : ℝ) ≤ ((2 ^ p.value - 1 : ℕ) : ℝ) := by exact_mod_cast hN
    rwa [Nat.cast_sub Nat.one_le_two_pow, Nat.cast_pow, Nat.cast_ofNat, Nat.cast_one, Nat.cast_ofNat] at this
  have hρ5 : 1 / 5 ≤ ρ := by
    rw [hρ, le_div_iff₀ (by linarith)]
    have e : ((2 ^ p.value - 1 : ℕ) : ℝ) = 2 ^ p.value - 1 := by
      rw [Nat.cast_sub Nat.one_le_two_pow, Nat.cast_pow, Nat.cast_ofNat, Nat.cast_one]
    simp only [offPeak, unitScale, Bool.false_eq_true, if_false]
    rw [e]
    cases pnPre <;> simp <;> linarith
  rw [← hρ] at h2 h3
  simp only [mul_zero, sub_zero, zero_add, List.sum_cons, List.sum_nil, add_zero, mul_one] at h2 h3
  split_ifs with hlt
  · rw [abs_of_pos (by linarith)] at hw
    refine h2.2 ?_
    nlinarith
  · rw [abs_of_nonpos (by linarith)] at hw
    refine h3.2 ?_
    nlinarith

/-- C101: PRBS7, NRZ over one period with a postcursor of 1/2 and a precursor of 1/4; the precursor weighted with 3 turns the step around. -/
example (x : ℤ → ℝ) (hx : x = periodic (2 ^ PrbsEnum.prbs7.value - 1)
      (txLevel .nrz false false false false false (bitAt (getPolynomial .prbs7) (onesSeed .prbs7)))) :
    muellerMuller ((List.range 128).map fun t : ℕ => chanOut [1 / 4, 1, 1 / 2] 1 x t) ((List.range 128).map fun t : ℕ => x t)
      3 1 (1 / 1000) = .ok (some (-1)) := by
  obtain ⟨v, h1, -, -, -, h2⟩ := C101_weights .prbs7 .nrz false false false false false (by decide) x hx
    [1 / 4, 1, 1 / 2] 1 (by decide) (by decide) 0 1 one_pos ((List.range 128).map fun t : ℕ => chanOut [1 / 4, 1, 1 / 2] 1 x t)
    ((List.range 128).map fun t : ℕ => x t) (by rw [List.length_map, List.length_range]; decide) (by simp)
    (fun t ht => by
      rw [List.length_map, List.length_range] at ht
      rw [map_range_getD _ _ _ _ ht, add_zero])
    (fun t ht => by
      rw [List.length_map, List.length_range] at ht
      rw [map_range_getD _ _ _ _ ht, add_zero]) 3 1 (1 / 1000) _ (by norm_num) rfl
  rw [h1, h2.2]
  have a : cursor [1 / 4, 1, 1 / 2] 1 1 = 1 / 2 := rfl
  have b : cursor [1 / 4, 1, 1 / 2] 1 (-1) = 1 / 4 := rfl
  have v : PrbsEnum.prbs7.value = 7 := rfl
  rw [a, b, v]
  norm_num [levelVariance, unitScale, offPeak]

end Verif
