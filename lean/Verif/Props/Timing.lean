import Verif.Lemmas.Timing
import Verif.Props.Lms

/-! C101: what the Mueller-Muller detector measures on a PRBS. -/

open Finset

namespace Verif

open Spec (unitScale txLevel periodic chanOut cursor isiSum peakLevel levelVariance timingError echo echoSign)

/-- **C101.** For NRZ, OOK and PAM4, every supported PRBS, every FIR channel shorter than the period (than the echo of the
sequence for PAM4, see `Spec.echo`), received with errors of at most `δ` over `q` periods, `r` further symbols and one more: the timing error
of the detector is the difference of the first postcursor and the first precursor times the variance of the levels, up to the
`r` symbols beyond the whole periods and the errors. -/
theorem C101_estimate (p : PrbsEnum) (c : Constellation) (fs bi pnPre gray pnPost : Bool) (hc : c ≠ .pam3)
    (x : ℤ → ℝ)
    (hx : x = periodic (2 ^ p.value - 1) (txLevel c fs bi pnPre gray pnPost (bitAt (getPolynomial p) (onesSeed p))))
    (h : List ℝ) (pre : ℕ) (hp : pre < h.length)
    (hl : h.length < if c = .pam4 then echo p bi gray else 2 ^ p.value - 1) (φ : ℤ) (q r : ℕ) (hq : 0 < q)
    (s ref : List ℝ) (hsl : s.length = q * (2 ^ p.value - 1) + r + 1) (hrl : ref.length = s.length) (δ : ℝ)
    (hs : ∀ t : ℕ, t < s.length → |s.getD t 0 - chanOut h pre x (t + φ)| ≤ δ)
    (hr : ∀ t : ℕ, t < s.length → ref.getD t 0 = x (t + φ)) (w : ℝ) :
    |timingError ref.length (fun k => s.getD k 0) (fun k => ref.getD k 0) w w
        - w * (q * 2 ^ p.value / (q * (2 ^ p.value - 1 : ℕ) + r)
          * levelVariance c fs * (cursor h pre 1 - cursor h pre (-1)))|
      ≤ |w| * (r / (q * (2 ^ p.value - 1 : ℕ) + r) * (2 * peakLevel c fs ^ 2 * isiSum h pre) + 2 * peakLevel c fs * δ) := by
  obtain ⟨N, hN⟩ : ∃ N, N = 2 ^ p.value - 1 := ⟨_, rfl⟩
  have hNp := period_ge p
  have hpow : (2 : ℝ) ^ p.value = ((2 ^ p.value - 1 : ℕ) : ℝ) + 1 := by
    have : 1 ≤ 2 ^ p.value := Nat.one_le_two_pow
    rw [Nat.cast_sub this]; push_cast; ring
  have hhalf : 2 ^ p.value = 2 * 2 ^ (p.value - 1) := by
    rw [← Nat.pow_succ']; congr 1; have := value_pos p; omega
  have hlN : h.length < 2 ^ p.value - 1 := by
    have := (echo_half p bi gray).2
    split_ifs at hl <;> omega
  have hδ : 0 ≤ δ := (abs_nonneg _).trans (hs 0 (by omega))
  set rz := refZ p c fs bi pnPre gray pnPost with hrz
  set g := tapZ (2 ^ p.value - 1) h pre with hgd
  have hxz : ∀ t : ℤ, x t = rz (t : ZMod (2 ^ p.value - 1)) := fun t => by rw [hx]; exact refZ_int p c fs bi pnPre gray pnPost t
  have hco : ∀ t : ℤ, chanOut h pre x t = rxZ rz g (t : ZMod (2 ^ p.value - 1)) := fun t => chanOut_zmod h pre x rz hxz t
  have hX : ∀ z, |rz z| ≤ peakLevel c fs := refZ_abs p fs bi pnPre gray pnPost c
  have hX0 : 0 ≤ peakLevel c fs := (abs_nonneg _).trans (hX 0)
  obtain ⟨A, B, hAB, hlag⟩ := ref_lag p fs bi pnPre gray pnPost c hc
  -- the lags in use are flat
  have hlag' : ∀ r, g r ≠ 0 → ∀ j : ℤ, (j = 1 ∨ j = -1) →
      ∑ z, rz z * rz (z + (r + (j : ZMod (2 ^ p.value - 1)))) = if r + (j : ZMod (2 ^ p.value - 1)) = 0 then A else B := by
    intro r hgr j hj
    refine hlag _ fun hc4 => ?_
    obtain ⟨k, hk, rfl⟩ : ∃ k < h.length, (pre : ZMod (2 ^ p.value - 1)) - k = r := by
      by_contra hne
      push Not at hne
      exact hgr (tapZ_else h pre r hne)
    rw [if_pos hc4] at hl
    have := echo_far p bi gray ((pre : ℤ) - k + j) (by
      rw [abs_lt]
      rcases hj with rfl | rfl <;> constructor <;> omega)
    push_cast at this
    exact this
  have hflat : ∑ z, mmZ rz g z = (A - B) * (cursor h pre 1 - cursor h pre (-1)) := by
    have hcur := cursor_tapZ (N := 2 ^ p.value - 1) h pre hlN hp
    rw [← hcur.1, ← hcur.2]
    refine mmZ_flat rz g A B (fun r hr => ?_) (fun r hr => ?_)
    · have := hlag' r hr 1 (Or.inl rfl)
      rwa [Int.cast_one] at this
    · have := hlag' r hr (-1) (Or.inr rfl)
      rwa [Int.cast_neg, Int.cast_one, ← sub_eq_add_neg] at this
  have hmm : ∀ z, |mmZ rz g z| ≤ 2 * peakLevel c fs ^ 2 * isiSum h pre := fun z =>
    (mmZ_abs rz g _ hX z).trans (mul_le_mul_of_nonneg_left (isi_tapZ h pre hlN.le hp) (by positivity))
  have hper := sum_periods_rest (mmZ rz g) (φ : ZMod (2 ^ p.value - 1)) q r _ hmm
  -- the timing error as one sum
  set M : ℕ := q * (2 ^ p.value - 1) + r with hM
  have hM0 : 0 < M := by
    have : 0 < q * (2 ^ p.value - 1) := Nat.mul_pos hq (by omega)
    omega
  have hMr : (0 : ℝ) < M := by exact_mod_cast hM0
  have hMc : (M : ℝ) = q * (2 ^ p.value - 1 : ℕ) + r := by rw [hM]; push_cast; ring
  have hte : timingError ref.length (fun k => s.getD k 0) (fun k => ref.getD k 0) w w
      = w * ((∑ k ∈ range M, (ref.getD k 0 * s.getD (k + 1) 0 - ref.getD (k + 1) 0 * s.getD k 0)) / M) := by
    rw [timingError, hrl, hsl, Nat.add_sub_cancel, sum_sub_distrib]
    push_cast
    rw [add_sub_cancel_right, hMc]
    ring
  have hdiff : |∑ k ∈ range M, (ref.getD k 0 * s.getD (k + 1) 0 - ref.getD (k + 1) 0 * s.getD k 0)
      - ∑ t ∈ range M, mmZ rz g ((t : ZMod (2 ^ p.value - 1)) + (φ : ZMod (2 ^ p.value - 1)))|
        ≤ M * (2 * peakLevel c fs * δ) := by
    rw [← sum_sub_distrib]
    refine (abs_sum_le_sum_abs _ _).trans ((sum_le_sum (g := fun _ => 2 * peakLevel c fs * δ) fun k hk => ?_).trans ?_)
    · rw [mem_range] at hk
      have a1 := hs k (by omega)
      have a2 := hs (k + 1) (by omega)
      have b1 := hr k (by omega)
      have b2 := hr (k + 1) (by omega)
      rw [hxz] at b1 b2
      rw [hco] at a1 a2
      have c2 : ((((k + 1 : ℕ) : ℤ) + φ : ℤ) : ZMod (2 ^ p.value - 1)) = (k : ZMod (2 ^ p.value - 1)) + φ + 1 := by
        push_cast; ring
      have c1 : ((((k : ℕ) : ℤ) + φ : ℤ) : ZMod (2 ^ p.value - 1)) = (k : ZMod (2 ^ p.value - 1)) + φ := by
        push_cast; ring
      rw [c1] at a1 b1
      rw [c2] at a2 b2
      rw [mmZ, b1, b2]
      generalize (k : ZMod (2 ^ p.value - 1)) + φ = z at *
      have e : rz z * s.getD (k + 1) 0 - rz (z + 1) * s.getD k 0 - (rz z * rxZ rz g (z + 1) - rz (z + 1) * rxZ rz g z)
          = rz z * (s.getD (k + 1) 0 - rxZ rz g (z + 1)) - rz (z + 1) * (s.getD k 0 - rxZ rz g z) := by ring
      rw [e]
      have t1 : |rz z * (s.getD (k + 1) 0 - rxZ rz g (z + 1))| ≤ peakLevel c fs * δ := by
        rw [abs_mul]; exact mul_le_mul (hX _) a2 (abs_nonneg _) hX0
      have t2 : |rz (z + 1) * (s.getD k 0 - rxZ rz g z)| ≤ peakLevel c fs * δ := by
        rw [abs_mul]; exact mul_le_mul (hX _) a1 (abs_nonneg _) hX0
      have := abs_sub (rz z * (s.getD (k + 1) 0 - rxZ rz g (z + 1))) (rz (z + 1) * (s.getD k 0 - rxZ rz g z))
      linarith
    · rw [sum_const, card_range, nsmul_eq_mul]
  rw [hte, ← mul_sub, abs_mul]
  refine mul_le_mul_of_nonneg_left ?_ (abs_nonneg _)
  rw [hflat, hAB] at hper
  rw [← hMc]
  generalize ∑ k ∈ range M, (ref.getD k 0 * s.getD (k + 1) 0 - ref.getD (k + 1) 0 * s.getD k 0) = S at *
  generalize ∑ t ∈ range M, mmZ rz g ((t : ZMod (2 ^ p.value - 1)) + (φ : ZMod (2 ^ p.value - 1))) = T at *
  have e : S / M - q * 2 ^ p.value / M * levelVariance c fs * (cursor h pre 1 - cursor h pre (-1))
      = (S - T + (T - q * (levelVariance c fs * (((2 ^ p.value - 1 : ℕ) : ℝ) + 1) * (cursor h pre 1 - cursor h pre (-1))))) / M := by
    rw [hpow]; field_simp; ring
  rw [e, abs_div, abs_of_pos hMr, div_le_iff₀ hMr]
  refine (abs_add_le _ _).trans ?_
  have e2 : (r / M * (2 * peakLevel c fs ^ 2 * isiSum h pre) + 2 * peakLevel c fs * δ) * M
      = M * (2 * peakLevel c fs * δ) + r * (2 * peakLevel c fs ^ 2 * isiSum h pre) := by field_simp; ring
  rw [e2]
  exact add_le_add hdiff hper

/-- **C101.** Over whole periods without errors the detector decides exactly: with equal weights `w` the step is 0 if the
difference of the cursors, times the contrast of the reference, is below the tolerance, otherwise the sign of the difference. -/
theorem C101_exact (p : PrbsEnum) (c : Constellation) (fs bi pnPre gray pnPost : Bool) (hc : c ≠ .pam3)
    (x : ℤ → ℝ)
    (hx : x = periodic (2 ^ p.value - 1) (txLevel c fs bi pnPre gray pnPost (bitAt (getPolynomial p) (onesSeed p))))
    (h : List ℝ) (pre : ℕ) (hp : pre < h.length)
    (hl : h.length < if c = .pam4 then echo p bi gray else 2 ^ p.value - 1) (φ : ℤ) (q : ℕ) (hq : 0 < q)
    (s ref : List ℝ) (hsl : s.length = q * (2 ^ p.value - 1) + 1) (hrl : ref.length = s.length)
    (hs : ∀ t : ℕ, t < s.length → s.getD t 0 = chanOut h pre x (t + φ))
    (hr : ∀ t : ℕ, t < s.length → ref.getD t 0 = x (t + φ)) (w tol : ℝ) (ht : 0 < tol) :
    ∃ v : ℤ, muellerMuller s ref w w tol = .ok (some v) ∧ (v = 0 ∨ v = 1 ∨ v = -1) ∧
      (v = 0 ↔ |w * (2 ^ p.value / (2 ^ p.value - 1) * levelVariance c fs * (cursor h pre 1 - cursor h pre (-1)))| < tol) ∧
      (v = 1 ↔ tol ≤ w * (2 ^ p.value / (2 ^ p.value - 1) * levelVariance c fs * (cursor h pre 1 - cursor h pre (-1)))) ∧
      (v = -1 ↔ w * (2 ^ p.value / (2 ^ p.value - 1) * levelVariance c fs * (cursor h pre 1 - cursor h pre (-1))) ≤ -tol) := by
  have h0 := C101_estimate p c fs bi pnPre gray pnPost hc x hx h pre hp hl φ q 0 hq s ref (by omega) hrl 0
    (fun t ht => by rw [hs t ht, sub_self, abs_zero]) hr w
  have hN := period_ge p
  have hpow : (2 : ℝ) ^ p.value - 1 = ((2 ^ p.value - 1 : ℕ) : ℝ) := by
    rw [Nat.cast_sub Nat.one_le_two_pow]; push_cast; ring
  have hNr : (0 : ℝ) < ((2 ^ p.value - 1 : ℕ) : ℝ) := by exact_mod_cast (by omega : 0 < 2 ^ p.value - 1)
  have hqr : (0 : ℝ) < q := by exact_mod_cast hq
  simp only [Nat.cast_zero, zero_div, zero_mul, mul_zero, add_zero, abs_nonpos_iff, sub_eq_zero] at h0
  have e : (q : ℝ) * 2 ^ p.value / (q * ((2 ^ p.value - 1 : ℕ) : ℝ)) = 2 ^ p.value / (2 ^ p.value - 1) := by
    rw [hpow, mul_div_mul_left _ _ hqr.ne']
  rw [e] at h0
  have h2 := C55_sign s ref w w tol hrl.symm (by
    have : 1 ≤ q * (2 ^ p.value - 1) := Nat.mul_pos hq (by omega)
    omega) ht
  rw [h0] at h2
  exact h2

/-- C101: PRBS7 over one period, NRZ, with a postcursor of 1/2 and a precursor of 1/4: the step is +1. -/
example (x : ℤ → ℝ) (hx : x = periodic (2 ^ PrbsEnum.prbs7.value - 1)
      (txLevel .nrz false false false false false (bitAt (getPolynomial .prbs7) (onesSeed .prbs7)))) :
    muellerMuller ((List.range 128).map fun t : ℕ => chanOut [1 / 4, 1, 1 / 2] 1 x t) ((List.range 128).map fun t : ℕ => x t)
      1 1 (1 / 1000) = .ok (some 1) := by
  obtain ⟨v, h1, -, -, h2, -⟩ := C101_exact .prbs7 .nrz false false false false false (by decide) x hx
    [1 / 4, 1, 1 / 2] 1 (by decide) (by decide) 0 1 one_pos ((List.range 128).map fun t : ℕ => chanOut [1 / 4, 1, 1 / 2] 1 x t)
    ((List.range 128).map fun t : ℕ => x t) (by rw [List.length_map, List.length_range]; decide) (by simp)
    (fun t ht => by
      rw [List.length_map, List.length_range] at ht
      rw [map_range_getD _ _ _ _ ht, add_zero])
    (fun t ht => by
      rw [List.length_map, List.length_range] at ht
      rw [map_range_getD _ _ _ _ ht, add_zero]) 1 (1 / 1000) (by norm_num)
  rw [h1, h2.2]
  have a : cursor [1 / 4, 1, 1 / 2] 1 1 = 1 / 2 := rfl
  have b : cursor [1 / 4, 1, 1 / 2] 1 (-1) = 1 / 4 := rfl
  have v : PrbsEnum.prbs7.value = 7 := rfl
  rw [a, b, v]
  norm_num [levelVariance, unitScale]

/-- **C101.** Any record: the step points to the larger cursor as soon as the difference, times the contrast, exceeds the
tolerance by the share of the symbols beyond the whole periods and the errors of the samples. -/
theorem C101_direction (p : PrbsEnum) (c : Constellation) (fs bi pnPre gray pnPost : Bool) (hc : c ≠ .pam3)
    (x : ℤ → ℝ)
    (hx : x = periodic (2 ^ p.value - 1) (txLevel c fs bi pnPre gray pnPost (bitAt (getPolynomial p) (onesSeed p))))
    (h : List ℝ) (pre : ℕ) (hp : pre < h.length)
    (hl : h.length < if c = .pam4 then echo p bi gray else 2 ^ p.value - 1) (φ : ℤ) (q r : ℕ) (hq : 0 < q)
    (s ref : List ℝ) (hsl : s.length = q * (2 ^ p.value - 1) + r + 1) (hrl : ref.length = s.length) (δ : ℝ)
    (hs : ∀ t : ℕ, t < s.length → |s.getD t 0 - chanOut h pre x (t + φ)| ≤ δ)
    (hr : ∀ t : ℕ, t < s.length → ref.getD t 0 = x (t + φ)) (tol : ℝ) (ht : 0 < tol)
    (hbig : tol + (r / (q * (2 ^ p.value - 1 : ℕ) + r) * (2 * peakLevel c fs ^ 2 * isiSum h pre) + 2 * peakLevel c fs * δ)
      ≤ q * 2 ^ p.value / (q * (2 ^ p.value - 1 : ℕ) + r) * levelVariance c fs * |cursor h pre 1 - cursor h pre (-1)|) :
    muellerMuller s ref 1 1 tol = .ok (some (if cursor h pre (-1) < cursor h pre 1 then 1 else -1)) := by
  have h0 := C101_estimate p c fs bi pnPre gray pnPost hc x hx h pre hp hl φ q r hq s ref hsl hrl δ hs hr 1
  rw [abs_one, one_mul, one_mul] at h0
  have hN := period_ge p
  obtain ⟨v, h1, -, -, h2, h3⟩ := C55_sign s ref 1 1 tol hrl.symm (by
    have : 1 ≤ q * (2 ^ p.value - 1) := Nat.mul_pos hq (by omega)
    omega) ht
  rw [h1]
  refine congrArg (fun v => Except.ok (some v)) ?_
  have h4 := abs_le.1 h0
  generalize timingError ref.length (fun k => s.getD k 0) (fun k => ref.getD k 0) 1 1 = T at *
  split_ifs with hcur
  · rw [abs_of_pos (by linarith)] at hbig
    exact h2.2 (by linarith [h4.1])
  · rw [abs_of_nonpos (by linarith)] at hbig
    exact h3.2 (by linarith [h4.2])

/-- C101: 160 samples of PRBS7 quantized with an error of up to 1/256: a postcursor of 1/2 alone gives +1. -/
example (x : ℤ → ℝ) (hx : x = periodic (2 ^ PrbsEnum.prbs7.value - 1)
      (txLevel .nrz false false false false false (bitAt (getPolynomial .prbs7) (onesSeed .prbs7)))) (s : List ℝ)
    (hsl : s.length = 160) (hs : ∀ t : ℕ, t < s.length → |s.getD t 0 - chanOut [1, 1 / 2] 0 x (t + 5)| ≤ 1 / 256) :
    muellerMuller s ((List.range 160).map fun t : ℕ => x (t + 5)) 1 1 (1 / 1000) = .ok (some 1) := by
  have a : cursor [1, 1 / 2] 0 1 = 1 / 2 := rfl
  have b : cursor [1, 1 / 2] 0 (-1) = 0 := rfl
  have v : PrbsEnum.prbs7.value = 7 := rfl
  have hi : isiSum [1, 1 / 2] 0 = 1 / 2 := by
    have : (range ([1, 1 / 2] : List ℝ).length).erase 0 = {1} := by decide
    rw [isiSum, this, sum_singleton]
    norm_num
  have := C101_direction .prbs7 .nrz false false false false false (by decide) x hx
    [1, 1 / 2] 0 (by decide) (by decide) 5 1 32 one_pos s ((List.range 160).map fun t : ℕ => x (t + 5))
    (by rw [hsl]; decide) (by simp [hsl]) (1 / 256) hs
    (fun t ht => by rw [map_range_getD _ _ _ _ (by omega)]) (1 / 1000) (by norm_num) (by
      have pk : peakLevel .nrz false = 1 := by rw [peakLevel, if_neg (by decide)]; norm_num [unitScale]
      rw [a, b, v, hi, pk]
      norm_num [levelVariance, unitScale])
  rwa [a, b, if_pos (by norm_num)] at this

/-- **C101, disagreement.** The documented tolerance applies to the amplitudes only after scaling with the variance of the
levels: for PAM4 without full scale cursors that are equal up to the tolerance still give a step, for OOK a difference of twice
the tolerance gives none. -/
theorem C101_negative_tolerance (p : PrbsEnum) (tol : ℝ) (ht : 0 < tol) :
    (∀ x : ℤ → ℝ, x = periodic (2 ^ p.value - 1) (txLevel .pam4 false false false false false
        (bitAt (getPolynomial p) (onesSeed p))) →
      muellerMuller ((List.range (2 ^ p.value)).map fun t : ℕ => chanOut [1, tol / 2] 0 x t)
        ((List.range (2 ^ p.value)).map fun t : ℕ => x t) 1 1 tol = .ok (some 1)) ∧
    (∀ x : ℤ → ℝ, x = periodic (2 ^ p.value - 1) (txLevel .ook false false false false false
        (bitAt (getPolynomial p) (onesSeed p))) →
      muellerMuller ((List.range (2 ^ p.value)).map fun t : ℕ => chanOut [1, 2 * tol] 0 x t)
        ((List.range (2 ^ p.value)).map fun t : ℕ => x t) 1 1 tol = .ok (some 0)) := by
  have hN := period_ge p
  have hlen : 2 ^ p.value = 1 * (2 ^ p.value - 1) + 1 := by omega
  have hhalf : 2 ^ p.value = 2 * 2 ^ (p.value - 1) := by
    rw [← Nat.pow_succ']; congr 1; have := value_pos p; omega
  have hpow : (128 : ℝ) ≤ 2 ^ p.value := by
    have : 128 ≤ 2 ^ p.value := by omega
    exact_mod_cast this
  have hgt : (1 : ℝ) ≤ 2 ^ p.value / (2 ^ p.value - 1) := by rw [le_div_iff₀ (by linarith)]; linarith
  have hlt : (2 : ℝ) ^ p.value / (2 ^ p.value - 1) < 2 := by rw [div_lt_iff₀ (by linarith)]; linarith
  constructor
  · intro x hx
    obtain ⟨v, h1, -, -, h2, -⟩ := C101_exact p .pam4 false false false false false (by decide) x hx
      [1, tol / 2] 0 (by simp) (by
        rw [if_pos rfl]
        show 2 < 2 ^ (p.value - 1) - 1
        omega) 0 1 one_pos
      ((List.range (2 ^ p.value)).map fun t : ℕ => chanOut [1, tol / 2] 0 x t)
      ((List.range (2 ^ p.value)).map fun t : ℕ => x t) (by rw [List.length_map, List.length_range]; exact hlen) (by simp)
      (fun t ht => by
        rw [List.length_map, List.length_range] at ht
        rw [map_range_getD _ _ _ _ ht, add_zero])
      (fun t ht => by
        rw [List.length_map, List.length_range] at ht
        rw [map_range_getD _ _ _ _ ht, add_zero]) 1 tol ht
    rw [h1, h2.2]
    have a : cursor [1, tol / 2] 0 1 = tol / 2 := rfl
    have b : cursor [1, tol / 2] 0 (-1) = 0 := rfl
    have d : levelVariance .pam4 false = 5 := by norm_num [levelVariance, unitScale]
    rw [a, b, d]
    nlinarith
  · intro x hx
    obtain ⟨v, h1, -, h2, -, -⟩ := C101_exact p .ook false false false false false (by decide) x hx
      [1, 2 * tol] 0 (by simp) (by rw [if_neg (by decide)]; simp; omega) 0 1 one_pos
      ((List.range (2 ^ p.value)).map fun t : ℕ => chanOut [1, 2 * tol] 0 x t)
      ((List.range (2 ^ p.value)).map fun t : ℕ => x t) (by rw [List.length_map, List.length_range]; exact hlen) (by simp)
      (fun t ht => by
        rw [List.length_map, List.length_range] at ht
        rw [map_range_getD _ _ _ _ ht, add_zero])
      (fun t ht => by
        rw [List.length_map, List.length_range] at ht
        rw [map_range_getD _ _ _ _ ht, add_zero]) 1 tol ht
    rw [h1, h2.2]
    have a : cursor [1, 2 * tol] 0 1 = 2 * tol := rfl
    have b : cursor [1, 2 * tol] 0 (-1) = 0 := rfl
    have d : levelVariance .ook false = 1 / 4 := by norm_num [levelVariance, unitScale]
    have h0 : 0 < 1 * ((2 : ℝ) ^ p.value / (2 ^ p.value - 1) * (1 / 4) * (2 * tol - 0)) := by
      rw [sub_zero]
      have : (0 : ℝ) < 2 ^ p.value / (2 ^ p.value - 1) := by linarith
      positivity
    rw [a, b, d, abs_of_pos h0]
    nlinarith

/-- C101: with a tolerance of 1/1000 a postcursor of 1/2000 moves the phase for PAM4, one of 2/1000 does not for OOK -/
example (x : ℤ → ℝ) (hx : x = periodic 127 (txLevel .pam4 false false false false false
      (bitAt (getPolynomial .prbs7) (onesSeed .prbs7)))) :
    muellerMuller ((List.range 128).map fun t : ℕ => chanOut [1, 1 / 1000 / 2] 0 x t)
      ((List.range 128).map fun t : ℕ => x t) 1 1 (1 / 1000) = .ok (some 1) :=
  (C101_negative_tolerance .prbs7 (1 / 1000) (by norm_num)).1 x hx

/-- **C101, disagreement.** The length allowed for PAM4 is sharp: a single reflection one symbol before the echo of the sequence,
far from both neighbours, is taken for a precursor (a postcursor for Gray coded inverted bits). -/
theorem C101_negative_echo (p : PrbsEnum) (bi pnPre gray : Bool) (e tol : ℝ) (ht : 0 < tol) (he : tol ≤ 2 * e) (x : ℤ → ℝ)
    (hx : x = periodic (2 ^ p.value - 1) (txLevel .pam4 false bi pnPre gray false
      (bitAt (getPolynomial p) (onesSeed p)))) (h : List ℝ) (hh : h = 1 :: (List.replicate (echo p bi gray - 2) 0 ++ [e])) :
    cursor h 0 1 = 0 ∧ cursor h 0 (-1) = 0 ∧
      muellerMuller ((List.range (2 ^ p.value)).map fun t : ℕ => chanOut h 0 x t)
        ((List.range (2 ^ p.value)).map fun t : ℕ => x t) 1 1 tol = .ok (some (if gray && pnPre then 1 else -1)) := by
  have hN := period_ge p
  have h3 := echo_three p bi gray
  have hE2 := (echo_half p bi gray).2
  obtain ⟨m, hm⟩ : ∃ m, m = echo p bi gray - 3 := ⟨_, rfl⟩
  have hEm : echo p bi gray = m + 3 := by omega
  rw [hEm, show m + 3 - 2 = m + 1 by omega] at hh
  have hpow : (2 : ℝ) ^ p.value = ((2 ^ p.value - 1 : ℕ) : ℝ) + 1 := by
    rw [Nat.cast_sub Nat.one_le_two_pow]; push_cast; ring
  have hg : ∀ k, h.getD k 0 = if k = 0 then 1 else if k = m + 2 then e else 0 := by
    intro k
    rw [hh]
    rcases k with _ | k
    · simp
    · rw [if_neg (by omega), List.getD_cons_succ]
      by_cases hk : k < m + 1
      · rw [if_neg (by omega), List.getD_append _ _ _ _ (by simpa using hk), replicate_getD]
      · rw [List.getD_append_right _ _ _ _ (by simp; omega), List.length_replicate]
        by_cases h1 : k = m + 1
        · subst h1; simp
        · rw [if_neg (by omega), getD_of_le _ _ (by simp; omega)]
  have hlen : h.length = m + 3 := by rw [hh]; simp
  refine ⟨?_, ?_, ?_⟩
  · rw [cursor, if_pos (by omega), hg]
    rw [if_neg (by omega), if_neg (by omega)]
  · rw [cursor, if_neg (by omega)]
  set rz := refZ p .pam4 false bi pnPre gray false with hrz
  set g := tapZ (2 ^ p.value - 1) h 0 with hgd
  have hxz : ∀ t : ℤ, x t = rz (t : ZMod (2 ^ p.value - 1)) := fun t => by
    rw [hx]; exact refZ_int p .pam4 false bi pnPre gray false t
  have hco : ∀ t : ℤ, chanOut h 0 x t = rxZ rz g (t : ZMod (2 ^ p.value - 1)) := fun t => chanOut_zmod h 0 x rz hxz t
  have hlag := refZ_four_corr p false bi pnPre gray false
  rw [← hrz] at hlag
  have hu1 : unitScale .pam4 false = 1 := by norm_num [unitScale]
  rw [hu1] at hlag
  have far := echo_far p bi gray
  have ne0 : ∀ i : ℤ, i ≠ 0 → |i| < 2 ^ p.value - 1 → (i : ZMod (2 ^ p.value - 1)) ≠ 0 := by
    intro i hi ha h
    rw [ZMod.intCast_zmod_eq_zero_iff_dvd] at h
    exact hi (Int.eq_zero_of_abs_lt_dvd h (by push_cast [Nat.cast_sub (show 1 ≤ 2 ^ p.value from Nat.one_le_two_pow)]; exact ha))
  have hNz : ((2 ^ p.value - 1 : ℕ) : ℤ) = 2 ^ p.value - 1 := by
    push_cast [Nat.cast_sub (show 1 ≤ 2 ^ p.value from Nat.one_le_two_pow)]; rfl
  have flat : ∀ i : ℤ, i ≠ 0 → |i| < echo p bi gray →
      ∑ z, rz z * rz (z + (i : ZMod (2 ^ p.value - 1))) = -(5 + 4 * echoSign pnPre gray) := by
    intro i hi ha
    rw [hlag, if_neg (far i ha).1, if_neg (far i ha).2, if_neg (ne0 i hi (by rw [← hNz]; omega))]
    ring
  have hsum : ∑ z, mmZ rz g z = -(2 * echoSign pnPre gray * e * 2 ^ p.value) := by
    rw [mmZ_sum, tapZ_sum h 0 (fun r => ∑ z, rz z * rz (z + (r + 1)) - ∑ z, rz z * rz (z + (r - 1))), hlen,
      sum_range_succ, sum_range_succ']
    rw [sum_eq_zero (fun k hk => by
      rw [hg, if_neg (by omega), if_neg (by have := mem_range.1 hk; omega), zero_mul])]
    rw [hg, hg, if_pos rfl, if_neg (by omega), if_pos rfl, Nat.cast_zero]
    have l1 : ∑ z, rz z * rz (z + (0 - 0 + 1)) = -(5 + 4 * echoSign pnPre gray) := by
      have := flat 1 one_ne_zero (by rw [abs_one]; omega)
      rw [Int.cast_one] at this
      rwa [sub_zero, zero_add]
    have l2 : ∑ z, rz z * rz (z + (0 - 0 - 1)) = -(5 + 4 * echoSign pnPre gray) := by
      have := flat (-1) (by decide) (by rw [abs_neg, abs_one]; omega)
      rw [Int.cast_neg, Int.cast_one] at this
      rwa [sub_zero, zero_sub]
    have l3 : ∑ z, rz z * rz (z + (0 - ((m + 2 : ℕ) : ZMod (2 ^ p.value - 1)) + 1)) = -(5 + 4 * echoSign pnPre gray) := by
      have := flat (-(m + 1 : ℕ)) (by omega) (by rw [abs_neg, abs_of_nonneg (by omega)]; omega)
      have hc : ((-(m + 1 : ℕ) : ℤ) : ZMod (2 ^ p.value - 1)) = 0 - ((m + 2 : ℕ) : ZMod (2 ^ p.value - 1)) + 1 := by
        push_cast; ring
      rwa [hc] at this
    have l4 : ∑ z, rz z * rz (z + (0 - ((m + 2 : ℕ) : ZMod (2 ^ p.value - 1)) - 1))
        = 2 * echoSign pnPre gray * 2 ^ p.value - (5 + 4 * echoSign pnPre gray) := by
      have hc : 0 - ((m + 2 : ℕ) : ZMod (2 ^ p.value - 1)) - 1 = -((echo p bi gray : ℕ) : ZMod (2 ^ p.value - 1)) := by
        rw [hEm]; push_cast; ring
      have n1 := ne0 (-(echo p bi gray : ℤ)) (by omega) (by rw [abs_neg, abs_of_nonneg (by omega), ← hNz]; omega)
      have n2 := ne0 (2 * (echo p bi gray : ℤ)) (by omega) (by rw [abs_of_nonneg (by omega), ← hNz]; omega)
      push_cast at n1 n2
      rw [hc, hlag, if_neg n1, if_neg, if_pos rfl, hpow]
      · ring
      · intro h; apply n2; linear_combination -h
    rw [l1, l2, l3, l4]
    ring
  have hT : timingError ((List.range (2 ^ p.value)).map fun t : ℕ => x t).length
      (fun k => ((List.range (2 ^ p.value)).map fun t : ℕ => chanOut h 0 x t).getD k 0)
      (fun k => ((List.range (2 ^ p.value)).map fun t : ℕ => x t).getD k 0) 1 1
        = -(2 * echoSign pnPre gray * e * 2 ^ p.value) / (2 ^ p.value - 1) := by
    rw [timingError, List.length_map, List.length_range, ← hsum, one_mul, one_mul, ← sub_div, ← sum_sub_distrib,
      ← zmod_sum_cast]
    congr 1
    · refine sum_congr rfl fun k hk => ?_
      rw [mem_range] at hk
      rw [map_range_getD _ _ _ _ (by omega), map_range_getD _ _ _ _ (by omega), map_range_getD _ _ _ _ (by omega),
        map_range_getD _ _ _ _ (by omega), hco, hco, hxz, hxz, mmZ]
      push_cast
      rfl
    · push_cast; rfl
  obtain ⟨v, h1, -, -, h2, h3⟩ := C55_sign ((List.range (2 ^ p.value)).map fun t : ℕ => chanOut h 0 x t)
    ((List.range (2 ^ p.value)).map fun t : ℕ => x t) 1 1 tol (by simp) (by rw [List.length_map, List.length_range]; omega) ht
  rw [h1]
  have hNr : (127 : ℝ) ≤ ((2 ^ p.value - 1 : ℕ) : ℝ) := by exact_mod_cast hN
  rw [hT, hpow, add_sub_cancel_right] at h2 h3
  generalize ((2 ^ p.value - 1 : ℕ) : ℝ) = n at *
  have hle : tol * n ≤ 2 * e * (n + 1) := by nlinarith
  cases hgp : gray && pnPre with
  | true =>
    have hs : echoSign pnPre gray = -1 := by rw [echoSign, hgp, if_pos rfl]
    rw [hs, le_div_iff₀ (by linarith)] at h2
    rw [h2.2 (by linarith)]
    rfl
  | false =>
    have hs : echoSign pnPre gray = 1 := by rw [echoSign, hgp]; rfl
    rw [hs, div_le_iff₀ (by linarith)] at h3
    rw [h3.2 (by linarith)]
    rfl

/-- C101: for PRBS7 without Gray coding a reflection of 1/10 after 62 symbols makes the phase step back; with Gray coding two
symbols suffice. -/
example :
    (∀ x : ℤ → ℝ, x = periodic 127 (txLevel .pam4 false false false false false (bitAt (getPolynomial .prbs7) (onesSeed .prbs7))) →
      muellerMuller ((List.range 128).map fun t : ℕ => chanOut (1 :: (List.replicate 61 0 ++ [1 / 10])) 0 x t)
        ((List.range 128).map fun t : ℕ => x t) 1 1 (1 / 1000) = .ok (some (-1))) ∧
    (∀ x : ℤ → ℝ, x = periodic 127 (txLevel .pam4 false false false true false (bitAt (getPolynomial .prbs7) (onesSeed .prbs7))) →
      muellerMuller ((List.range 128).map fun t : ℕ => chanOut [1, 0, 1 / 10] 0 x t)
        ((List.range 128).map fun t : ℕ => x t) 1 1 (1 / 1000) = .ok (some (-1))) :=
  ⟨fun x hx => (C101_negative_echo .prbs7 false false false (1 / 10) (1 / 1000) (by norm_num) (by norm_num) x hx _ rfl).2.2,
   fun x hx => (C101_negative_echo .prbs7 false false true (1 / 10) (1 / 1000) (by norm_num) (by norm_num) x hx _ rfl).2.2⟩

end Verif
