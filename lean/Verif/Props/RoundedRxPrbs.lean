import Verif.Props.RoundedRx
import Verif.Props.RxNoise

/-!
# Pattern lock and timing detector on a PRBS in floating-point arithmetic (C118)
-/

open Finset

namespace Verif
open Spec

/-- the phase found by the lock against the phase of the record -/
theorem lock_phase (cor : List ℝ → List ℝ → List ℝ) (pat sig : List ℝ) (hp : pat ≠ []) (hlen : pat.length ≤ sig.length) (φ : ℕ)
    (g c δ : ℝ) (hcor : CorrelatesWithin cor δ (pat ++ pat) (sig.take pat.length)) :
    ∃ s xc, lockPatternWith cor pat sig = .ok (pat.rotate s, xc) ∧
      g / 2 * phaseDistance pat φ s + ∑ i ∈ range pat.length,
        (pat.getD ((φ + i) % pat.length) 0 - pat.getD ((s + i) % pat.length) 0)
          * (sig.getD i 0 - (g * pat.getD ((φ + i) % pat.length) 0 + c)) ≤ 2 * δ := by
  have hp0 : 0 < pat.length := List.length_pos_iff.2 hp
  have ht : tile pat 2 = pat ++ pat := by simp [tile]
  unfold lockPatternWith
  rw [if_neg (by omega)]
  simp only [Nat.min_eq_left hlen]
  have hvl : (sig.take pat.length).length = pat.length := by simp [hlen]
  obtain ⟨hc1, hc2⟩ := hcor
  rw [← ht] at hc1 hc2
  rw [hvl, tile_length] at hc1 hc2
  have hP : 2 * pat.length - pat.length = pat.length := by omega
  rw [hP] at hc1 hc2
  generalize hx : cor (tile pat 2) (sig.take pat.length) = xc at *
  have hxne : xc ≠ [] := List.ne_nil_of_length_pos (by omega)
  have hs := argmax_lt xc hxne
  have hmax : ∀ y ∈ xc, y ≤ xc.getD (argmax xc) 0 := by
    intro y hy
    rw [List.getD_eq_getElem _ _ hs]
    exact argmax_spec xc hxne y hy
  generalize argmax xc = s at *
  -- periodic extension of the pattern
  obtain ⟨q, hq⟩ : ∃ q : ℕ → ℝ, q = fun i => pat.getD (i % pat.length) 0 := ⟨_, rfl⟩
  have hqp : ∀ i, q (i + pat.length) = q i := by intro i; simp [hq]
  obtain ⟨e, he⟩ : ∃ e : ℕ → ℝ, e = fun i => sig.getD i 0 - (g * q (φ + i) + c) := ⟨_, rfl⟩
  have hcorr : ∀ k ≤ pat.length, |xc.getD k 0 - ∑ i ∈ Finset.range pat.length, q (k + i) * (g * q (φ + i) + c + e i)| ≤ δ := by
    intro k hk
    have := hc2 k hk
    rw [show ∑ i ∈ Finset.range pat.length, q (k + i) * (g * q (φ + i) + c + e i)
        = ∑ l ∈ Finset.range pat.length, (tile pat 2).getD (k + l) 0 * (sig.take pat.length).getD l 0 by
      apply Finset.sum_congr rfl
      intro i hi
      rw [Finset.mem_range] at hi
      rw [tile2_getD _ _ (by omega), he, hq]
      have : (sig.take pat.length).getD i 0 = sig.getD i 0 := by
        apply getD_eq_of_getElem?
        rw [List.getElem?_take, if_pos hi]
      rw [this]
      ring]
    exact this
  have hle : xc.getD (φ % pat.length) 0 ≤ xc.getD s 0 := by
    have h1 : φ % pat.length < xc.length := by have := Nat.mod_lt φ hp0; omega
    rw [List.getD_eq_getElem _ _ h1]
    exact hmax _ (List.getElem_mem _)
  have hsum : ∀ k, ∑ i ∈ Finset.range pat.length, q (k + i) = ∑ i ∈ Finset.range pat.length, q i :=
    fun k => sum_shift_period q pat.length hqp k
  have hsq : ∀ k, ∑ i ∈ Finset.range pat.length, q (k + i) * q (k + i)
      = ∑ i ∈ Finset.range pat.length, q i * q i := fun k =>
    sum_shift_period (fun i => q i * q i) pat.length (fun i => by simp only [hqp]) k
  have hqm : ∀ i, q (φ % pat.length + i) = q (φ + i) := by
    intro i
    simp only [hq]
    rw [Nat.mod_add_mod]
  -- the differences
  obtain ⟨D, hD⟩ : ∃ D : ℕ → ℝ, D = fun i => q (φ + i) - q (s + i) := ⟨_, rfl⟩
  have key : g / 2 * ∑ i ∈ Finset.range pat.length, D i ^ 2 + ∑ i ∈ Finset.range pat.length, D i * e i ≤ 2 * δ := by
    have a1 := abs_le.1 (hcorr s (by omega))
    have a2 := abs_le.1 (hcorr (φ % pat.length) (by have := Nat.mod_lt φ hp0; omega))
    simp only [hqm] at a2
    have e1 : ∀ k, ∑ i ∈ Finset.range pat.length, q (k + i) * (g * q (φ + i) + c + e i)
        = g * ∑ i ∈ Finset.range pat.length, q (k + i) * q (φ + i) + c * ∑ i ∈ Finset.range pat.length, q i
          + ∑ i ∈ Finset.range pat.length, q (k + i) * e i := by
      intro k
      rw [← hsum k, Finset.mul_sum, Finset.mul_sum, ← Finset.sum_add_distrib, ← Finset.sum_add_distrib]
      exact Finset.sum_congr rfl (fun i _ => by ring)
    rw [e1] at a1 a2
    have e2 : ∑ i ∈ Finset.range pat.length, D i ^ 2 = 2 * ∑ i ∈ Finset.range pat.length, q (φ + i) * q (φ + i)
        - 2 * ∑ i ∈ Finset.range pat.length, q (s + i) * q (φ + i) := by
      have e3 : ∑ i ∈ Finset.range pat.length, D i ^ 2 = ∑ i ∈ Finset.range pat.length, q (φ + i) * q (φ + i)
          - 2 * ∑ i ∈ Finset.range pat.length, q (s + i) * q (φ + i)
          + ∑ i ∈ Finset.range pat.length, q (s + i) * q (s + i) := by
        rw [Finset.mul_sum, ← Finset.sum_sub_distrib, ← Finset.sum_add_distrib, hD]
        exact Finset.sum_congr rfl (fun i _ => by ring)
      rw [e3, hsq s, hsq φ]
      ring
    have e4 : ∑ i ∈ Finset.range pat.length, D i * e i
        = ∑ i ∈ Finset.range pat.length, q (φ + i) * e i - ∑ i ∈ Finset.range pat.length, q (s + i) * e i := by
      rw [← Finset.sum_sub_distrib, hD]
      exact Finset.sum_congr rfl (fun i _ => by ring)
    rw [e2, e4]
    linarith [a1.1, a1.2, a2.1, a2.2]
  refine ⟨s, xc, ?_, ?_⟩
  · rw [tile_slice_le _ _ (by omega)]
  · rw [hD, he, hq] at key
    exact key

/-- **C118**, lock on a PRBS: a record of one period of a two-level PRBS pattern from phase `φ`, scaled by `g > 0`, with an
offset and a disturbance of at most `E` per sample, correlated in `p`-bit arithmetic. All wrong phases differ in
half the symbols, so that the margin grows with the period. -/
theorem C118_lock_prbs (k : ℕ) (cor : List ℝ → List ℝ → List ℝ) (hcor : IsCorrelate (fl k) cor) (p : PrbsEnum) (seed : List Int)
    (hseed : seed.length = p.value) (hne : ∃ v ∈ seed, v % 2 = 1) (c : Constellation) (hc : numLevels c = 2) (fs : Bool)
    (seq sd : List Int) (hseq : prbsGenerator (getPolynomial p) seed (2 ^ p.value - 1 : ℕ) = .ok (seq, sd)) (pat : List ℝ)
    (hpat : mapping seq c fs none false = .ok pat) (sig : List ℝ) (hlen : pat.length ≤ sig.length) (φ : ℕ) (g o E Λ S d : ℝ)
    (hd : d = (getLevels c fs).getD 1 0 - (getLevels c fs).getD 0 0)
    (hsig : ∀ i < pat.length, |sig.getD i 0 - (g * pat.getD ((φ + i) % pat.length) 0 + o)| ≤ E)
    (hΛ : ∀ x ∈ pat, |x| ≤ Λ) (hS : ∀ x ∈ sig, |x| ≤ S)
    (hE : 2 * (((1 + 2 ^ (-(k : ℤ))) ^ pat.length - 1) * (pat.length * (Λ * S))) < 2 ^ (p.value - 1) * (d * (g * d / 2 - E))) :
    ∃ rot xc, lockPatternWith cor pat sig = .ok (rot, xc) ∧ rot.length = pat.length ∧
      ∀ i < pat.length, rot[i]? = pat[(φ + i) % pat.length]? := by
  rw [prbsGenerator_supported p seed hseed] at hseq
  obtain ⟨rfl, rfl⟩ := Prod.mk.inj (Except.ok.inj hseq)
  have hv : ∀ v ∈ (List.range (2 ^ p.value - 1)).map (bitAt (getPolynomial p) seed), 0 ≤ v ∧ v < numLevels c := by
    intro v hv
    obtain ⟨t, -, rfl⟩ := List.mem_map.1 hv
    rw [hc]
    rcases bitAt_mem (getPolynomial p) seed t with h | h <;> rw [h] <;> simp
  rw [mapping_values c fs _ hv, List.map_map] at hpat
  have hpat' := Except.ok.inj hpat
  have hlp : pat.length = 2 ^ p.value - 1 := by rw [← hpat']; simp
  have hN := period_ge p
  have hd0 : 0 < d := by rw [hd]; exact (levels_grid c fs).1
  have hp : pat ≠ [] := List.ne_nil_of_length_pos (by omega)
  have hp0 : 0 < pat.length := by omega
  have hΔ : ∀ j, phaseDistance pat φ j = if j % (2 ^ p.value - 1) = φ % (2 ^ p.value - 1) then 0 else d ^ 2 * 2 ^ (p.value - 1) := by
    intro j
    rw [hd, ← prbs_phaseDistance p seed hseed hne c fs φ j, ← hpat']
    rfl
  have hlev : ∀ i, pat.getD (i % pat.length) 0 = (getLevels c fs).getD 0 0 ∨ pat.getD (i % pat.length) 0 = (getLevels c fs).getD 0 0 + d := by
    intro i
    have h1 := mem_of_getD 0 pat (Nat.mod_lt i hp0)
    generalize pat.getD (i % pat.length) 0 = v at h1 ⊢
    rw [← hpat'] at h1
    obtain ⟨t, -, rfl⟩ := List.mem_map.1 h1
    simp only [Function.comp]
    rcases bitAt_mem (getPolynomial p) seed t with h | h <;> rw [h]
    · left; rfl
    · right
      rw [hd]
      simp
  have hvl : (sig.take pat.length).length = pat.length := by simp [hlen]
  have hΛ0 : 0 ≤ Λ := (abs_nonneg _).trans (hΛ _ (mem_of_getD 0 pat hp0))
  have hS0 : 0 ≤ S := (abs_nonneg _).trans (hS _ (mem_of_getD 0 sig (show 0 < sig.length by omega)))
  have h := correlate_within k cor hcor (pat ++ pat) (sig.take pat.length) (by omega) (by simp) Λ S hΛ0 hS0
    (fun x hx => hΛ x (by simpa using hx)) (fun x hx => hS x (List.mem_of_mem_take hx))
  rw [hvl] at h
  obtain ⟨s, xc, r1, r2⟩ := lock_phase cor pat sig hp hlen φ g o _ h
  obtain ⟨δ, hδ⟩ : ∃ δ : ℝ, δ = ((1 + 2 ^ (-(k : ℤ))) ^ pat.length - 1) * (pat.length * (Λ * S)) := ⟨_, rfl⟩
  rw [← hδ] at hE r2
  refine ⟨_, _, r1, by simp, fun i hi => ?_⟩
  have hsame : s % (2 ^ p.value - 1) = φ % (2 ^ p.value - 1) := by
    by_contra hcon
    rw [hΔ s, if_neg hcon] at r2
    -- the disturbance
    have h1 : ∀ i ∈ range pat.length, -(E / d) * (pat.getD ((φ + i) % pat.length) 0 - pat.getD ((s + i) % pat.length) 0) ^ 2
        ≤ (pat.getD ((φ + i) % pat.length) 0 - pat.getD ((s + i) % pat.length) 0)
          * (sig.getD i 0 - (g * pat.getD ((φ + i) % pat.length) 0 + o)) := by
      intro i hi
      have h2 := hsig i (mem_range.1 hi)
      generalize sig.getD i 0 - (g * pat.getD ((φ + i) % pat.length) 0 + o) = w at h2 ⊢
      have h3 := abs_le.1 h2
      have h4 : -(E / d) * d ^ 2 = -(E * d) := by field_simp
      rcases hlev (φ + i) with a1 | a1 <;> rcases hlev (s + i) with a2 | a2 <;> rw [a1, a2]
      · simp
      · rw [sub_add_cancel_left, neg_sq, h4]; nlinarith
      · rw [add_sub_cancel_left, h4]; nlinarith
      · simp
    have h5 := sum_le_sum h1
    rw [← mul_sum] at h5
    have h6 := hΔ s
    rw [if_neg hcon, phaseDistance] at h6
    rw [h6] at h5
    have h7 : -(E / d) * (d ^ 2 * 2 ^ (p.value - 1)) = -(E * d) * 2 ^ (p.value - 1) := by field_simp
    rw [h7] at h5
    have h8 : (2 : ℝ) ^ (p.value - 1) * (d * (g * d / 2 - E)) = g / 2 * (d ^ 2 * 2 ^ (p.value - 1)) + -(E * d) * 2 ^ (p.value - 1) := by ring
    linarith
  rw [List.getElem?_rotate hi, Nat.add_comm i s, hlp, Nat.add_mod, hsame, ← Nat.add_mod]

/-- **C118**, lock on a PRBS in double precision: `2^n Λ S ≤ 2^49 d (g d - 2 E)` suffices for a PRBS of order `n`. -/
theorem C118_lock_prbs_double (cor : List ℝ → List ℝ → List ℝ) (hcor : IsCorrelate (fl 53) cor) (p : PrbsEnum) (seed : List Int)
    (hseed : seed.length = p.value) (hne : ∃ v ∈ seed, v % 2 = 1) (c : Constellation) (hc : numLevels c = 2) (fs : Bool)
    (seq sd : List Int) (hseq : prbsGenerator (getPolynomial p) seed (2 ^ p.value - 1 : ℕ) = .ok (seq, sd)) (pat : List ℝ)
    (hpat : mapping seq c fs none false = .ok pat) (sig : List ℝ) (hlen : pat.length ≤ sig.length) (φ : ℕ) (g o E Λ S d : ℝ)
    (hd : d = (getLevels c fs).getD 1 0 - (getLevels c fs).getD 0 0) (hgE : 2 * E < g * d)
    (hsig : ∀ i < pat.length, |sig.getD i 0 - (g * pat.getD ((φ + i) % pat.length) 0 + o)| ≤ E)
    (hΛ : ∀ x ∈ pat, |x| ≤ Λ) (hS : ∀ x ∈ sig, |x| ≤ S)
    (hE : 2 ^ p.value * (Λ * S) ≤ 2 ^ 49 * (d * (g * d - 2 * E))) :
    ∃ rot xc, lockPatternWith cor pat sig = .ok (rot, xc) ∧ rot.length = pat.length ∧
      ∀ i < pat.length, rot[i]? = pat[(φ + i) % pat.length]? := by
  have hlp : pat.length = 2 ^ p.value - 1 := by
    have hs := hseq
    rw [prbsGenerator_supported p seed hseed] at hs
    obtain ⟨rfl, rfl⟩ := Prod.mk.inj (Except.ok.inj hs)
    have hv : ∀ v ∈ (List.range (2 ^ p.value - 1)).map (bitAt (getPolynomial p) seed), 0 ≤ v ∧ v < numLevels c := by
      intro v hv
      obtain ⟨t, -, rfl⟩ := List.mem_map.1 hv
      rw [hc]
      rcases bitAt_mem (getPolynomial p) seed t with h | h <;> rw [h] <;> simp
    rw [mapping_values c fs _ hv, List.map_map] at hpat
    rw [← Except.ok.inj hpat]; simp
  have hN := period_ge p
  have hd0 : 0 < d := by rw [hd]; exact (levels_grid c fs).1
  have hval : p.value ≤ 31 := by cases p <;> decide
  have hval1 : 1 ≤ p.value := by cases p <;> decide
  have hbig : 2 ^ p.value ≤ 2 ^ 31 := Nat.pow_le_pow_right (by norm_num) hval
  have hsz : pat.length ≤ 2 ^ 52 := by
    have : 2 ^ 31 ≤ 2 ^ 52 := by norm_num
    omega
  have hΛ0 : 0 ≤ Λ := (abs_nonneg _).trans (hΛ _ (mem_of_getD 0 pat (show 0 < pat.length by omega)))
  have hS0 : 0 ≤ S := (abs_nonneg _).trans (hS _ (mem_of_getD 0 sig (show 0 < sig.length by omega)))
  refine C118_lock_prbs 53 cor hcor p seed hseed hne c hc fs seq sd hseq pat hpat sig hlen φ g o E Λ S d hd hsig hΛ hS ?_
  have h1 := mul_le_mul_of_nonneg_right (double_gap pat.length hsz) (mul_nonneg (Nat.cast_nonneg pat.length) (mul_nonneg hΛ0 hS0))
  refine lt_of_le_of_lt (mul_le_mul_of_nonneg_left h1 (by norm_num)) ?_
  obtain ⟨P, hP⟩ : ∃ P : ℝ, P = 2 ^ (p.value - 1) := ⟨_, rfl⟩
  have hPv : (2 : ℝ) ^ p.value = 2 * P := by rw [hP, ← pow_succ']; congr 1; omega
  have hP0 : 0 < P := by rw [hP]; positivity
  have hL : (pat.length : ℝ) < 2 * P := by
    rw [← hPv]
    have : pat.length < 2 ^ p.value := by omega
    exact_mod_cast this
  rw [hPv] at hE
  rw [← hP]
  obtain ⟨M, hM⟩ : ∃ M, M = d * (g * d - 2 * E) := ⟨_, rfl⟩
  have hM0 : 0 < M := by rw [hM]; exact mul_pos hd0 (by linarith)
  rw [← hM] at hE
  rw [show d * (g * d / 2 - E) = M / 2 by rw [hM]; ring]
  obtain ⟨L, hLd⟩ : ∃ L : ℝ, L = pat.length := ⟨_, rfl⟩
  rw [← hLd] at hL ⊢
  have hL0 : 0 < L := by rw [hLd]; exact_mod_cast (show 0 < pat.length by omega)
  obtain ⟨W, hW⟩ : ∃ W, W = Λ * S := ⟨_, rfl⟩
  have hW0 : 0 ≤ W := by rw [hW]; exact mul_nonneg hΛ0 hS0
  rw [← hW] at hE ⊢
  have a1 : L * W ≤ 2 ^ 49 * M := (mul_le_mul_of_nonneg_right hL.le hW0).trans hE
  have a2 : L * (L * W) ≤ L * (2 ^ 49 * M) := mul_le_mul_of_nonneg_left a1 hL0.le
  have a3 : L * (2 ^ 49 * M) < 2 * P * (2 ^ 49 * M) := mul_lt_mul_of_pos_right hL (by positivity)
  have a4 : 2 * (L / 2 ^ 52 * (L * W)) = L * (L * W) / 2 ^ 51 := by ring
  rw [a4, div_lt_iff₀ (by positivity)]
  have a5 : P * (M / 2) * 2 ^ 51 = 2 * P * (2 ^ 49 * M) := by ring
  linarith

/-- **C118**, timing detector on a PRBS in double precision: the setting of `C101_direction`, with samples of at most `S`. If
the difference of the first postcursor and the first precursor exceeds the tolerance, the incomplete period, the errors
of the record and the rounding errors, the detector steps towards the larger of the two. -/
theorem C118_timing_prbs (dot : List ℝ → List ℝ → ℝ) (hdot : IsDot (fl 53) dot) (p : PrbsEnum) (c : Constellation)
    (fs bi pnPre gray pnPost : Bool) (hc : c ≠ .pam3) (x : ℤ → ℝ)
    (hx : x = periodic (2 ^ p.value - 1) (txLevel c fs bi pnPre gray pnPost (bitAt (getPolynomial p) (onesSeed p))))
    (h : List ℝ) (pre : ℕ) (hp : pre < h.length)
    (hl : h.length < if c = .pam4 then echo p bi gray else 2 ^ p.value - 1) (φ : ℤ) (q r : ℕ) (hq : 0 < q)
    (s ref : List ℝ) (hsl : s.length = q * (2 ^ p.value - 1) + r + 1) (hrl : ref.length = s.length) (δ S : ℝ)
    (hs : ∀ t : ℕ, t < s.length → |s.getD t 0 - chanOut h pre x (t + φ)| ≤ δ)
    (hr : ∀ t : ℕ, t < s.length → ref.getD t 0 = x (t + φ)) (hS : ∀ v ∈ s, |v| ≤ S) (tol : ℝ)
    (ht : 0 < tol) (hsize : s.length + 2 ≤ 2 ^ 52)
    (hbig : tol + (r / (q * (2 ^ p.value - 1 : ℕ) + r) * (2 * peakLevel c fs ^ 2 * isiSum h pre) + 2 * peakLevel c fs * δ)
        + ((s.length : ℝ) + 2) / 2 ^ 51 * (peakLevel c fs * S)
      < q * 2 ^ p.value / (q * (2 ^ p.value - 1 : ℕ) + r) * levelVariance c fs * |cursor h pre 1 - cursor h pre (-1)|) :
    muellerMullerR (fl 53) dot s ref 1 1 tol = .ok (some (if cursor h pre (-1) < cursor h pre 1 then 1 else -1)) := by
  have hN := period_ge p
  have h2s : 2 ≤ s.length := by
    have := Nat.le_mul_of_pos_left (2 ^ p.value - 1) hq
    omega
  have hxp : ∀ t, |x t| ≤ peakLevel c fs := by
    intro t
    rw [hx, refZ_int p c fs bi pnPre gray pnPost t]
    exact refZ_abs p fs bi pnPre gray pnPost c _
  have hΛ : ∀ v ∈ ref, |v| ≤ peakLevel c fs := by
    intro v hv
    obtain ⟨t, ht', rfl⟩ := List.getElem_of_mem hv
    have := hr t (by omega)
    rw [getD_of_lt 0 _ ht'] at this
    rw [this]
    exact hxp _
  have hΛ0 : 0 ≤ peakLevel c fs := (abs_nonneg _).trans (hΛ _ (mem_of_getD 0 ref (show 0 < ref.length by omega)))
  have hS0 : 0 ≤ S := (abs_nonneg _).trans (hS _ (mem_of_getD 0 s (show 0 < s.length by omega)))
  have hrnd : 0 ≤ ((s.length : ℝ) + 2) / 2 ^ 51 * (peakLevel c fs * S) := mul_nonneg (by positivity) (mul_nonneg hΛ0 hS0)
  have h0 := C101_estimate p c fs bi pnPre gray pnPost hc x hx h pre hp hl φ q r hq s ref hsl hrl δ hs hr 1
  rw [abs_one, one_mul, one_mul] at h0
  rw [C118_timing_double dot hdot s ref 1 1 tol _ S hrl.symm (by omega) (by omega) ht hS hΛ ?_]
  · exact C101_direction p c fs bi pnPre gray pnPost hc x hx h pre hp hl φ q r hq s ref hsl hrl δ hs hr tol ht (by linarith)
  · rw [hrl, abs_one] at *
    generalize timingError s.length (fun k => s.getD k 0) (fun k => ref.getD k 0) 1 1 = e at h0 ⊢
    have hcoef : (0 : ℝ) ≤ q * 2 ^ p.value / (q * (2 ^ p.value - 1 : ℕ) + r) * levelVariance c fs :=
      mul_nonneg (by positivity)
      (mul_nonneg (sq_nonneg _) (by cases c <;> norm_num))
    rw [← abs_of_nonneg hcoef, ← abs_mul] at hbig
    generalize q * 2 ^ p.value / (q * ((2 ^ p.value - 1 : ℕ) : ℝ) + r) * levelVariance c fs * (cursor h pre 1 - cursor h pre (-1)) = m at h0 hbig
    generalize r / (q * ((2 ^ p.value - 1 : ℕ) : ℝ) + r) * (2 * peakLevel c fs ^ 2 * isiSum h pre) + 2 * peakLevel c fs * δ = B at h0 hbig
    have h1 := abs_add_le (m - e) e
    rw [sub_add_cancel, abs_sub_comm] at h1
    have e1 : ((s.length : ℝ) + 2) / 2 ^ 52 * ((1 + 1) * (peakLevel c fs * S)) = ((s.length : ℝ) + 2) / 2 ^ 51 * (peakLevel c fs * S) := by ring
    rw [e1]
    refine lt_of_lt_of_le ?_ (le_abs_self _)
    linarith

/-! ### the hypotheses can be met -/

/-- routines of the assumed kind: fused multiply-adds from the last term to the first -/
theorem rounded_routines_exist (p : ℕ) : (∃ cor, IsCorrelate (fl p) cor) ∧ (∃ conv, IsConvValid (fl p) conv) ∧ ∃ dot, IsDot (fl p) dot := by
  choose D hD using fun l => (⟨_, foldr_roundedDot (fl p) l⟩ : ∃ s, RoundedDot (fl p) l s)
  obtain ⟨C, hC⟩ : ∃ C : List ℝ → List ℝ → ℕ → ℝ, ∀ a v k,
      RoundedDot (fl p) ((List.range v.length).map fun l => (a.getD (k + l) 0, v.getD l 0)) (C a v k) := ⟨_, fun _ _ _ => hD _⟩
  obtain ⟨V, hV⟩ : ∃ V : List ℝ → List ℝ → ℕ → ℝ, ∀ b y n,
      RoundedDot (fl p) ((List.range b.length).map fun i => (b.getD i 0, y.getD (n + b.length - 1 - i) 0)) (V b y n) := ⟨_, fun _ _ _ => hD _⟩
  refine ⟨⟨fun a v => (List.range (a.length - v.length + 1)).map (C a v), fun a v _ _ => ⟨by simp, fun k hk => ?_⟩⟩,
    ⟨fun b y => (List.range (y.length - b.length + 1)).map (V b y), fun b y _ _ => ⟨by simp, fun n hn => ?_⟩⟩,
    ⟨fun a b => D (a.zip b), fun _ _ _ => hD _⟩⟩
  · rw [map_range_getD (C a v) _ _ _ (by omega)]
    exact hC a v k
  · rw [map_range_getD (V b y) _ _ _ (by omega)]
    exact hV b y n

/-- PRBS31 in NRZ at half the amplitude with disturbances of 0.4 and samples up to 1: the rounding errors do not matter -/
example : (2 : ℝ) ^ 31 * (1 * 1) ≤ 2 ^ 49 * (2 * (1 / 2 * 2 - 2 * (2 / 5))) := by norm_num

/-- PRBS7 with a postcursor of 1/4 and the default tolerance: one period, double precision -/
example (dot : List ℝ → List ℝ → ℝ) (hdot : IsDot (fl 53) dot) (x : ℤ → ℝ)
    (hx : x = periodic (2 ^ PrbsEnum.prbs7.value - 1)
      (txLevel .nrz false false false false false (bitAt (getPolynomial .prbs7) (onesSeed .prbs7)))) :
    muellerMullerR (fl 53) dot ((List.range 128).map fun t : ℕ => chanOut [1, 1 / 4] 0 x t) ((List.range 128).map fun t : ℕ => x t) 1 1 (1 / 1000)
      = .ok (some 1) := by
  have hpk : peakLevel .nrz false = 1 := by
    rw [peakLevel, if_neg (by decide)]; norm_num [unitScale]
  have hb : ∀ t, |x t| ≤ 1 := by
    intro t
    rw [hx, refZ_int .prbs7 .nrz false false false false false t, ← hpk]
    exact refZ_abs .prbs7 false false false false false .nrz _
  have a : cursor [1, 1 / 4] 0 1 = 1 / 4 := rfl
  have b : cursor [1, 1 / 4] 0 (-1) = 0 := rfl
  have v : PrbsEnum.prbs7.value = 7 := rfl
  have h := C118_timing_prbs dot hdot .prbs7 .nrz false false false false false (by decide) x hx [1, 1 / 4] 0 (by decide) (by decide) 0 1 0
    one_pos ((List.range 128).map fun t : ℕ => chanOut [1, 1 / 4] 0 x t) ((List.range 128).map fun t : ℕ => x t)
    (by rw [List.length_map, List.length_range]; decide) (by simp) 0 (5 / 4) ?_ ?_ ?_ (1 / 1000) (by norm_num)
    (by rw [List.length_map, List.length_range]; norm_num) ?_
  · rw [h, if_pos]
    rw [a, b]; norm_num
  · intro t ht
    rw [List.length_map, List.length_range] at ht
    rw [map_range_getD _ _ _ _ ht, add_zero, sub_self, abs_zero]
  · intro t ht
    rw [List.length_map, List.length_range] at ht
    rw [map_range_getD _ _ _ _ ht, add_zero]
  · intro w hw
    obtain ⟨t, -, rfl⟩ := List.mem_map.1 hw
    have h1 := abs_le.1 (hb (t : ℤ))
    have h2 := abs_le.1 (hb ((t : ℤ) - 1))
    simp only [chanOut, List.length_cons, List.length_nil, sum_range_succ, sum_range_zero, List.getD_cons_zero, List.getD_cons_succ]
    push_cast
    rw [zero_add, one_mul, add_zero, sub_zero, abs_le]
    constructor <;> linarith
  · rw [a, b, v, hpk, List.length_map, List.length_range]
    norm_num [levelVariance, unitScale]

/-- two levels, channel `1, 1/4`, equalizer `1, -1/4`: decisions without delay, double precision -/
example (conv cv : List ℝ → List ℝ → List ℝ) (hconv : IsConvolve (fl 53) conv) (hcv : IsConvValid (fl 53) cv) (A : Arith)
    (hA : FloatArith 53 A) (a : List ℝ) (ha : 0 < a.length) (hmem : ∀ v ∈ a, v ∈ [(-1 : ℝ), 1]) :
    ∃ y z s zo, awgnChannelR (fl 53) conv a [1, 1 / 4] (.num 1) none = .ok (y, z) ∧ ffeR (fl 53) cv y [1, -1 / 4] none = .ok (.ffe s zo) ∧
      s.length = a.length ∧ ∀ n : ℕ, 0 ≤ n → n < a.length → sliceOneA A [-1, 1] (s.getD n 0) = a.getD (n - 0) 0 := by
  have hR : residualIsi [1, -1 / 4] [1, 1 / 4] 0 = 1 / 16 := by
    simp [residualIsi, cascadeTap, sum_range_succ]
    norm_num
  refine C118_link 53 conv cv hconv hcv A hA [1, 1 / 4] [1, -1 / 4] [-1, 1] a (by simp) (by simp) ha hmem 2 ?_ 1 ?_ 0 (by simp) (1 / 16) ?_ ?_
  · intro l hl l' hl' hne
    simp only [List.mem_cons, List.not_mem_nil, or_false] at hl hl'
    rcases hl with rfl | rfl <;> rcases hl' with rfl | rfl <;> first | exact absurd rfl hne | norm_num
  · intro l hl
    simp only [List.mem_cons, List.not_mem_nil, or_false] at hl
    rcases hl with rfl | rfl <;> norm_num
  · refine (mul_le_mul_of_nonneg_right (double_gap _ (by simp)) ?_).trans ?_
    · simp; positivity
    · simp; norm_num
  · rw [hR, half_unit]; norm_num

end Verif
