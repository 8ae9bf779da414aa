import Verif.Model.CdrAssert
import Verif.Props.CdrTest
import Verif.Props.EstimPrbs
import Verif.Props.Timing

/-! C102: the assertion at the end of the clock recovery test. -/

open Finset

namespace Verif

open Spec (unitScale txLevel periodic chanOut levelVariance popVar MainTap IsLs cursor echo IsPulse truncated)

theorem mmLoopSignal_of (tol : ℝ) (pattern : List ℝ) (refLen osr : ℕ) (mat : List (List ℝ)) (ψ : ℕ) :
    ∀ (iters phase : ℕ) (last : List ℝ), phase < osr → mmLoop tol pattern refLen osr mat iters phase = .ok (ψ, true) →
      mmLoopSignal tol pattern refLen osr mat iters phase last = .ok (ψ, mat.map fun row => row.getD ψ 0) := by
  intro iters
  induction iters with
  | zero => intro phase last _ h; simp [mmLoop] at h
  | succ n ih =>
    intro phase last hph h
    rw [mmLoop] at h
    rw [mmLoopSignal]
    simp only [bind, Except.bind] at h ⊢
    cases h1 : lockPattern pattern (mat.map fun row => row.getD phase 0) with
    | error e => rw [h1] at h; simp at h
    | ok al =>
      rw [h1] at h
      simp only at h ⊢
      cases h2 : muellerMuller (mat.map fun row => row.getD phase 0)
          ((tile al.1 ((refLen + pattern.length - 1) / pattern.length)).take (mat.map fun row => row.getD phase 0).length) 1 1 tol with
      | error e => rw [h2] at h; simp at h
      | ok st =>
        rw [h2] at h
        simp only at h ⊢
        cases st with
        | none => simp at h
        | some v =>
          simp only at h ⊢
          by_cases hv : v = 0
          · subst hv
            rw [if_pos rfl] at h ⊢
            have hn : (((phase : ℤ) + 0) % (osr : ℤ)).toNat = phase := by
              rw [add_zero]
              rw [Int.emod_eq_of_lt (by omega) (by omega)]
              omega
            rw [hn] at h ⊢
            have : phase = ψ := by simpa using h
            rw [this]
          · rw [if_neg hv] at h ⊢
            refine ih _ _ ?_ h
            have := Int.emod_lt_of_pos ((phase : ℤ) + v) (by omega : (0 : ℤ) < osr)
            have := Int.emod_nonneg ((phase : ℤ) + v) (by omega : (osr : ℤ) ≠ 0)
            omega

/-- **C102.** Why the assertion at the end of the test holds after a lock. Let the signal be `q` whole periods and one symbol of the
PRBS through any FIR channel of 19 precursors and 64 postcursors with a dominant main tap, at any position `φ` of the pattern. If
the timing detector, fed with the aligned symbols, reports no step at the tolerance of 1/1000, then the two estimated taps beside
the main tap agree within the tolerance of the assertion, as soon as the variance of the received signal is at least 1/25. -/
theorem C102_assertion (ls : Solver ℝ) (p : PrbsEnum) (c : Constellation) (hc : c ≠ .pam3)
    (x : ℤ → ℝ)
    (hx : x = periodic (2 ^ p.value - 1) (txLevel c false false false false false (bitAt (getPolynomial p) (onesSeed p))))
    (h : List ℝ) (hl : h.length = 84) (hecho : c = .pam4 → p ≠ .prbs7) (hm : MainTap c h 19) (φ : ℤ) (q : ℕ)
    (hq : (if c = .pam4 then 1 else 2) ≤ q) (s ref : List ℝ) (hsl : s.length = q * (2 ^ p.value - 1) + 1)
    (hrl : ref.length = s.length) (hs : ∀ t : ℕ, t < s.length → s.getD t 0 = chanOut h 19 x (t + φ))
    (hr : ∀ t : ℕ, t < s.length → ref.getD t 0 = x (t + φ))
    (hlock : muellerMuller s ref 1 1 (1 / 1000) = .ok (some 0))
    (hv : 1 / 25 ≤ popVar (2 ^ p.value - 1) (fun t => s.getD t 0))
    (hls : IsLs (solveWith ls .none 0) 84) :
    cursorsClose ls p s c = .ok true := by
  have hNp := period_ge p
  have hl' : h.length < if c = .pam4 then echo p false false else 2 ^ p.value - 1 := by
    rw [hl]
    split_ifs with h4
    · have := hecho h4
      cases p <;> first | exact absurd rfl this | decide +kernel
    · omega
  have hq0 : 0 < q := by split_ifs at hq <;> omega
  obtain ⟨v, e1, -, e2, -⟩ := C101_exact p c false false false false false hc x hx h 19 (by omega) hl' φ q hq0 s ref hsl hrl hs hr
    1 (1 / 1000) (by norm_num)
  rw [hlock] at e1
  have hv0 : v = 0 := by simpa using e1.symm
  have hlt := e2.1 hv0
  obtain ⟨hpos, ⟨e, he⟩, -⟩ := C68_recovers ls p c hc false false false false false _ (lfsrStream_bitAt _ _ (by rw [poly_length]; simp)) h 64 19 hl (by omega)
    hm φ s (by rw [hsl]; exact le_trans (Nat.mul_le_mul_right _ hq) (Nat.le_succ _)) (fun t ht => by rw [hs t ht, hx]) hls
  rw [cursorsClose, he]
  simp only [bind, Except.bind, pure, Except.pure]
  congr 1
  refine decide_eq_true ?_
  set V := popVar (2 ^ p.value - 1) (fun t => s.getD t 0) with hV
  have hg : ∀ k < 84, (h.map (· / V)).getD k 0 = h.getD k 0 / V := by
    intro k hk
    rw [List.getD_eq_getElem _ _ (by rw [List.length_map, hl]; exact hk), List.getElem_map,
      List.getD_eq_getElem _ _ (by rw [hl]; exact hk)]
  rw [hg 18 (by norm_num), hg 20 (by norm_num)]
  have hc1 : cursor h 19 1 = h.getD 20 0 := by rw [cursor]; rfl
  have hc2 : cursor h 19 (-1) = h.getD 18 0 := by rw [cursor]; rfl
  rw [hc1, hc2] at hlt
  have hvar : 1 / 4 ≤ levelVariance c false := by
    cases c <;> first | exact absurd rfl hc | (simp [levelVariance, unitScale] <;> norm_num)
  have h1 : (1 : ℝ) < 2 ^ p.value := one_lt_pow₀ one_lt_two (value_pos p).ne'
  have h2 : (1 : ℝ) ≤ 2 ^ p.value / (2 ^ p.value - 1) := by rw [le_div_iff₀ (by linarith)]; linarith
  have hK := mul_le_mul h2 hvar (by norm_num) (by linarith)
  rw [one_mul] at hK
  rw [one_mul, abs_mul, abs_of_nonneg (by linarith)] at hlt
  have hd : |h.getD 20 0 - h.getD 18 0| < 1 / 250 := by
    by_contra hcon
    push Not at hcon
    have := mul_le_mul hK hcon (by norm_num) (by linarith)
    linarith
  rw [← sub_div, abs_div, abs_of_pos (lt_of_lt_of_le (by norm_num) hv), abs_sub_comm]
  have hVp : 0 < V := lt_of_lt_of_le (by norm_num) hv
  have : |h.getD 20 0 - h.getD 18 0| / V ≤ 1 / 10 := by
    rw [div_le_iff₀ hVp]
    linarith
  have := abs_nonneg (h.getD 20 0 / V)
  linarith

theorem getD_replicate_zero (n k : ℕ) : (List.replicate n (0 : ℝ)).getD k 0 = 0 := by
  rw [List.getD_eq_getElem?_getD, List.getElem?_replicate]
  split_ifs <;> rfl

/-- the samples in the symbol centres of a shaped signal are the symbols -/
theorem rcos_centre (b : ℝ) (span : ℕ) (x : List ℝ) (k : ℕ) (hk : span ≤ k) (hkx : k - span < x.length) (hsp : 0 < span) :
    ∑ j ∈ range x.length, x.getD j 0 * truncated span (rcosFn b) ((k : ℝ) - j - span) = x.getD (k - span) 0 := by
  rw [sum_eq_single (k - span)]
  · have h0 : (k : ℝ) - (k - span : ℕ) - span = 0 := by rw [Nat.cast_sub hk]; ring
    rw [h0, truncated]
    have hs : (0 : ℝ) < span := by exact_mod_cast hsp
    simp [rcosFn_zero', hs.le, hs]
  · intro j _ hj
    have hz : rcosFn b ((k : ℝ) - j - span) = 0 := by
      have hi : (k : ℝ) - j - span = (((k : ℤ) - j - span : ℤ) : ℝ) := by push_cast; ring
      rw [hi, rcosFn_roll, Real.sinc_of_ne_zero, mul_comm Real.pi, Real.sin_int_mul_pi, zero_div, zero_mul]
      refine mul_ne_zero Real.pi_ne_zero ?_
      exact_mod_cast (by omega : ((k : ℤ) - j - span) ≠ 0)
    rw [truncated, Set.indicator_apply, hz]; simp
  · intro hn; exact absurd (mem_range.2 hkx) hn

/-- **C102.** The test with its constants passes for the distortion-free channel: for every supported PRBS in NRZ, OOK and PAM4, any
position `off` of the pattern, whole periods (two or more for two levels) and one symbol, the loop locks and the assertion at the
end holds. -/
theorem C102_passes (ls : Solver ℝ) (p : PrbsEnum) (c : Constellation) (hc : c ≠ .pam3)
    (x : ℤ → ℝ)
    (hx : x = periodic (2 ^ p.value - 1) (txLevel c false false false false false (bitAt (getPolynomial p) (onesSeed p))))
    (q : ℕ) (hq : (if c = .pam4 then 1 else 2) ≤ q) (symbols : List ℝ) (off : ℤ)
    (hsl : symbols.length = q * (2 ^ p.value - 1) + 1 + 16)
    (hs : ∀ t : ℕ, t < symbols.length → symbols.getD t 0 = x (t + off)) (refLen : ℕ) (hrl : q * (2 ^ p.value - 1) < refLen)
    (hls : IsLs (solveWith ls .none 0) 84) :
    cdrStepTest ls p symbols ((List.range (2 ^ p.value - 1)).map fun t : ℕ => x t) refLen c id = .ok true := by
  have hNp := period_ge p
  have hq0 : 0 < q := by split_ifs at hq <;> omega
  have hrun := C102_test p c hc false false false false false (fun _ h => absurd h (by decide)) x hx q hq0 symbols off hsl hs refLen hrl
  have hpulse : IsPulse "rcos" (1 / 2) 64 (rcosFn (1 / 2)) := Or.inr (Or.inr (Or.inl ⟨rfl, by norm_num, rcosFn_spec _⟩))
  obtain ⟨y, z, hy, hyl, -, hyg⟩ := C50_superposition symbols 64 8 "rcos" (1 / 2) (rcosFn (1 / 2)) hpulse (by norm_num) (by norm_num)
    (by omega)
  set w := y.drop (64 * 16) with hw
  have hwl : w.length = (q * (2 ^ p.value - 1) + 1) * 64 := by
    rw [hw, List.length_drop, hyl, hsl]; omega
  have hwne : w ≠ [] := by
    intro h
    rw [h, List.length_nil] at hwl
    omega
  obtain ⟨mat, hmat, hmrows, hmg⟩ := C42_frames w hwne 64 0 0 (by norm_num)
  have hml : mat.length = q * (2 ^ p.value - 1) + 1 := by
    have key : ∀ r : ℕ, r < mat.length ↔ r < q * (2 ^ p.value - 1) + 1 := by
      intro r
      rw [hmrows, hwl]
      push_cast
      omega
    have h1 := key mat.length
    have h2 := key (q * (2 ^ p.value - 1) + 1)
    omega
  rw [recoverClock, hy] at hrun
  simp only [bind, Except.bind, List.map_id] at hrun
  rw [show 64 * (2 * 8) = 64 * 16 from rfl, ← hw, hmat] at hrun
  have hsig := mmLoopSignal_of _ _ _ _ _ _ 64 32 [] (by norm_num) hrun
  rw [cdrStepTest, hy]
  simp only [bind, Except.bind, List.map_id]
  rw [← hw, hmat]
  simp only
  rw [hsig]
  simp only
  -- the signal in the symbol centres
  obtain ⟨h, hh⟩ : ∃ h : List ℝ, h = List.replicate 19 0 ++ 1 :: List.replicate 64 0 := ⟨_, rfl⟩
  have hhl : h.length = 64 + 19 + 1 := by
    rw [hh, List.length_append, List.length_cons, List.length_replicate, List.length_replicate]
  have hhg : ∀ k, h.getD k 0 = if k = 19 then 1 else 0 := by
    intro k
    rw [hh]
    rcases lt_trichotomy k 19 with hk | hk | hk
    · rw [List.getD_append _ _ _ _ (by rw [List.length_replicate]; exact hk), if_neg (by omega)]
      exact getD_replicate_zero 19 k
    · subst hk; rfl
    · rw [List.getD_append_right _ _ _ _ (by rw [List.length_replicate]; omega), if_neg (by omega), List.length_replicate,
        show k - 19 = (k - 20) + 1 by omega, List.getD_cons_succ]
      exact getD_replicate_zero 64 _
  have hmain : MainTap c h 19 := by
    refine ⟨by rw [hhg]; norm_num, fun k _ hk => ?_⟩
    rw [hhg, hhg, if_neg hk, if_pos rfl]
    split_ifs <;> norm_num
  have hcol : ∀ t < mat.length, (mat.map fun row => row.getD 0 0).getD t 0 = x (t + (8 + off)) := by
    intro t ht
    have h1 : (mat.map fun row => row.getD 0 0).getD t 0 = (mat.getD t []).getD 0 0 := by
      rw [List.getD_eq_getElem _ _ (by rw [List.length_map]; exact ht), List.getElem_map, List.getD_eq_getElem _ _ ht]
    rw [h1, (hmg t ht).2 0 (by norm_num)]
    have hidx : (t : ℤ) * (((64 : ℕ) : ℤ) - 0) + (0 : ℕ) - (0 : ℕ) = ((t * 64 : ℕ) : ℤ) := by push_cast; ring
    rw [hidx, Spec.sample, if_pos (by omega), Int.toNat_natCast, hw, drop_getD, hyg _ (by omega)]
    have ha : ∀ j : ℕ, (((64 * 16 + t * 64 : ℕ) : ℝ) / (64 : ℕ) - j - (8 : ℕ)) = ((16 + t : ℕ) : ℝ) - j - (8 : ℕ) := by
      intro j; push_cast; ring
    rw [sum_congr rfl fun j _ => by rw [ha j], rcos_centre _ 8 symbols (16 + t) (by omega) (by omega) (by norm_num), hs _ (by omega)]
    congr 1
    omega
  obtain ⟨-, ⟨e, he⟩, -⟩ := C68_recovers ls p c hc false false false false false _
    (lfsrStream_bitAt _ _ (by rw [poly_length]; simp)) h 64 19 hhl (by omega) hmain (8 + off)
    (mat.map fun row => row.getD 0 0)
    (by rw [List.length_map, hml]; exact le_trans (Nat.mul_le_mul_right _ hq) (Nat.le_succ _))
    (fun t ht => by
      rw [List.length_map] at ht
      rw [hcol t ht, hx, chanOut, sum_eq_single 19]
      · rw [hhg, if_pos rfl, one_mul]
        show _ = periodic _ _ ((t : ℤ) + (8 + off) + (19 : ℕ) - (19 : ℕ))
        rw [add_sub_cancel_right]
      · intro k _ hk; rw [hhg, if_neg hk, zero_mul]
      · intro hn; exact absurd (mem_range.2 (by omega)) hn) hls
  rw [cursorsClose, he]
  simp only [bind, Except.bind, pure, Except.pure]
  congr 1
  refine decide_eq_true ?_
  have hg0 : ∀ (V : ℝ) (k : ℕ), k < 84 → k ≠ 19 → (h.map (· / V)).getD k 0 = 0 := by
    intro V k hk hne
    rw [List.getD_eq_getElem _ _ (by rw [List.length_map, hhl]; exact hk), List.getElem_map,
      ← List.getD_eq_getElem _ (0 : ℝ), hhg, if_neg hne, zero_div]
  rw [hg0 _ 18 (by norm_num) (by norm_num), hg0 _ 20 (by norm_num) (by norm_num)]
  norm_num

/-- **C102.** What the assertion says: for a signal of the PRBS through an FIR channel with a dominant main tap it holds exactly when
the two taps beside the main tap differ by at most a tenth of the variance of the received signal, up to the relative
tolerance. -/
theorem C102_assertion_iff (ls : Solver ℝ) (p : PrbsEnum) (c : Constellation) (hc : c ≠ .pam3)
    (x : ℤ → ℝ)
    (hx : x = periodic (2 ^ p.value - 1) (txLevel c false false false false false (bitAt (getPolynomial p) (onesSeed p))))
    (h : List ℝ) (hl : h.length = 84) (hm : MainTap c h 19) (φ : ℤ) (s : List ℝ)
    (hsl : (if c = .pam4 then 1 else 2) * (2 ^ p.value - 1) ≤ s.length)
    (hs : ∀ t : ℕ, t < s.length → s.getD t 0 = chanOut h 19 x (t + φ))
    (hls : IsLs (solveWith ls .none 0) 84) :
    ∃ r, cursorsClose ls p s c = .ok r ∧
      (r = true ↔ |h.getD 18 0 - h.getD 20 0|
        ≤ popVar (2 ^ p.value - 1) (fun t => s.getD t 0) / 10 + 1 / 100000 * |h.getD 20 0|) := by
  have hNp := period_ge p
  obtain ⟨hpos, ⟨e, he⟩, -⟩ := C68_recovers ls p c hc false false false false false _
    (lfsrStream_bitAt _ _ (by rw [poly_length]; simp)) h 64 19 hl (by omega)
    hm φ s hsl (fun t ht => by rw [hs t ht, hx]) hls
  set V := popVar (2 ^ p.value - 1) (fun t => s.getD t 0) with hV
  have hg : ∀ k < 84, (h.map (· / V)).getD k 0 = h.getD k 0 / V := by
    intro k hk
    rw [List.getD_eq_getElem _ _ (by rw [List.length_map, hl]; exact hk), List.getElem_map,
      List.getD_eq_getElem _ _ (by rw [hl]; exact hk)]
  rw [cursorsClose, he]
  simp only [bind, Except.bind, pure, Except.pure]
  refine ⟨_, rfl, ?_⟩
  rw [decide_eq_true_eq, hg 18 (by norm_num), hg 20 (by norm_num), ← sub_div, abs_div, abs_div, abs_of_pos hpos,
    ← mul_div_assoc, div_le_iff₀ hpos, add_mul, div_mul_cancel₀ _ hpos.ne', one_div_mul_eq_div]

/-- **C102, negative.** The assertion compares taps that are divided by the variance of the signal and not by the main tap, so it
depends on the amplitude: with a main tap of 1/100 and one postcursor of 1/2000 the detector reports no step for any PRBS, yet the
assertion fails. -/
theorem C102_negative_weak (ls : Solver ℝ) (p : PrbsEnum) (x : ℤ → ℝ)
    (hx : x = periodic (2 ^ p.value - 1) (txLevel .nrz false false false false false (bitAt (getPolynomial p) (onesSeed p))))
    (h s : List ℝ) (hh : h = List.replicate 19 0 ++ 1 / 100 :: 1 / 2000 :: List.replicate 63 0)
    (hs : s = (List.range (2 * (2 ^ p.value - 1) + 1)).map fun t : ℕ => chanOut h 19 x t)
    (hls : IsLs (solveWith ls .none 0) 84) :
    muellerMuller s ((List.range (2 * (2 ^ p.value - 1) + 1)).map fun t : ℕ => x t) 1 1 (1 / 1000) = .ok (some 0) ∧
      cursorsClose ls p s .nrz = .ok false := by
  have hNp := period_ge p
  have hhl : h.length = 84 := by
    rw [hh, List.length_append, List.length_cons, List.length_cons, List.length_replicate, List.length_replicate]
  have hhg : ∀ k, h.getD k 0 = if k = 19 then 1 / 100 else if k = 20 then 1 / 2000 else 0 := by
    intro k
    rw [hh]
    rcases lt_or_ge k 19 with hk | hk
    · rw [List.getD_append _ _ _ _ (by rw [List.length_replicate]; exact hk), if_neg (by omega), if_neg (by omega)]
      exact getD_replicate_zero 19 k
    · rw [List.getD_append_right _ _ _ _ (by rw [List.length_replicate]; omega), List.length_replicate]
      obtain rfl | rfl | hk2 : k = 19 ∨ k = 20 ∨ 21 ≤ k := by omega
      · rfl
      · rfl
      · rw [if_neg (by omega), if_neg (by omega), show k - 19 = (k - 21) + 1 + 1 by omega, List.getD_cons_succ, List.getD_cons_succ]
        exact getD_replicate_zero 63 _
  have hsl : s.length = 2 * (2 ^ p.value - 1) + 1 := by rw [hs, List.length_map, List.length_range]
  have hsg : ∀ t : ℕ, t < s.length → s.getD t 0 = chanOut h 19 x (t + 0) := by
    intro t ht
    rw [hsl] at ht
    rw [hs, map_range_getD _ _ _ _ ht, add_zero]
  have hmain : MainTap .nrz h 19 := by
    refine ⟨by rw [hhg]; norm_num, fun k _ hk => ?_⟩
    rw [hhg, hhg, if_neg hk, if_pos rfl, if_neg (by decide)]
    split_ifs <;> norm_num
  constructor
  · obtain ⟨v, e1, -, e2, -⟩ := C101_exact p .nrz false false false false false (by decide) x hx h 19 (by omega)
      (by rw [if_neg (by decide)]; omega) 0 2 two_pos s ((List.range (2 * (2 ^ p.value - 1) + 1)).map fun t : ℕ => x t) hsl
      (by rw [hsl, List.length_map, List.length_range]) hsg
      (fun t ht => by rw [hsl] at ht; rw [map_range_getD _ _ _ _ ht, add_zero]) 1 (1 / 1000) (by norm_num)
    have hc1 : cursor h 19 1 = 1 / 2000 := by
      have : cursor h 19 1 = h.getD 20 0 := by rw [cursor]; rfl
      rw [this, hhg]; norm_num
    have hc2 : cursor h 19 (-1) = 0 := by
      have : cursor h 19 (-1) = h.getD 18 0 := by rw [cursor]; rfl
      rw [this, hhg]; norm_num
    have hv : levelVariance .nrz false = 1 := by simp [levelVariance, unitScale]
    have hN : (128 : ℝ) ≤ 2 ^ p.value := by
      have : 128 ≤ 2 ^ p.value := by omega
      exact_mod_cast this
    have hv0 : v = 0 := by
      rw [e2, hc1, hc2, hv, one_mul, mul_one, sub_zero, abs_of_nonneg (by
        refine mul_nonneg (div_nonneg (by linarith) (by linarith)) (by norm_num)), div_mul_eq_mul_div, div_lt_iff₀ (by linarith)]
      linarith
    rw [e1, hv0]
  · obtain ⟨r, h1, h2⟩ := C102_assertion_iff ls p .nrz (by decide) x hx h hhl hmain 0 s
      (by rw [hsl, if_neg (by decide)]; omega) hsg hls
    rw [h1]
    congr 1
    rw [← Bool.not_eq_true, h2, hhg, hhg]
    have hxb : ∀ t, |x t| ≤ 1 := by
      intro t
      have := refZ_abs p false false false false false .nrz (t : ZMod (2 ^ p.value - 1))
      rw [hx, refZ_int p .nrz false false false false false t]
      refine this.trans (le_of_eq ?_)
      simp [Spec.peakLevel, unitScale]
    have hsb : ∀ t < 2 ^ p.value - 1, s.getD t 0 ^ 2 ≤ (21 / 2000) ^ 2 := by
      intro t ht
      rw [hsg t (by omega), chanOut, ← sum_subset (s₁ := {19, 20}) (by
        intro k hk
        rw [mem_range, hhl]
        simp only [mem_insert, mem_singleton] at hk
        omega) (by
        intro k _ hk
        simp only [mem_insert, mem_singleton, not_or] at hk
        rw [hhg, if_neg hk.1, if_neg hk.2, zero_mul]), sum_pair (by norm_num), hhg, hhg]
      refine sq_le_sq' ?_ ?_ <;>
      · have a1 := abs_le.1 (hxb ((t : ℤ) + 0 + (19 : ℕ) - (19 : ℕ)))
        have a2 := abs_le.1 (hxb ((t : ℤ) + 0 + (19 : ℕ) - (20 : ℕ)))
        norm_num at a1 a2 ⊢
        linarith
    have hNr : (0 : ℝ) < ((2 ^ p.value - 1 : ℕ) : ℝ) := by exact_mod_cast (by omega : 0 < 2 ^ p.value - 1)
    have hV : popVar (2 ^ p.value - 1) (fun t => s.getD t 0) ≤ (21 / 2000) ^ 2 := by
      rw [popVar_eq _ (by omega)]
      have := sum_le_sum fun t ht => hsb t (mem_range.1 ht)
      rw [sum_const, card_range, nsmul_eq_mul, mul_comm] at this
      have h3 := (div_le_iff₀ hNr).2 this
      have h4 := sq_nonneg ((∑ t ∈ range (2 ^ p.value - 1), s.getD t 0) / ((2 ^ p.value - 1 : ℕ) : ℝ))
      linarith
    norm_num at hV ⊢
    linarith

/-- C102: NRZ of PRBS7, 271 symbols from position 5, with an exact solver -/
example (x : ℤ → ℝ) (hx : x = periodic (2 ^ PrbsEnum.prbs7.value - 1)
      (txLevel .nrz false false false false false (bitAt (getPolynomial .prbs7) (onesSeed .prbs7)))) :
    ∃ ls : Solver ℝ, cdrStepTest ls .prbs7 ((List.range 271).map fun t : ℕ => x (t + 5)) ((List.range 127).map fun t : ℕ => x t) 255
      .nrz id = .ok true := by
  obtain ⟨ls, hls⟩ := C58_solver (K := ℝ) 84
  refine ⟨ls, C102_passes ls .prbs7 .nrz (by decide) x hx 2 le_rfl ((List.range 271).map fun t : ℕ => x (t + 5)) 5
    (by rw [List.length_map, List.length_range]; rfl) (fun t ht => ?_) 255 (by decide) hls⟩
  rw [List.length_map, List.length_range] at ht
  rw [map_range_getD _ _ _ _ ht]

/-- C102: PAM4 of PRBS9, one period -/
example (x : ℤ → ℝ) (hx : x = periodic (2 ^ PrbsEnum.prbs9.value - 1)
      (txLevel .pam4 false false false false false (bitAt (getPolynomial .prbs9) (onesSeed .prbs9)))) :
    ∃ ls : Solver ℝ, cdrStepTest ls .prbs9 ((List.range 528).map fun t : ℕ => x t) ((List.range 511).map fun t : ℕ => x t) 512
      .pam4 id = .ok true := by
  obtain ⟨ls, hls⟩ := C58_solver (K := ℝ) 84
  refine ⟨ls, C102_passes ls .prbs9 .pam4 (by decide) x hx 1 le_rfl ((List.range 528).map fun t : ℕ => x t) 0
    (by rw [List.length_map, List.length_range]; rfl) (fun t ht => ?_) 512 (by decide) hls⟩
  rw [List.length_map, List.length_range] at ht
  rw [map_range_getD _ _ _ _ ht, add_zero]

/-- C102: the hypotheses of `C102_assertion` are met by an undistorted NRZ signal of every PRBS -/
example (p : PrbsEnum) (x : ℤ → ℝ)
    (hx : x = periodic (2 ^ p.value - 1) (txLevel .nrz false false false false false (bitAt (getPolynomial p) (onesSeed p))))
    (h s : List ℝ) (hh : h = List.replicate 19 0 ++ 1 :: List.replicate 64 0)
    (hs : s = (List.range (2 * (2 ^ p.value - 1) + 1)).map fun t : ℕ => x t) :
    ∃ ls : Solver ℝ, cursorsClose ls p s .nrz = .ok true := by
  obtain ⟨ls, hls⟩ := C58_solver (K := ℝ) 84
  have hNp := period_ge p
  have hhl : h.length = 84 := by
    rw [hh, List.length_append, List.length_cons, List.length_replicate, List.length_replicate]
  have hhg : ∀ k, h.getD k 0 = if k = 19 then 1 else 0 := by
    intro k
    rw [hh]
    rcases lt_trichotomy k 19 with hk | hk | hk
    · rw [List.getD_append _ _ _ _ (by rw [List.length_replicate]; exact hk), if_neg (by omega)]
      exact getD_replicate_zero 19 k
    · subst hk; rfl
    · rw [List.getD_append_right _ _ _ _ (by rw [List.length_replicate]; omega), if_neg (by omega), List.length_replicate,
        show k - 19 = (k - 20) + 1 by omega, List.getD_cons_succ]
      exact getD_replicate_zero 64 _
  have hmain : MainTap .nrz h 19 := by
    refine ⟨by rw [hhg]; norm_num, fun k _ hk => ?_⟩
    rw [hhg, hhg, if_neg hk, if_pos rfl]
    split_ifs <;> norm_num
  have hsl : s.length = 2 * (2 ^ p.value - 1) + 1 := by rw [hs, List.length_map, List.length_range]
  have hsx : ∀ t : ℕ, t < s.length → s.getD t 0 = x (t + 0) := by
    intro t ht
    rw [hsl] at ht
    rw [hs, map_range_getD _ _ _ _ ht, add_zero]
  have hsg : ∀ t : ℕ, t < s.length → s.getD t 0 = chanOut h 19 x (t + 0) := by
    intro t ht
    rw [hsx t ht, chanOut, sum_eq_single 19]
    · rw [hhg, if_pos rfl, one_mul]
      congr 1
      omega
    · intro k _ hk; rw [hhg, if_neg hk, zero_mul]
    · intro hn; exact absurd (mem_range.2 (by omega)) hn
  have hlock : muellerMuller s s 1 1 (1 / 1000) = .ok (some 0) := by
    obtain ⟨v, e1, -, e2, -⟩ := C101_exact p .nrz false false false false false (by decide) x hx h 19 (by omega)
      (by rw [if_neg (by decide)]; omega) 0 2 two_pos s s hsl rfl hsg hsx 1 (1 / 1000) (by norm_num)
    have hc1 : cursor h 19 1 = 0 := by
      have : cursor h 19 1 = h.getD 20 0 := by rw [cursor]; rfl
      rw [this, hhg]; norm_num
    have hc2 : cursor h 19 (-1) = 0 := by
      have : cursor h 19 (-1) = h.getD 18 0 := by rw [cursor]; rfl
      rw [this, hhg]; norm_num
    rw [e1, e2.2 (by rw [hc1, hc2]; norm_num)]
  refine ⟨ls, C102_assertion ls p .nrz (by decide) x hx h hhl (fun h => absurd h (by decide)) hmain 0 2 le_rfl s s hsl rfl hsg hsx hlock ?_ hls⟩
  have hu : ∀ t : ℕ, t < 2 ^ p.value - 1 → s.getD t 0 = uSeq p (onesSeed p) (t : ZMod (2 ^ p.value - 1)) := by
    intro t ht
    rw [hsx t (by omega), hx, refZ_int p .nrz false false false false false, refZ, uSeq]
    simp [txLevel, unitScale, Spec.flipBit]
  have hNr : (127 : ℝ) ≤ ((2 ^ p.value - 1 : ℕ) : ℝ) := by exact_mod_cast hNp
  rw [popVar_eq _ (by omega), sum_congr rfl fun t ht => by rw [hu t (mem_range.1 ht)],
    sum_congr (s₁ := range (2 ^ p.value - 1)) rfl fun t ht => hu t (mem_range.1 ht)]
  have h1 := sum_range_zmod (fun z => uSeq p (onesSeed p) z) 1
  have h2 := sum_range_zmod (fun z => uSeq p (onesSeed p) z ^ 2) 1
  rw [one_mul, Nat.cast_one, one_mul] at h1 h2
  rw [h1, h2, uSeq_sum p (onesSeed p) (by simp [onesSeed]) ⟨1, by simp [onesSeed, (value_pos p).ne'], by decide⟩,
    sum_congr rfl fun z _ => (sq _).trans (uSeq_sq p (onesSeed p) z), sum_const, card_univ, ZMod.card, nsmul_eq_mul, mul_one, div_self (by linarith)]
  have h3 : 1 / ((2 ^ p.value - 1 : ℕ) : ℝ) ≤ 1 / 127 := one_div_le_one_div_of_le (by norm_num) hNr
  have h4 : 0 ≤ 1 / ((2 ^ p.value - 1 : ℕ) : ℝ) := by positivity
  nlinarith

/-- **C102**, a record of less than one period of the PRBS never passes: the estimate is not finite. -/
theorem C102_short (ls : Solver ℝ) (p : PrbsEnum) (c : Constellation) (hc : c ≠ .pam3) (signal : List ℝ) (h0 : 0 < signal.length)
    (hl : signal.length < 2 ^ p.value - 1) : cursorsClose ls p signal c = .ok false := by
  have hNp := period_ge p
  unfold cursorsClose
  rw [(C68_branches ls p c signal 64 19 false false false false false false h0).2.2 hc (by omega) hl]
  rfl

example (ls : Solver ℝ) : cursorsClose ls .prbs7 [1, -1, 1] .nrz = .ok false :=
  C102_short ls .prbs7 .nrz (by decide) _ (by simp) (by simp only [List.length_cons, List.length_nil]; decide)

/-- **C102**, whether the loop stops at a zero step or runs out of iterations: the signal that reaches the estimation is the matrix
column of the phase of the last iteration, and the phase returned is one timing step further. -/
theorem C102_last_signal (tol : ℝ) (pattern : List ℝ) (refLen osr : ℕ) (mat : List (List ℝ)) (iters phase : ℕ) (last : List ℝ)
    (r : ℕ × List ℝ) (h : mmLoopSignal tol pattern refLen osr mat (iters + 1) phase last = .ok r) :
    ∃ (ph : ℕ) (aligned : List ℝ × List ℝ) (v : ℤ), r.2 = mat.map (fun row => row.getD ph 0) ∧ lockPattern pattern r.2 = .ok aligned ∧
      muellerMuller r.2 ((tile aligned.1 ((refLen + pattern.length - 1) / pattern.length)).take r.2.length) 1 1 tol = .ok (some v) ∧
      r.1 = (((ph : ℤ) + v) % (osr : ℤ)).toNat := by
  induction iters generalizing phase last with
  | zero =>
    rw [mmLoopSignal] at h
    cases h1 : lockPattern pattern (mat.map (fun row => row.getD phase 0)) with
    | error e => rw [h1] at h; simp [bind, Except.bind] at h
    | ok al =>
      rw [h1] at h
      simp only [bind, Except.bind] at h
      cases h2 : muellerMuller (mat.map (fun row => row.getD phase 0))
          ((tile al.1 ((refLen + pattern.length - 1) / pattern.length)).take (mat.map (fun row => row.getD phase 0)).length) 1 1 tol with
      | error e => rw [h2] at h; simp at h
      | ok o =>
        rw [h2] at h
        cases o with
        | none => simp at h
        | some v =>
          simp only [mmLoopSignal, ite_self] at h
          cases h
          exact ⟨phase, al, v, rfl, h1, h2, rfl⟩
  | succ iters ih =>
    rw [mmLoopSignal] at h
    cases h1 : lockPattern pattern (mat.map (fun row => row.getD phase 0)) with
    | error e => rw [h1] at h; simp [bind, Except.bind] at h
    | ok al =>
      rw [h1] at h
      simp only [bind, Except.bind] at h
      cases h2 : muellerMuller (mat.map (fun row => row.getD phase 0))
          ((tile al.1 ((refLen + pattern.length - 1) / pattern.length)).take (mat.map (fun row => row.getD phase 0)).length) 1 1 tol with
      | error e => rw [h2] at h; simp at h
      | ok o =>
        rw [h2] at h
        cases o with
        | none => simp at h
        | some v =>
          simp only at h
          split_ifs at h with hv
          · cases h
            exact ⟨phase, al, v, rfl, h1, h2, rfl⟩
          · exact ih _ _ h

/-- The loop of the test on two periods of PRBS7 returns, so the hypothesis of `C102_last_signal` is met by a matrix of 255 rows. -/
example (x : ℤ → ℝ)
    (hx : x = periodic (2 ^ PrbsEnum.prbs7.value - 1) (txLevel .nrz false false false false false (bitAt (getPolynomial .prbs7) (onesSeed .prbs7)))) :
    ∃ (mat : List (List ℝ)) (r : ℕ × List ℝ), mat.length = 255 ∧ r.2.length = 255 ∧
      mmLoopSignal (1 / 1000) ((List.range (2 ^ PrbsEnum.prbs7.value - 1)).map fun t : ℕ => x t) 255 64 mat (63 + 1) 32 [] = .ok r := by
  obtain ⟨symbols, hsy⟩ : ∃ s : List ℝ, s = (List.range 271).map fun t : ℕ => x (t + 0) := ⟨_, rfl⟩
  have hsl : symbols.length = 2 * (2 ^ PrbsEnum.prbs7.value - 1) + 1 + 16 := by rw [hsy, List.length_map, List.length_range]; rfl
  have hs : ∀ t : ℕ, t < symbols.length → symbols.getD t 0 = x (t + 0) := by
    intro t ht
    rw [hsy, map_range_getD _ _ _ _ (by rw [hsy, List.length_map, List.length_range] at ht; exact ht)]
  have hrun := C102_test .prbs7 .nrz (by decide) false false false false false (fun _ h => absurd h (by decide)) x hx 2 two_pos symbols 0
    hsl hs 255 (by decide)
  have hpulse : IsPulse "rcos" (1 / 2) 64 (rcosFn (1 / 2)) := Or.inr (Or.inr (Or.inl ⟨rfl, by norm_num, rcosFn_spec _⟩))
  obtain ⟨y, z, hy, hyl, -, -⟩ := C50_superposition symbols 64 8 "rcos" (1 / 2) (rcosFn (1 / 2)) hpulse (by norm_num) (by norm_num)
    (by rw [hsl]; omega)
  obtain ⟨w, hw⟩ : ∃ w, w = y.drop (64 * 16) := ⟨_, rfl⟩
  have hwl : w.length = 255 * 64 := by
    rw [hw, List.length_drop, hyl, hsl]; rfl
  obtain ⟨mat, hmat, hmrows, -⟩ := C42_frames w (by intro h; rw [h, List.length_nil] at hwl; omega) 64 0 0 (by norm_num)
  have hml : mat.length = 255 := by
    have key : ∀ r : ℕ, r < mat.length ↔ r < 255 := by
      intro r
      rw [hmrows, hwl]
      push_cast
      omega
    have h1 := key mat.length
    have h2 := key 255
    omega
  rw [recoverClock, hy] at hrun
  simp only [bind, Except.bind, List.map_id] at hrun
  rw [show 64 * (2 * 8) = 64 * 16 from rfl, ← hw, hmat] at hrun
  exact ⟨mat, _, hml, by rw [List.length_map, hml], mmLoopSignal_of _ _ _ _ _ _ 64 32 [] (by norm_num) hrun⟩

end Verif
