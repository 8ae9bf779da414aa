import Verif.Lemmas.CdrTest

/-! C102: the clock recovery loop of test_cdr.py on a shaped signal. -/

open Finset

namespace Verif

open Spec (unitScale txLevel periodic chanOut levelVariance phaseDist sCurve IsRaisedCosine truncated IsPulse echo)


/-- **C102.** NRZ, OOK or PAM4 symbols of a supported PRBS, shaped with a sinc or a raised cosine of any roll-off up to 1 (`b`, 0 for the
sinc), `q` whole periods and one symbol after the start-up of the pulse: from every phase the loop ends by itself, at a phase not
farther from the symbol centre than the first, where the timing error is below the tolerance; at all distances it passes
before, the error is not. -/
theorem C102_lock (p : PrbsEnum) (c : Constellation) (hc : c ≠ .pam3) (fs bi pnPre gray pnPost : Bool)
    (x : ℤ → ℝ)
    (hx : x = periodic (2 ^ p.value - 1) (txLevel c fs bi pnPre gray pnPost (bitAt (getPolynomial p) (onesSeed p))))
    (name : String) (β b : ℝ) (hname : name = "sinc" ∧ b = 0 ∨ name = "rcos" ∧ b = β ∧ 0 < β ∧ β ≤ 1) (g : ℝ → ℝ)
    (hg : IsRaisedCosine b g) (osr span : ℕ) (ho : 0 < osr) (hsp : 2 ≤ span) (hspan : 2 * span + 1 < if c = .pam4 then echo p bi gray else 2 ^ (p.value - 1) - 1)
    (q : ℕ) (hq : 0 < q) (symbols : List ℝ) (off : ℤ) (hsl : symbols.length = q * (2 ^ p.value - 1) + 1 + 2 * span)
    (hs : ∀ t : ℕ, t < symbols.length → symbols.getD t 0 = x (t + off)) (refLen : ℕ) (hrl : q * (2 ^ p.value - 1) < refLen)
    (tol : ℝ) (ht : 0 < tol) (phase : ℕ) (hph : phase < osr) :
    ∃ φ, recoverClock symbols ((List.range (2 ^ p.value - 1)).map fun t : ℕ => x t) refLen osr span name β id tol phase
        = .ok (φ, true) ∧ φ < osr ∧ phaseDist osr φ ≤ phaseDist osr phase ∧
      2 ^ p.value / (2 ^ p.value - 1) * levelVariance c fs * sCurve g ((phaseDist osr φ : ℕ) / osr) < tol ∧
      ∀ d : ℕ, phaseDist osr φ < d → d ≤ phaseDist osr phase →
        tol ≤ 2 ^ p.value / (2 ^ p.value - 1) * levelVariance c fs * sCurve g (d / osr) := by
  have hNp := period_ge p
  have hb0 : 0 ≤ b := by rcases hname with ⟨-, rfl⟩ | ⟨-, rfl, h, -⟩ <;> linarith
  have hb1 : b ≤ 1 := by rcases hname with ⟨-, rfl⟩ | ⟨-, rfl, -, h⟩ <;> linarith
  have hgr : g = rcosFn b := isRaisedCosine_unique b g hg
  subst hgr
  have hpulse : IsPulse name β osr (rcosFn b) := by
    rcases hname with ⟨rfl, rfl⟩ | ⟨rfl, rfl, h, -⟩
    · exact Or.inr (Or.inl ⟨rfl, funext rcosFn_sinc⟩)
    · exact Or.inr (Or.inr (Or.inl ⟨rfl, h.ne', hg⟩))
  obtain ⟨A, B, κ, hAB, hκ, hlag⟩ := ref_lagForm p fs bi pnPre gray pnPost c hc
  set rz := refZ p c fs bi pnPre gray pnPost with hrz
  have hvar : 0 < levelVariance c fs := by
    have h2 := unitScale_pos c fs
    cases c <;> simp only [levelVariance] <;> positivity
  have hNr : (0 : ℝ) < ((2 ^ p.value - 1 : ℕ) : ℝ) := by exact_mod_cast (by omega : 0 < 2 ^ p.value - 1)
  have hABlt : B < A := by nlinarith
  have hpow : (2 : ℝ) ^ p.value = ((2 ^ p.value - 1 : ℕ) : ℝ) + 1 := by
    rw [Nat.cast_sub Nat.one_le_two_pow]; push_cast; ring
  have hK : (A - B) / ((2 ^ p.value - 1 : ℕ) : ℝ) = 2 ^ p.value / (2 ^ p.value - 1) * levelVariance c fs := by
    rw [hAB, hpow, add_sub_cancel_right]; ring
  have hxz : ∀ t : ℤ, x t = rz (t : ZMod (2 ^ p.value - 1)) := fun t => by rw [hx]; exact refZ_int p c fs bi pnPre gray pnPost t
  have hpat : ((List.range (2 ^ p.value - 1)).map fun t : ℕ => x t)
      = (List.range (2 ^ p.value - 1)).map (fun t : ℕ => rz (t : ZMod (2 ^ p.value - 1))) := by
    refine List.map_congr_left fun t _ => ?_
    rw [hxz]; push_cast; rfl
  -- the shaped signal
  obtain ⟨y, z, hy, hyl, -, hyg⟩ := C50_superposition symbols osr span name β (rcosFn b) hpulse ho (by omega) (by omega)
  set w := y.drop (osr * (2 * span)) with hw
  have hwl : w.length = (q * (2 ^ p.value - 1) + 1) * osr := by
    rw [hw, List.length_drop, hyl, hsl, add_mul _ (2 * span), mul_comm osr, Nat.add_sub_cancel]
  have hwne : w ≠ [] := by
    intro h
    rw [h, List.length_nil] at hwl
    exact (Nat.mul_pos (Nat.succ_pos (q * (2 ^ p.value - 1))) ho).ne hwl
  obtain ⟨mat, hmat, hmrows, hmg⟩ := C42_frames w hwne osr 0 0 (by exact_mod_cast ho)
  have hml : mat.length = q * (2 ^ p.value - 1) + 1 := by
    have key : ∀ r : ℕ, r < mat.length ↔ r < q * (2 ^ p.value - 1) + 1 := by
      intro r
      rw [hmrows, hwl]
      simp only [sub_zero, max_self, Nat.cast_zero, zero_add]
      norm_cast
      exact Nat.mul_lt_mul_right ho
    have h1 := key mat.length
    have h2 := key (q * (2 ^ p.value - 1) + 1)
    omega
  have hrun : recoverClock symbols ((List.range (2 ^ p.value - 1)).map fun t : ℕ => x t) refLen osr span name β id tol phase
      = mmLoop tol ((List.range (2 ^ p.value - 1)).map (fun t : ℕ => rz (t : ZMod (2 ^ p.value - 1)))) refLen osr mat osr phase := by
    rw [recoverClock, hy]
    simp only [bind, Except.bind, List.map_id, id_eq]
    rw [← hw, hmat, hpat]
  rw [hrun, ← hK]
  have hE := (echo_half p bi gray).2
  have hE' := (echo_half p bi false).2
  have hfar : ∀ i : ℤ, |i| ≤ 2 * span + 1 → (i : ZMod (2 ^ p.value - 1)) ≠ (if c = .pam4 then ((echo p bi gray : ℕ) : ZMod (2 ^ p.value - 1))
        else ((2 ^ (p.value - 1) - 1 : ℕ) : ZMod (2 ^ p.value - 1))) ∧
      (i : ZMod (2 ^ p.value - 1)) ≠ -(if c = .pam4 then ((echo p bi gray : ℕ) : ZMod (2 ^ p.value - 1))
        else ((2 ^ (p.value - 1) - 1 : ℕ) : ZMod (2 ^ p.value - 1))) := by
    intro i hi
    split_ifs at hspan ⊢
    · exact echo_far p bi gray i (by omega)
    · exact echo_far p bi false i (lt_of_le_of_lt hi (by exact_mod_cast hspan))
  have hsN : 2 * span ≤ 2 ^ p.value - 1 := by
    have : echo p bi false = 2 ^ (p.value - 1) - 1 := rfl
    split_ifs at hspan <;> omega
  refine loop_walk rz A B κ hκ _ hlag hABlt ((span : ZMod (2 ^ p.value - 1)) + (off : ZMod (2 ^ p.value - 1))) q hq tol ht
    refLen osr hrl ho mat hml b hb0 hb1 span hsp hsN hfar ?_ osr phase hph (by rw [phaseDist]; omega)
  intro φ hφ t htm
  rw [hml] at htm
  rw [(hmg t (by omega)).2 φ hφ]
  have hidx : (t : ℤ) * ((osr : ℤ) - 0) + φ - (0 : ℕ) = ((t * osr + φ : ℕ) : ℤ) := by push_cast; ring
  have hlt : t * osr + φ < (q * (2 ^ p.value - 1) + 1) * osr := by
    have : (t + 1) * osr ≤ (q * (2 ^ p.value - 1) + 1) * osr := Nat.mul_le_mul_right _ (by omega)
    rw [add_mul t 1, one_mul] at this
    omega
  rw [hidx, Spec.sample, if_pos (by omega), Int.toNat_natCast, hw, drop_getD]
  rw [hyg _ (by rw [hsl, add_mul _ (2 * span), mul_comm osr]; omega)]
  have hor : (osr : ℝ) ≠ 0 := by exact_mod_cast ho.ne'
  have hco := chanOut_zmod (phaseTaps (rcosFn b) span (φ / osr)) span x rz hxz (t + span + off)
  have hcast : (((t : ℤ) + span + off : ℤ) : ZMod (2 ^ p.value - 1)) = (t : ZMod (2 ^ p.value - 1))
      + ((span : ZMod (2 ^ p.value - 1)) + (off : ZMod (2 ^ p.value - 1))) := by push_cast; ring
  rw [hcast] at hco
  rw [rxZ, ← hco, chanOut]
  have hlen : (phaseTaps (rcosFn b) span (φ / osr)).length = 2 * span := by simp [phaseTaps]
  rw [hlen]
  have hor' : (0 : ℝ) < osr := by exact_mod_cast ho
  have hτ0 : (0 : ℝ) ≤ φ / osr := by positivity
  have hτ1 : (φ : ℝ) / osr < 1 := by rw [div_lt_one hor']; exact_mod_cast hφ
  -- only the symbols `t+1 .. t+2 span` count
  have harg : ∀ j : ℕ, (((osr * (2 * span) + (t * osr + φ) : ℕ) : ℝ) / osr - j - span)
      = ((t : ℝ) + span - j) + φ / osr := by
    intro j; push_cast; field_simp; ring
  have hsub : (Ico (t + 1) (t + 1 + 2 * span)) ⊆ range symbols.length := by
    intro j hj
    rw [mem_Ico] at hj
    rw [mem_range]
    omega
  rw [← sum_subset hsub (fun j hj hjn => by
    rw [mem_Ico, not_and_or, not_le, not_lt] at hjn
    rw [harg, truncated, Set.indicator_of_notMem, mul_zero]
    rw [Set.mem_Ico, not_and_or, not_le, not_lt]
    rcases hjn with h | h
    · right
      have : (j : ℝ) + 1 ≤ t + 1 := by exact_mod_cast (by omega : j + 1 ≤ t + 1)
      linarith
    · left
      have : (t : ℝ) + 1 + 2 * span ≤ j := by exact_mod_cast h
      linarith)]
  rw [sum_Ico_eq_sum_range, Nat.add_sub_cancel_left, ← sum_range_reflect]
  refine sum_congr rfl fun k hk => ?_
  rw [mem_range] at hk
  rw [hs _ (by omega), phaseTaps_getD _ _ _ _ hk, harg, truncated, mul_comm]
  have ej : (((t + 1 + (2 * span - 1 - k) : ℕ) : ℝ)) = (t : ℝ) + 2 * span - k := by
    have : t + 1 + (2 * span - 1 - k) + k = t + 2 * span := by omega
    have := congrArg (fun i : ℕ => (i : ℝ)) this
    push_cast at this ⊢
    linarith
  have ejz : (((t + 1 + (2 * span - 1 - k) : ℕ) : ℤ)) + off = (t : ℤ) + span + off + span - k := by omega
  rw [ej, ejz, show (t : ℝ) + span - ((t : ℝ) + 2 * span - k) + φ / osr = (k : ℝ) - span + φ / osr by ring,
    Set.indicator_of_mem]
  rw [Set.mem_Ico]
  have hkr : (k : ℝ) + 1 ≤ 2 * span := by exact_mod_cast (by omega : k + 1 ≤ 2 * span)
  constructor
  · have : (0 : ℝ) ≤ k := Nat.cast_nonneg k
    linarith
  · linarith

/-- **C102.** Resolution of the loop: `m` is 1/2 for roll-offs up to 1/2 and 1/5 for all. The loop ends with an offset of less
than `tol / (m K)` symbols, `K` being the contrast of the symbols; a loop started with an offset below `3 tol / (8 K)` stays where it
is, however many phases there are. -/
theorem C102_resolution (p : PrbsEnum) (c : Constellation) (hc : c ≠ .pam3) (fs bi pnPre gray pnPost : Bool)
    (x : ℤ → ℝ)
    (hx : x = periodic (2 ^ p.value - 1) (txLevel c fs bi pnPre gray pnPost (bitAt (getPolynomial p) (onesSeed p))))
    (name : String) (β b : ℝ) (hname : name = "sinc" ∧ b = 0 ∨ name = "rcos" ∧ b = β ∧ 0 < β ∧ β ≤ 1) (m : ℝ)
    (hm : b ≤ 1 / 2 ∧ m = 1 / 2 ∨ m = 1 / 5) (osr span : ℕ) (ho : 0 < osr) (hsp : 2 ≤ span)
    (hspan : 2 * span + 1 < if c = .pam4 then echo p bi gray else 2 ^ (p.value - 1) - 1)
    (q : ℕ) (hq : 0 < q) (symbols : List ℝ) (off : ℤ) (hsl : symbols.length = q * (2 ^ p.value - 1) + 1 + 2 * span)
    (hs : ∀ t : ℕ, t < symbols.length → symbols.getD t 0 = x (t + off)) (refLen : ℕ) (hrl : q * (2 ^ p.value - 1) < refLen)
    (tol : ℝ) (ht : 0 < tol) (phase : ℕ) (hph : phase < osr) :
    ∃ φ, recoverClock symbols ((List.range (2 ^ p.value - 1)).map fun t : ℕ => x t) refLen osr span name β id tol phase
        = .ok (φ, true) ∧ φ < osr ∧
      m * (2 ^ p.value / (2 ^ p.value - 1) * levelVariance c fs) * (phaseDist osr φ : ℕ) < tol * osr ∧
      (8 / 3 * (2 ^ p.value / (2 ^ p.value - 1) * levelVariance c fs) * (phaseDist osr phase : ℕ) < tol * osr →
        phaseDist osr φ = phaseDist osr phase) := by
  have hb0 : 0 ≤ b := by rcases hname with ⟨-, rfl⟩ | ⟨-, rfl, h, -⟩ <;> linarith
  have hb1 : b ≤ 1 := by rcases hname with ⟨-, rfl⟩ | ⟨-, rfl, -, h⟩ <;> linarith
  obtain ⟨φ, h1, h2, h3, h4, h5⟩ := C102_lock p c hc fs bi pnPre gray pnPost x hx name β b hname (rcosFn b) (rcosFn_spec b)
    osr span ho hsp hspan q hq symbols off hsl hs refLen hrl tol ht phase hph
  refine ⟨φ, h1, h2, ?_, ?_⟩
  all_goals
    have hK : 0 < (2 : ℝ) ^ p.value / (2 ^ p.value - 1) * levelVariance c fs := by
      have hvar : 0 < levelVariance c fs := by
        have h2 := unitScale_pos c fs
        cases c <;> simp only [levelVariance] <;> positivity
      have : (1 : ℝ) < 2 ^ p.value := one_lt_pow₀ one_lt_two (value_pos p).ne'
      exact mul_pos (div_pos (by positivity) (by linarith)) hvar
    set K := (2 : ℝ) ^ p.value / (2 ^ p.value - 1) * levelVariance c fs with hKd
    have hor : (0 : ℝ) < osr := by exact_mod_cast ho
    have hhalf : ∀ φ : ℕ, ((phaseDist osr φ : ℕ) : ℝ) / osr ≤ 1 / 2 := by
      intro φ
      rw [div_le_iff₀ hor]
      have : 2 * phaseDist osr φ ≤ osr := by rw [phaseDist]; omega
      have : (2 : ℝ) * (phaseDist osr φ : ℕ) ≤ osr := by exact_mod_cast this
      linarith
  · rcases Nat.eq_zero_or_pos (phaseDist osr φ) with h0 | h0
    · rw [h0, Nat.cast_zero, mul_zero]; positivity
    · have hp : (0 : ℝ) < (phaseDist osr φ : ℕ) / osr := div_pos (by exact_mod_cast h0) hor
      have := mul_le_mul_of_nonneg_left (sCurve_ge b _ m hb0 hb1 hm hp (hhalf φ)) hK.le
      have h6 := lt_of_le_of_lt this h4
      rw [← mul_assoc, ← mul_div_assoc, div_lt_iff₀ hor] at h6
      linarith [mul_comm K m]
  · intro hlt
    by_contra hne
    have h0 : 0 < phaseDist osr phase := by omega
    have hp : (0 : ℝ) < (phaseDist osr phase : ℕ) / osr := div_pos (by exact_mod_cast h0) hor
    have h6 := le_trans (h5 _ (by omega) le_rfl) (mul_le_mul_of_nonneg_left (sCurve_le b _ hb0 hb1 hp (hhalf phase)) hK.le)
    rw [← mul_assoc, ← mul_div_assoc, le_div_iff₀ hor] at h6
    linarith [mul_comm K (8 / 3)]

/-- **C102.** With a tolerance of at most `m K / osr` the loop ends exactly at the symbol centre, from every phase. -/
theorem C102_centre (p : PrbsEnum) (c : Constellation) (hc : c ≠ .pam3) (fs bi pnPre gray pnPost : Bool)
    (x : ℤ → ℝ)
    (hx : x = periodic (2 ^ p.value - 1) (txLevel c fs bi pnPre gray pnPost (bitAt (getPolynomial p) (onesSeed p))))
    (name : String) (β b : ℝ) (hname : name = "sinc" ∧ b = 0 ∨ name = "rcos" ∧ b = β ∧ 0 < β ∧ β ≤ 1) (m : ℝ)
    (hm : b ≤ 1 / 2 ∧ m = 1 / 2 ∨ m = 1 / 5) (osr span : ℕ) (ho : 0 < osr) (hsp : 2 ≤ span)
    (hspan : 2 * span + 1 < if c = .pam4 then echo p bi gray else 2 ^ (p.value - 1) - 1)
    (q : ℕ) (hq : 0 < q) (symbols : List ℝ) (off : ℤ) (hsl : symbols.length = q * (2 ^ p.value - 1) + 1 + 2 * span)
    (hs : ∀ t : ℕ, t < symbols.length → symbols.getD t 0 = x (t + off)) (refLen : ℕ) (hrl : q * (2 ^ p.value - 1) < refLen)
    (tol : ℝ) (ht : 0 < tol) (phase : ℕ) (hph : phase < osr)
    (htol : tol * osr ≤ m * (2 ^ p.value / (2 ^ p.value - 1) * levelVariance c fs)) :
    recoverClock symbols ((List.range (2 ^ p.value - 1)).map fun t : ℕ => x t) refLen osr span name β id tol phase
      = .ok (0, true) := by
  obtain ⟨φ, h1, h2, h3, -⟩ := C102_resolution p c hc fs bi pnPre gray pnPost x hx name β b hname m hm
    osr span ho hsp hspan q hq symbols off hsl hs refLen hrl tol ht phase hph
  have hpos : 0 < m * (2 ^ p.value / (2 ^ p.value - 1) * levelVariance c fs) :=
    lt_of_lt_of_le (mul_pos ht (by exact_mod_cast ho)) htol
  have h4 := lt_of_lt_of_le h3 htol
  have h5 : ((phaseDist osr φ : ℕ) : ℝ) < 1 := by
    by_contra hge
    push Not at hge
    exact absurd (le_mul_of_one_le_right hpos.le hge) (not_le.mpr h4)
  have h6 : phaseDist osr φ = 0 := by
    have : phaseDist osr φ < 1 := by exact_mod_cast h5
    omega
  have h7 : φ = 0 := by
    rw [phaseDist] at h6; omega
  rw [h1, h7]

/-- **C102.** The constants of the test: 64 phases, span 8, raised cosine with roll-off 1/2, tolerance 1/1000, start half a symbol
away from the centre. For every supported PRBS, constellation and scaling the loop ends at phase 0. Left out are the two
combinations with an echo within the span of the pulse: Gray coded PAM4 of PRBS7 and PRBS15, least significant bit first. -/
theorem C102_test (p : PrbsEnum) (c : Constellation) (hc : c ≠ .pam3) (fs bi pnPre gray pnPost : Bool)
    (hecho : c = .pam4 → gray = true → bi = false → p ≠ .prbs7 ∧ p ≠ .prbs15)
    (x : ℤ → ℝ)
    (hx : x = periodic (2 ^ p.value - 1) (txLevel c fs bi pnPre gray pnPost (bitAt (getPolynomial p) (onesSeed p))))
    (q : ℕ) (hq : 0 < q) (symbols : List ℝ) (off : ℤ) (hsl : symbols.length = q * (2 ^ p.value - 1) + 1 + 16)
    (hs : ∀ t : ℕ, t < symbols.length → symbols.getD t 0 = x (t + off)) (refLen : ℕ) (hrl : q * (2 ^ p.value - 1) < refLen) :
    recoverClock symbols ((List.range (2 ^ p.value - 1)).map fun t : ℕ => x t) refLen 64 8 "rcos" (1 / 2) id (1 / 1000) 32
      = .ok (0, true) := by
  have hNp := period_ge p
  have hspan : 2 * 8 + 1 < if c = .pam4 then echo p bi gray else 2 ^ (p.value - 1) - 1 := by
    split_ifs with h4
    · cases gray with
      | false => cases bi <;> cases p <;> decide +kernel
      | true =>
        have := hecho h4 rfl
        cases bi with
        | false => cases p <;> first | exact absurd rfl (this rfl).1 | exact absurd rfl (this rfl).2 | decide +kernel
        | true => cases p <;> decide +kernel
    · cases p <;> decide +kernel
  refine C102_centre p c hc fs bi pnPre gray pnPost x hx "rcos" (1 / 2) (1 / 2)
    (Or.inr ⟨rfl, rfl, by norm_num, by norm_num⟩) (1 / 2) (Or.inl ⟨le_rfl, rfl⟩) 64 8 (by norm_num) (by norm_num) hspan q hq
    symbols off hsl hs refLen hrl (1 / 1000) (by norm_num) 32 (by norm_num) ?_
  have hvar : 1 / 4 ≤ levelVariance c fs := by
    cases c <;> cases fs <;> first | exact absurd rfl hc | (simp [levelVariance, unitScale] <;> norm_num)
  have h1 : (1 : ℝ) < 2 ^ p.value := one_lt_pow₀ one_lt_two (value_pos p).ne'
  have h2 : (1 : ℝ) ≤ 2 ^ p.value / (2 ^ p.value - 1) := by rw [le_div_iff₀ (by linarith)]; linarith
  have := mul_le_mul h2 hvar (by norm_num) (by linarith)
  push_cast
  linarith

example (x : ℤ → ℝ) (hx : x = periodic (2 ^ PrbsEnum.prbs7.value - 1)
      (txLevel .nrz false false false false false (bitAt (getPolynomial .prbs7) (onesSeed .prbs7)))) :
    recoverClock ((List.range 271).map fun t : ℕ => x (t + 5)) ((List.range 127).map fun t : ℕ => x t) 255 64 8 "rcos" (1 / 2) id
      (1 / 1000) 32 = .ok (0, true) :=
  C102_test .prbs7 .nrz (by decide) false false false false false (fun h => absurd h (by decide)) x hx 2 two_pos
    ((List.range 271).map fun t : ℕ => x (t + 5)) 5 (by rw [List.length_map, List.length_range]; rfl)
    (fun t ht => by
      rw [List.length_map, List.length_range] at ht
      rw [map_range_getD _ _ _ _ ht]) 255 (by decide)

/-- C102: Gray coded PAM4 of PRBS13 with the inversion before coding -/
example (x : ℤ → ℝ) (hx : x = periodic (2 ^ PrbsEnum.prbs13.value - 1)
      (txLevel .pam4 false false true true false (bitAt (getPolynomial .prbs13) (onesSeed .prbs13)))) :
    recoverClock ((List.range 8208).map fun t : ℕ => x t) ((List.range 8191).map fun t : ℕ => x t) 8192 64 8 "rcos" (1 / 2) id
      (1 / 1000) 32 = .ok (0, true) :=
  C102_test .prbs13 .pam4 (by decide) false false true true false (by decide) x hx 1 one_pos
    ((List.range 8208).map fun t : ℕ => x t) 0 (by rw [List.length_map, List.length_range]; rfl)
    (fun t ht => by
      rw [List.length_map, List.length_range] at ht
      rw [map_range_getD _ _ _ _ ht, add_zero]) 8192 (by decide)

example (x : ℤ → ℝ) (hx : x = periodic (2 ^ PrbsEnum.prbs9.value - 1)
      (txLevel .pam4 true false true false false (bitAt (getPolynomial .prbs9) (onesSeed .prbs9)))) :
    recoverClock ((List.range 528).map fun t : ℕ => x t) ((List.range 511).map fun t : ℕ => x t) 512 32 8 "sinc" 0 id
      (1 / 100) 5 = .ok (0, true) :=
  C102_centre .prbs9 .pam4 (by decide) true false true false false x hx "sinc" 0 0 (Or.inl ⟨rfl, rfl⟩) (1 / 2)
    (Or.inl ⟨by norm_num, rfl⟩) 32 8 (by norm_num) (by norm_num) (by decide) 1 one_pos
    ((List.range 528).map fun t : ℕ => x t) 0 (by rw [List.length_map, List.length_range]; rfl)
    (fun t ht => by
      rw [List.length_map, List.length_range] at ht
      rw [map_range_getD _ _ _ _ ht, add_zero]) 512 (by decide) (1 / 100) (by norm_num) 5 (by norm_num) (by
        have v : PrbsEnum.prbs9.value = 9 := rfl
        rw [v]
        norm_num [levelVariance, unitScale])

/-- **C102, disagreement.** The tolerance is absolute, so a finer grid of phases does not give a finer lock: with the constants of
the test, OOK and 2000 phases the loop started two phases from the centre stops at once. -/
theorem C102_negative_grid (p : PrbsEnum) (x : ℤ → ℝ)
    (hx : x = periodic (2 ^ p.value - 1) (txLevel .ook false false false false false (bitAt (getPolynomial p) (onesSeed p))))
    (symbols : List ℝ) (hsl : symbols.length = (2 ^ p.value - 1) + 1 + 16)
    (hs : ∀ t : ℕ, t < symbols.length → symbols.getD t 0 = x t) :
    ∃ φ, recoverClock symbols ((List.range (2 ^ p.value - 1)).map fun t : ℕ => x t) (2 ^ p.value) 2000 8 "rcos" (1 / 2) id
        (1 / 1000) 2 = .ok (φ, true) ∧ (φ = 2 ∨ φ = 1998) := by
  have hNp := period_ge p
  obtain ⟨φ, h1, h2, -, h4⟩ := C102_resolution p .ook (by decide) false false false false false x hx
    "rcos" (1 / 2) (1 / 2)
    (Or.inr ⟨rfl, rfl, by norm_num, by norm_num⟩) (1 / 2) (Or.inl ⟨le_rfl, rfl⟩) 2000 8 (by norm_num) (by norm_num)
    (by rw [if_neg (by decide)]; have : 2 ^ p.value = 2 * 2 ^ (p.value - 1) := by
          rw [← Nat.pow_succ']; congr 1; have := value_pos p; omega
        omega) 1
    one_pos symbols 0 (by rw [hsl, one_mul]) (fun t ht => by rw [hs t ht, add_zero]) (2 ^ p.value) (by omega) (1 / 1000)
    (by norm_num) 2 (by norm_num)
  refine ⟨φ, h1, ?_⟩
  have h5 := h4 (by
    have e : phaseDist 2000 2 = 2 := rfl
    have h127 : (128 : ℝ) ≤ 2 ^ p.value := by exact_mod_cast (by omega : 128 ≤ 2 ^ p.value)
    have h2 : (2 : ℝ) ^ p.value / (2 ^ p.value - 1) ≤ 128 / 127 := by
      rw [div_le_div_iff₀ (by linarith) (by norm_num)]; linarith
    rw [e]
    norm_num [levelVariance, unitScale]
    linarith)
  have e : phaseDist 2000 2 = 2 := rfl
  rw [e, phaseDist] at h5
  omega

example (x : ℤ → ℝ) (hx : x = periodic (2 ^ PrbsEnum.prbs7.value - 1)
      (txLevel .ook false false false false false (bitAt (getPolynomial .prbs7) (onesSeed .prbs7)))) :
    ∃ φ, recoverClock ((List.range 144).map fun t : ℕ => x t) ((List.range 127).map fun t : ℕ => x t) 128 2000 8 "rcos" (1 / 2) id
      (1 / 1000) 2 = .ok (φ, true) ∧ (φ = 2 ∨ φ = 1998) :=
  C102_negative_grid .prbs7 x hx _ (by rw [List.length_map, List.length_range]; rfl)
    (fun t ht => by
      rw [List.length_map, List.length_range] at ht
      rw [map_range_getD _ _ _ _ ht])

end Verif
