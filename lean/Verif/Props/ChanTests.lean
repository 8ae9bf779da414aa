import Verif.Lemmas.ChanTests
import Verif.Lemmas.SymbolReal

/-!
# The project's test of the channel estimation (C91), and recovery of the channel from the phase of the lock alone (C68)
-/

open Finset

namespace Verif
open Spec (unitScale flipBit txLevel periodic chanOut popVar MainTap IsLs periodAvg BestPhase)

/-- **C68.** Exact recovery whenever the lock has one best phase: if the capture (at least one period) is the periodic PRBS
sent through `h`, whose main tap is its largest, from phase `φ`, and every phase of best correlation is `φ` up to periods,
then with `normalize` the estimate is the channel divided by its main tap. -/
theorem C68_recovers_phase (ls : Solver ℝ) (p : PrbsEnum) (c : Constellation) (hc : c ≠ .pam3)
    (fullScale bitOrderInv pnPre gray pnPost : Bool) (b : ℕ → ℤ)
    (hb : Spec.LfsrStream (getPolynomial p) (List.replicate p.value 1) b) (h : List ℝ) (post pre : ℕ)
    (hl : h.length = post + pre + 1) (hW : post + pre + 1 ≤ 2 ^ p.value - 1) (hpos : 0 < h.getD pre 0)
    (hm : ∀ k < h.length, k ≠ pre → h.getD k 0 < h.getD pre 0) (φ : ℤ)
    (signal : List ℝ) (hlen : 2 ^ p.value - 1 ≤ signal.length)
    (hs : ∀ t < signal.length, signal.getD t 0
      = chanOut h pre (periodic (2 ^ p.value - 1) (txLevel c fullScale bitOrderInv pnPre gray false b)) (t + φ))
    (hbest : ∀ ph, BestPhase (periodic (2 ^ p.value - 1) (txLevel c fullScale bitOrderInv pnPre gray false b))
      (fun t => signal.getD t 0) (min ((if c = .pam4 then 1 else 2) * (2 ^ p.value - 1)) signal.length) ph →
      ((2 ^ p.value - 1 : ℕ) : ℤ) ∣ ph - φ)
    (hls : IsLs (solveWith ls .none 0) (post + pre + 1)) :
    ∃ e, channelEstimationPrbs ls p signal c fullScale post pre true bitOrderInv pnPre gray pnPost
        = .ok (some (h.map (· / h.getD pre 0), e)) := by
  have hb' := hb
  obtain rfl := lfsrStream_unique hb (lfsrStream_bitAt _ _ (by rw [poly_length]; simp))
  have hN1 : 127 ≤ (2 ^ p.value - 1) := period_ge p
  have hN : 0 < (2 ^ p.value - 1) := by omega
  have hp : pre < h.length := by omega
  have hlN : h.length ≤ (2 ^ p.value - 1) := by omega
  have hgood := ref_good p c fullScale bitOrderInv pnPre gray false hc
  have hx : ∀ t : ℤ, periodic (2 ^ p.value - 1) (txLevel c fullScale bitOrderInv pnPre gray false
      (bitAt (getPolynomial p) (List.replicate p.value 1))) t
      = refZ p c fullScale bitOrderInv pnPre gray false (t : ZMod (2 ^ p.value - 1)) := fun t => refZ_int p c _ _ _ _ _ t
  obtain ⟨ref, href⟩ : ∃ ref, ref = refZ p c fullScale bitOrderInv pnPre gray false := ⟨_, rfl⟩
  rw [← href] at hgood hx
  obtain ⟨x, hxd⟩ : ∃ x, x = periodic (2 ^ p.value - 1) (txLevel c fullScale bitOrderInv pnPre gray false
      (bitAt (getPolynomial p) (List.replicate p.value 1))) := ⟨_, rfl⟩
  have hopt := C68_optimal ls p c hc fullScale bitOrderInv pnPre gray pnPost true _ hb' post pre hW signal hlen hls
  rw [← hxd] at hs hbest hx
  simp only [← hxd] at hopt
  obtain ⟨m, hmd⟩ : ∃ m, m = periodAvg (2 ^ p.value - 1) (signal.length / (2 ^ p.value - 1)) (fun t => signal.getD t 0) := ⟨_, rfl⟩
  simp only [← hmd] at hopt
  -- the average is the signal
  have hout : ∀ (w : List ℝ) (t : ℤ), chanOut w pre x t = ∑ r, tapZ (2 ^ p.value - 1) w pre r * ref ((t : ZMod (2 ^ p.value - 1)) + r) :=
    fun w t => chanOut_zmod w pre x ref hx t
  have hreps : 0 < signal.length / (2 ^ p.value - 1) := Nat.div_pos hlen hN
  have hmt : ∀ t < 2 ^ p.value - 1, m t = chanOut h pre x (t + φ) := by
    intro t ht
    rw [hmd, periodAvg]
    have : ∀ r ∈ range (signal.length / (2 ^ p.value - 1)), signal.getD (r * (2 ^ p.value - 1) + t) 0 = chanOut h pre x (t + φ) := by
      intro r hr
      rw [mem_range] at hr
      have h1 : (r + 1) * (2 ^ p.value - 1) ≤ signal.length / (2 ^ p.value - 1) * (2 ^ p.value - 1) := Nat.mul_le_mul_right _ hr
      have h2 := Nat.div_mul_le_self signal.length (2 ^ p.value - 1)
      rw [Nat.add_mul, one_mul] at h1
      rw [hs _ (by omega), hout, hout]
      refine sum_congr rfl fun q _ => ?_
      congr 2
      push_cast
      rw [ZMod.natCast_self]
      ring
    rw [sum_congr rfl this, sum_const, card_range, nsmul_eq_mul, mul_div_cancel_left₀]
    exact_mod_cast hreps.ne'
  -- the main tap by residue
  have ht0 := tapZ_zero (N := 2 ^ p.value - 1) h pre hlN hp
  have hne1 : (1 : ZMod (2 ^ p.value - 1)) ≠ 0 := by
    intro h0
    have h' : ((1 : ℕ) : ZMod (2 ^ p.value - 1)) = 0 := by rwa [Nat.cast_one]
    have := Nat.le_of_dvd one_pos ((ZMod.natCast_eq_zero_iff _ _).1 h')
    omega
  have ht1 : tapZ (2 ^ p.value - 1) h pre 1 < tapZ (2 ^ p.value - 1) h pre 0 := by
    rw [ht0]
    rcases tapZ_bound h pre hlN 1 with q | ⟨k, hk, hks, hke⟩
    · rw [q]; exact hpos
    · rw [hke]
      exact hm k hk (by rintro rfl; rw [sub_self] at hks; exact hne1 hks.symm)
  -- positive variance
  have hv : 0 < popVar (2 ^ p.value - 1) m := by
    refine popVar_pos (2 ^ p.value - 1) hN _ ?_
    by_contra hcon
    push Not at hcon
    have hconst : ∀ z : ZMod (2 ^ p.value - 1), ∑ r, tapZ (2 ^ p.value - 1) h pre r * ref (z + r) = m 0 := by
      intro z
      have h1 := hcon (z - (φ : ZMod (2 ^ p.value - 1))).val (ZMod.val_lt _)
      rw [hmt _ (ZMod.val_lt _), hout] at h1
      rw [← h1]
      push_cast
      rw [ZMod.natCast_zmod_val, sub_add_cancel]
    have hk := hgood.inj (fun r => tapZ (2 ^ p.value - 1) h pre r - tapZ (2 ^ p.value - 1) h pre (r + 1)) (by
      intro z
      simp only [sub_mul, sum_sub_distrib]
      have h2 := hconst (z - 1)
      rw [← sum_shift (fun r => tapZ (2 ^ p.value - 1) h pre r * ref (z - 1 + r)) 1] at h2
      have h3 : ∀ r : ZMod (2 ^ p.value - 1), z - 1 + (r + 1) = z + r := fun r => by ring
      simp only [h3] at h2
      rw [hconst z, h2, sub_self])
    have h4 := congrFun hk 0
    simp only [Pi.zero_apply, zero_add] at h4
    linarith
  obtain ⟨ph, est, e, hph, hel, hmin, g, hg1, hg2, heq⟩ := hopt hv
  have hd := hbest ph hph
  have hphz : (ph : ZMod (2 ^ p.value - 1)) = (φ : ZMod (2 ^ p.value - 1)) := by
    have := (ZMod.intCast_zmod_eq_zero_iff_dvd (ph - φ) (2 ^ p.value - 1)).2 hd
    push_cast at this
    exact sub_eq_zero.1 this
  obtain ⟨v, hvd⟩ : ∃ v, v = popVar (2 ^ p.value - 1) m := ⟨_, rfl⟩
  rw [← hvd] at hmin hv
  have hout2 : ∀ (w : List ℝ) (t : ℤ), chanOut w pre (fun s => x (s + ph)) t
      = ∑ r, tapZ (2 ^ p.value - 1) w pre r * ref ((t : ZMod (2 ^ p.value - 1)) + r + (φ : ZMod (2 ^ p.value - 1))) := by
    intro w t
    exact chanOut_zmod w pre _ (fun z => ref (z + (φ : ZMod (2 ^ p.value - 1)))) (fun t => by
      rw [hx]; push_cast at hphz ⊢; rw [hphz]) t
  have htap : ∀ r, tapZ (2 ^ p.value - 1) (h.map (· / v)) pre r = tapZ (2 ^ p.value - 1) h pre r / v := by
    intro r
    rw [tapZ, tapZ, List.length_map, sum_div]
    refine sum_congr rfl (fun k _ => ?_)
    rw [map_div_getD]
    split_ifs
    · rfl
    · rw [zero_div]
  have hzero := hmin (h.map (· / v)) (by simpa using hl)
  rw [sum_eq_zero (s := range (2 ^ p.value - 1)) (f := fun t : ℕ => (chanOut (h.map (· / v)) pre (fun s => x (s + ph)) t
      - m t / v) ^ 2) (fun t ht => by
    rw [mem_range] at ht
    rw [hout2, hmt t ht, hout]
    simp only [htap, div_mul_eq_mul_div]
    rw [← sum_div]
    push_cast
    simp only [add_right_comm _ (φ : ZMod (2 ^ p.value - 1)) _]
    rw [sub_self]
    ring)] at hzero
  have h0 := (sum_eq_zero_iff_of_nonneg (fun _ _ => sq_nonneg _)).1 (le_antisymm hzero (sum_nonneg (fun _ _ => sq_nonneg _)))
  have hker : (fun r => tapZ (2 ^ p.value - 1) est pre r - tapZ (2 ^ p.value - 1) h pre r / v) = 0 := by
    apply hgood.inj
    intro z
    have h1 := h0 (z - (φ : ZMod (2 ^ p.value - 1))).val (mem_range.2 (ZMod.val_lt _))
    have h2 := sub_eq_zero.1 ((pow_eq_zero_iff two_ne_zero).1 h1)
    rw [hout2, hmt _ (ZMod.val_lt _), hout] at h2
    push_cast at h2
    rw [ZMod.natCast_zmod_val] at h2
    have e1 : ∀ r : ZMod (2 ^ p.value - 1), z - (φ : ZMod (2 ^ p.value - 1)) + r + (φ : ZMod (2 ^ p.value - 1)) = z + r := fun r => by ring
    have e2 : ∀ r : ZMod (2 ^ p.value - 1), z - (φ : ZMod (2 ^ p.value - 1)) + (φ : ZMod (2 ^ p.value - 1)) + r = z + r := fun r => by ring
    simp only [e1, e2] at h2
    simp only [sub_mul, sum_sub_distrib, div_mul_eq_mul_div]
    rw [← sum_div, h2, sub_self]
  have hest : est = h.map (· / v) := by
    refine ext_getD 0 (by rw [hel, List.length_map, hl]) (fun k hk => ?_)
    have h3 := congrFun hker ((pre : ZMod (2 ^ p.value - 1)) - k)
    simp only [Pi.zero_apply] at h3
    rw [tapZ_at est pre (by omega) k hk, tapZ_at h pre hlN k (by omega), sub_eq_zero] at h3
    rw [h3, map_div_getD]
  have hgv : g = h.getD pre 0 / v := by
    apply le_antisymm
    · rw [hest, List.mem_map] at hg1
      obtain ⟨w, hw, rfl⟩ := hg1
      apply div_le_div_of_nonneg_right _ hv.le
      obtain ⟨k, hk, rfl⟩ := List.mem_iff_getElem.1 hw
      rw [← List.getD_eq_getElem _ 0 hk]
      by_cases hkp : k = pre
      · rw [hkp]
      · exact (hm k hk hkp).le
    · apply hg2
      rw [hest, List.mem_map]
      exact ⟨_, mem_of_getD 0 h hp, rfl⟩
  refine ⟨e, ?_⟩
  rw [heq, hest, hgv]
  simp only [if_true, List.map_map]
  congr 4
  funext w
  show w / v / (h.getD pre 0 / v) = w / h.getD pre 0
  rw [div_div_div_cancel_right₀ hv.ne']

/-! ### the test -/

theorem refTap_main (a b : List ℝ) : (a ++ [1] ++ b).getD a.length 0 = 1 := by
  rw [List.getD_eq_getElem _ _ (by simp), List.getElem_append_left (by simp)]
  simp

theorem refTap_other (a b : List ℝ) (h : ∀ v ∈ a ++ b, |v| ≤ 1 / 2) (k : ℕ) (hk : k < (a ++ [1] ++ b).length)
    (hne : k ≠ a.length) : |(a ++ [1] ++ b).getD k 0| ≤ 1 / 2 := by
  apply h
  rw [List.getD_eq_getElem _ _ hk, List.getElem_append]
  split_ifs with h1
  · rw [List.getElem_append]
    split_ifs with h2
    · exact List.mem_append_left _ (List.getElem_mem _)
    · rw [List.length_append, List.length_singleton] at h1; omega
  · exact List.mem_append_right _ (List.getElem_mem _)

/-- if the lock finds the phase of the cut capture, the test succeeds -/
theorem chan_test_of_lock (ls : Solver ℝ) (p : PrbsEnum) (bits : List Int) (hd : csvData p = some bits) (c : Constellation)
    (hc : c ≠ .pam3) (precursors postcursors : List ℝ) (htaps : ∀ v ∈ precursors ++ postcursors, |v| ≤ 1 / 2)
    (reps cutoff : ℕ)
    (hlen : (2 ^ p.value - 1) + (precursors.length + postcursors.length + 2) + cutoff ≤ reps * (2 ^ p.value - 1))
    (hL : precursors.length + postcursors.length + 1 ≤ 2 ^ p.value - 1)
    (hls : IsLs (solveWith ls .none 0) (postcursors.length + precursors.length + 1))
    (hbest : ∀ s : ℕ → ℝ, (∀ t < reps * (2 ^ p.value - 1) - cutoff - (precursors.length + postcursors.length + 2),
        s t = chanOut (precursors ++ [1] ++ postcursors) precursors.length (periodic (2 ^ p.value - 1)
          (txLevel c false false false false false (bitAt (getPolynomial p) (onesSeed p)))) (t + ((postcursors.length : ℤ) + 2))) →
      ∀ ph, BestPhase (periodic (2 ^ p.value - 1)
          (txLevel c false false false false false (bitAt (getPolynomial p) (onesSeed p)))) s
        (min ((if c = .pam4 then 1 else 2) * (2 ^ p.value - 1))
          (reps * (2 ^ p.value - 1) - cutoff - (precursors.length + postcursors.length + 2))) ph →
      (ph : ZMod (2 ^ p.value - 1)) = (((postcursors.length : ℤ) + 2 : ℤ) : ZMod (2 ^ p.value - 1))) :
    channelEstimationTest ls p bits c precursors postcursors reps cutoff = .ok true := by
  obtain ⟨h, hh⟩ : ∃ h, h = precursors ++ [1] ++ postcursors := ⟨_, rfl⟩
  have hl : h.length = postcursors.length + precursors.length + 1 := by rw [hh]; simp; omega
  have hmain : h.getD precursors.length 0 = 1 := by rw [hh]; exact refTap_main _ _
  have hoth : ∀ k < h.length, k ≠ precursors.length → |h.getD k 0| ≤ 1 / 2 := by
    rw [hh]; exact fun k hk => refTap_other _ _ htaps k hk
  rw [← hh] at hbest
  obtain ⟨y, z, h1, h2, h3⟩ := filtered_pattern p c h precursors.length (by omega) (reps * (2 ^ p.value - 1) - cutoff) (by omega)
  have hyl : (y.drop (h.length + 1)).length = reps * (2 ^ p.value - 1) - cutoff - (precursors.length + postcursors.length + 2) := by
    rw [List.length_drop, h2]; omega
  have hφ : ((h.length : ℤ) + 1 - precursors.length) = (postcursors.length : ℤ) + 2 := by rw [hl]; push_cast; ring
  rw [hφ] at h3
  obtain ⟨e, he⟩ := C68_recovers_phase ls p c hc false false false false false _
    (lfsrStream_bitAt _ _ (by rw [poly_length]; simp)) h postcursors.length precursors.length hl (by omega)
    (by rw [hmain]; norm_num) (by
      intro k hk hne
      have := (abs_le.1 (hoth k hk hne)).2
      rw [hmain]; linarith) ((postcursors.length : ℤ) + 2) (y.drop (h.length + 1)) (by omega)
    (fun t ht => h3 t (by omega)) (by
      intro ph hph
      rw [hyl] at hph
      have := hbest _ (fun t ht => h3 t (by omega)) ph hph
      rw [← ZMod.intCast_zmod_eq_zero_iff_dvd]
      push_cast at this ⊢
      rw [this]; ring) hls
  have hid : h.map (· / h.getD precursors.length 0) = h := by
    rw [hmain]; simp
  rw [hid] at he
  subst hh
  rw [channelEstimationTest]
  simp only [bind, Except.bind]
  rw [genPattern_eq p bits hd c hc]
  simp only []
  rw [h1]
  simp only []
  rw [he]
  simp only [if_true, pure, Except.pure]
  congr 1
  rw [Bool.and_eq_true]
  refine ⟨@decide_eq_true _ (_) (fun i _ => ?_), @decide_eq_true _ (_) (fun i _ => npIsclose_refl _)⟩
  rw [sub_self, abs_zero]; norm_num

/-- the channel by residue has its main tap at zero, twice as large as any other -/
theorem tapZ_test (p : PrbsEnum) (a b : List ℝ) (htaps : ∀ v ∈ a ++ b, |v| ≤ 1 / 2) (hL : a.length + b.length + 1 ≤ 2 ^ p.value - 1) :
    tapZ (2 ^ p.value - 1) (a ++ [1] ++ b) a.length 0 = 1 ∧
      ∀ s, s ≠ 0 → |tapZ (2 ^ p.value - 1) (a ++ [1] ++ b) a.length s| ≤ 1 / 2 := by
  have hl : (a ++ [1] ++ b).length = a.length + b.length + 1 := by simp; omega
  refine ⟨?_, fun s hs => ?_⟩
  · rw [tapZ_zero _ _ (by omega) (by omega), refTap_main]
  · rcases tapZ_bound (a ++ [1] ++ b) a.length (by omega) s with q | ⟨k, hk, hks, hke⟩
    · rw [q]; norm_num
    · rw [hke]
      exact refTap_other a b htaps k hk (by rintro rfl; rw [sub_self] at hks; exact hs hks.symm)

theorem refZ_nrz (p : PrbsEnum) (z : ZMod (2 ^ p.value - 1)) :
    refZ p .nrz false false false false false z = 1 * uSeq p (onesSeed p) z + 0 := by
  rw [refZ, uSeq]
  simp [txLevel, unitScale, flipBit]

theorem refZ_ook (p : PrbsEnum) (z : ZMod (2 ^ p.value - 1)) :
    refZ p .ook false false false false false z = 1 / 2 * uSeq p (onesSeed p) z + 1 / 2 := by
  rw [refZ, uSeq]
  simp [txLevel, unitScale, flipBit]
  ring

theorem refZ_pam4 (p : PrbsEnum) (z : ZMod (2 ^ p.value - 1)) :
    refZ p .pam4 false false false false false z = twoTap (uSeq p (onesSeed p)) 1 1 1 0 z := by
  have u0 := uSeq_two p z 0
  have u1 := uSeq_two p z 1
  rw [Nat.cast_zero] at u0
  rw [Nat.cast_one] at u1
  rw [refZ, twoTap, u0, u1]
  simp [txLevel, unitScale, flipBit]

/-- over complete periods the test channel is locked at its main tap -/
theorem test_lock (p : PrbsEnum) (c : Constellation) (hc : c ≠ .pam3) (a b : List ℝ) (htaps : ∀ v ∈ a ++ b, |v| ≤ 1 / 2)
    (hL : 2 * (a.length + b.length + 1) ≤ 2 ^ p.value - 1) (s : ZMod (2 ^ p.value - 1)) (hs : s ≠ 0) :
    ∑ z, refZ p c false false false false false (z + s)
        * ∑ r, tapZ (2 ^ p.value - 1) (a ++ [1] ++ b) a.length r * refZ p c false false false false false (z + r)
      < ∑ z, refZ p c false false false false false z
        * ∑ r, tapZ (2 ^ p.value - 1) (a ++ [1] ++ b) a.length r * refZ p c false false false false false (z + r) := by
  obtain ⟨h0, h1⟩ := tapZ_test p a b htaps (by omega)
  by_cases h4 : c = .pam4
  · subst h4
    simp only [refZ_pam4]
    refine twoTap_lock_short _ (uSeq_corr p (onesSeed p) (by simp) (onesSeed_ne p)) _ (half_mod p) 1 1 (Or.inl rfl) 1 0 one_ne_zero
      _ (by rw [h0]; norm_num) (fun s => ?_) (fun s hs => ?_) (fun s hs => ?_) s hs
    · rw [h0]
      by_cases e : s = 0
      · rw [e, h0]; simp
      · exact (h1 s e).trans (by norm_num)
    · rw [h0]; have := (abs_le.1 (h1 s hs)).2; linarith
    · have := tapZ_far p (a ++ [1] ++ b) a.length (by simp; omega) s hs
      rw [zero_sub, mul_neg_one, sub_neg_eq_add, ← sub_eq_add_neg]
      exact ⟨this.2, this.1⟩
  · refine (ref_good p c false false false false false hc).lock _ (fun s hs => ?_) s hs
    rw [decide_eq_false h4]
    simp only [Bool.false_eq_true, if_false]
    rw [h0]; have := (abs_le.1 (h1 s hs)).2; linarith

/-- **C91.** The test of the channel estimation succeeds, in exact arithmetic, for every draw with four levels and for
every draw with two levels and at least three repetitions, whatever the taps, the cutoff and the constellation. -/
theorem C91_success_partial (ls : Solver ℝ) (p : PrbsEnum) (bits : List Int) (hd : csvData p = some bits) (c : Constellation)
    (hc : c ≠ .pam3) (precursors postcursors : List ℝ) (hpre : precursors.length ≤ 8) (hpost : postcursors.length ≤ 32)
    (htaps : ∀ v ∈ precursors ++ postcursors, |v| ≤ 1 / 2) (reps cutoff : ℕ) (hreps : 2 ≤ reps)
    (hcut : 2 * cutoff ≤ 2 ^ p.value - 1) (h3 : c = .pam4 ∨ 3 ≤ reps)
    (hls : IsLs (solveWith ls .none 0) (postcursors.length + precursors.length + 1)) :
    channelEstimationTest ls p bits c precursors postcursors reps cutoff = .ok true := by
  have hN := period_ge p
  have hr2 : 2 * (2 ^ p.value - 1) ≤ reps * (2 ^ p.value - 1) := Nat.mul_le_mul_right _ hreps
  refine chan_test_of_lock ls p bits hd c hc precursors postcursors htaps reps cutoff (by omega) (by omega) hls ?_
  intro s hs ph hph
  have hmin : min ((if c = .pam4 then 1 else 2) * (2 ^ p.value - 1))
      (reps * (2 ^ p.value - 1) - cutoff - (precursors.length + postcursors.length + 2))
      = (if c = .pam4 then 1 else 2) * (2 ^ p.value - 1) := by
    split_ifs with h4
    · omega
    · have : 3 * (2 ^ p.value - 1) ≤ reps * (2 ^ p.value - 1) := Nat.mul_le_mul_right _ (h3.resolve_left h4)
      omega
  rw [hmin] at hph
  refine bestPhase_unique (refZ p c false false false false false) (tapZ (2 ^ p.value - 1) (precursors ++ [1] ++ postcursors)
    precursors.length) _ _ (by split_ifs <;> norm_num)
    (test_lock p c hc precursors postcursors htaps (by omega)) _ (fun t => refZ_int p c _ _ _ _ _ t) s (fun t ht => ?_) ph hph
  rw [hs t (by omega), chanOut_zmod _ _ _ (refZ p c false false false false false) (fun t => refZ_int p c _ _ _ _ _ t)]
  push_cast
  rfl

/-- the hypotheses are met: three taps beside the main one, for any solver that solves least squares problems -/
example (ls : Solver ℝ) (hls : IsLs (solveWith ls .none 0) 4) :
    ∃ bits, channelEstimationTest ls .prbs9 bits .pam4 [1 / 4] [-1 / 2, 499999 / 1000000] 2 255 = .ok true := by
  refine ⟨_, C91_success_partial ls .prbs9 _ rfl .pam4 (by decide) _ _ (by simp) (by simp) ?_ 2 255 le_rfl (by decide)
    (Or.inl rfl) hls⟩
  intro v hv
  simp only [List.singleton_append, List.mem_cons, List.not_mem_nil, or_false] at hv
  rcases hv with rfl | rfl | rfl <;> rw [abs_le] <;> norm_num

/-! ### two repetitions of a binary pattern -/

theorem dot_bound (l : List ℝ) (f : ℕ → ℝ) (hf : ∀ k, |f k| ≤ 1) :
    |∑ k ∈ range l.length, l.getD k 0 * f k| ≤ (l.map fun v => |v|).sum := by
  induction l generalizing f with
  | nil => simp
  | cons x l ih =>
    rw [List.length_cons, sum_range_succ', List.map_cons, List.sum_cons, add_comm]
    refine (abs_add_le _ _).trans (add_le_add ?_ ?_)
    · rw [List.getD_cons_zero, abs_mul]
      exact mul_le_of_le_one_right (abs_nonneg _) (hf 0)
    · exact ih (fun k => f (k + 1)) (fun k => hf _)

theorem dot_split (a b : List ℝ) (f : ℕ → ℝ) (hf : ∀ k, |f k| ≤ 1) :
    |∑ k ∈ range (a ++ [1] ++ b).length, (a ++ [1] ++ b).getD k 0 * f k - f a.length| ≤ ((a ++ b).map fun v => |v|).sum := by
  induction a generalizing f with
  | nil =>
    have := dot_bound b (fun k => f (k + 1)) (fun k => hf _)
    show |∑ k ∈ range (1 :: b).length, (1 :: b).getD k 0 * f k - f 0| ≤ (b.map fun v => |v|).sum
    rw [List.length_cons, sum_range_succ', List.getD_cons_zero, one_mul, add_sub_cancel_right]
    exact this
  | cons x a ih =>
    have := ih (fun k => f (k + 1)) (fun k => hf _)
    simp only [List.cons_append]
    rw [List.length_cons, List.length_cons, sum_range_succ', List.getD_cons_zero, List.map_cons, List.sum_cons, add_sub_right_comm, add_comm]
    refine (abs_add_le _ _).trans (add_le_add ?_ this)
    rw [abs_mul]
    exact mul_le_of_le_one_right (abs_nonneg _) (hf 0)

/-- the response of the test channel differs from the symbol sent by at most the sum of the magnitudes of the other taps -/
theorem test_isi (p : PrbsEnum) (a b : List ℝ) (ref : ZMod (2 ^ p.value - 1) → ℝ) (hr : ∀ z, |ref z| ≤ 1)
    (z : ZMod (2 ^ p.value - 1)) :
    |∑ r, tapZ (2 ^ p.value - 1) (a ++ [1] ++ b) a.length r * ref (z + r) - ref z| ≤ ((a ++ b).map fun v => |v|).sum := by
  rw [tapZ_sum _ _ (fun r => ref (z + r))]
  have := dot_split a b (fun k => ref (z + ((a.length : ZMod (2 ^ p.value - 1)) - k))) (fun k => hr _)
  simpa only [sub_self, add_zero] using this

/-- **C91.** With two repetitions of a binary pattern the window of the lock is not a whole number of periods. The test
succeeds if the intersymbol interference is small against the period: with `E` samples beyond the first period and `I` the
sum of the magnitudes of the other taps, if `4 E (I - 1) ≤ N` for NRZ and if `8 E I ≤ N` for OOK. -/
theorem C91_two_periods_partial (ls : Solver ℝ) (p : PrbsEnum) (bits : List Int) (hd : csvData p = some bits) (c : Constellation)
    (hc : c = .nrz ∨ c = .ook) (precursors postcursors : List ℝ) (hpre : precursors.length ≤ 8) (hpost : postcursors.length ≤ 32)
    (htaps : ∀ v ∈ precursors ++ postcursors, |v| ≤ 1 / 2) (cutoff : ℕ) (hcut : 2 * cutoff ≤ 2 ^ p.value - 1) (E : ℕ)
    (hE : E = 2 ^ p.value - 1 - cutoff - (precursors.length + postcursors.length + 2))
    (hI : if c = .nrz then 4 * E * (((precursors ++ postcursors).map fun v => |v|).sum - 1) ≤ ((2 ^ p.value - 1 : ℕ) : ℝ)
      else 8 * E * ((precursors ++ postcursors).map fun v => |v|).sum ≤ ((2 ^ p.value - 1 : ℕ) : ℝ))
    (hls : IsLs (solveWith ls .none 0) (postcursors.length + precursors.length + 1)) :
    channelEstimationTest ls p bits c precursors postcursors 2 cutoff = .ok true := by
  have hN := period_ge p
  have hc3 : c ≠ .pam3 := by rcases hc with rfl | rfl <;> decide
  have hc4 : c ≠ .pam4 := by rcases hc with rfl | rfl <;> decide
  refine chan_test_of_lock ls p bits hd c hc3 precursors postcursors htaps 2 cutoff (by omega) (by omega) hls ?_
  intro s hs ph hph
  have hmin : min ((if c = .pam4 then 1 else 2) * (2 ^ p.value - 1))
      (2 * (2 ^ p.value - 1) - cutoff - (precursors.length + postcursors.length + 2)) = (2 ^ p.value - 1) + E := by
    rw [if_neg hc4]; omega
  rw [hmin] at hph
  obtain ⟨I, hId⟩ : ∃ I : ℝ, I = ((precursors ++ postcursors).map fun v => |v|).sum := ⟨_, rfl⟩
  rw [← hId] at hI
  have hI0 : 0 ≤ I := by
    rw [hId]
    apply List.sum_nonneg
    intro v hv
    rw [List.mem_map] at hv
    obtain ⟨w, -, rfl⟩ := hv
    exact abs_nonneg w
  obtain ⟨h0, h1⟩ := tapZ_test p precursors postcursors htaps (by omega)
  have hu := uSeq_corr p (onesSeed p) (by simp) (onesSeed_ne p)
  have hu1 := uSeq_sum p (onesSeed p) (by simp) (onesSeed_ne p)
  have hx : ∀ t : ℤ, periodic (2 ^ p.value - 1) (txLevel c false false false false false (bitAt (getPolynomial p) (onesSeed p))) t
      = refZ p c false false false false false (t : ZMod (2 ^ p.value - 1)) := fun t => refZ_int p c _ _ _ _ _ t
  have hN1 : (127 : ℝ) ≤ ((2 ^ p.value - 1 : ℕ) : ℝ) := by exact_mod_cast hN
  have hE0 : (0 : ℝ) ≤ E := Nat.cast_nonneg _
  have hs' : ∀ t < (2 ^ p.value - 1) + E, s t = ∑ r, tapZ (2 ^ p.value - 1) (precursors ++ [1] ++ postcursors) precursors.length r
      * refZ p c false false false false false (t + (((postcursors.length : ℤ) + 2 : ℤ) : ZMod (2 ^ p.value - 1)) + r) := by
    intro t ht
    rw [hs t (by omega), chanOut_zmod _ _ _ (refZ p c false false false false false) hx]
    push_cast
    rfl
  rcases hc with rfl | rfl
  · rw [if_pos rfl] at hI
    have hr1 : ∀ z, |refZ p .nrz false false false false false z| ≤ 1 := by
      intro z
      rw [refZ_nrz]
      rcases uSeq_cases p (onesSeed p) z with e | e <;> rw [e] <;> norm_num
    refine bestPhase_window _ _ _ E (2 * max 0 (I - 1)) _ hx s hs' (fun d hd => ?_) (fun z w => ?_) ph hph
    · simp only [refZ_nrz]
      rw [affine_gain _ hu hu1 1 0 _ d, h0]
      have h2 := (abs_le.1 (h1 d hd)).2
      have h3 : ((2 ^ p.value - 1 : ℕ) : ℝ) + 1 ≤ 2 * (1 ^ 2 * (((2 ^ p.value - 1 : ℕ) : ℝ) + 1)
          * (1 - tapZ (2 ^ p.value - 1) (precursors ++ [1] ++ postcursors) precursors.length d)) := by nlinarith
      rcases le_total 0 (I - 1) with hm | hm
      · rw [max_eq_right hm]; nlinarith
      · rw [max_eq_left hm]; nlinarith
    · have h2 := abs_le.1 (test_isi p precursors postcursors _ hr1 z)
      rw [← hId] at h2
      generalize ∑ r, tapZ (2 ^ p.value - 1) (precursors ++ [1] ++ postcursors) precursors.length r
        * refZ p .nrz false false false false false (z + r) = S at h2 ⊢
      have m0 := le_max_left 0 (I - 1)
      have m1 := le_max_right 0 (I - 1)
      rw [refZ_nrz] at h2
      rw [refZ_nrz, refZ_nrz]
      rcases uSeq_cases p (onesSeed p) z with e | e <;> rcases uSeq_cases p (onesSeed p) w with e' | e' <;>
        rw [e] at h2 ⊢ <;> rw [e'] <;> nlinarith [h2.1, h2.2]
  · rw [if_neg (by decide)] at hI
    have hr1 : ∀ z, |refZ p .ook false false false false false z| ≤ 1 := by
      intro z
      rw [refZ_ook]
      rcases uSeq_cases p (onesSeed p) z with e | e <;> rw [e] <;> norm_num
    refine bestPhase_window _ _ _ E I _ hx s hs' (fun d hd => ?_) (fun z w => ?_) ph hph
    · simp only [refZ_ook]
      rw [affine_gain _ hu hu1 (1 / 2) (1 / 2) _ d, h0]
      have h2 := (abs_le.1 (h1 d hd)).2
      nlinarith
    · have h2 := abs_le.1 (test_isi p precursors postcursors _ hr1 z)
      rw [← hId] at h2
      generalize ∑ r, tapZ (2 ^ p.value - 1) (precursors ++ [1] ++ postcursors) precursors.length r
        * refZ p .ook false false false false false (z + r) = S at h2 ⊢
      rw [refZ_ook] at h2
      rw [refZ_ook, refZ_ook]
      rcases uSeq_cases p (onesSeed p) z with e | e <;> rcases uSeq_cases p (onesSeed p) w with e' | e' <;>
        rw [e] at h2 ⊢ <;> rw [e'] <;> nlinarith [h2.1, h2.2]

/-- NRZ with two repetitions and taps of any number whose magnitudes add up to at most one -/
example (ls : Solver ℝ) (hls : IsLs (solveWith ls .none 0) 4) :
    ∃ bits, channelEstimationTest ls .prbs13 bits .nrz [1 / 4] [-1 / 2, 1 / 4] 2 1 = .ok true := by
  refine ⟨_, C91_two_periods_partial ls .prbs13 _ rfl .nrz (Or.inl rfl) _ _ (by simp) (by simp) ?_ 1 (by decide) _ rfl ?_ hls⟩
  · intro v hv
    simp only [List.singleton_append, List.mem_cons, List.not_mem_nil, or_false] at hv
    rcases hv with rfl | rfl | rfl <;> rw [abs_le] <;> norm_num
  · rw [if_pos rfl]
    have : (([1 / 4] ++ [-1 / 2, 1 / 4] : List ℝ).map fun v => |v|).sum - 1 = 0 := by
      norm_num [abs_of_pos, abs_of_neg]
    rw [this, mul_zero]
    exact Nat.cast_nonneg _

end Verif
