import Verif.Lemmas.EstimPrbs2
import Verif.Props.Estim
import Verif.Props.Symbol

/-! Property theorems C68 (channel estimation from a PRBS). -/

open Finset

namespace Verif

open Spec (unitScale flipBit txLevel periodic chanOut popVar MainTap IsLs periodAvg BestPhase eqAt)

/-- **C68.** Any captured signal of at least one period: the estimator locks the mapped PRBS at a phase `ph` of best
correlation with the capture, and returns taps `x` (`post` postcursors, `pre` precursors) which minimise, among all
taps, the squared distance over one period between the channel output for the locked symbols and the captured signal,
averaged over its complete periods and divided by its variance. With `normalize` the taps are divided by their largest
value. -/
theorem C68_optimal (ls : Solver ℝ) (p : PrbsEnum) (c : Constellation) (hc : c ≠ .pam3)
    (fullScale bitOrderInv pnPre gray pnPost normalize : Bool) (b : ℕ → ℤ)
    (hb : Spec.LfsrStream (getPolynomial p) (List.replicate p.value 1) b) (post pre : ℕ)
    (hW : post + pre + 1 ≤ 2 ^ p.value - 1) (signal : List ℝ) (hlen : 2 ^ p.value - 1 ≤ signal.length)
    (hls : IsLs (solveWith ls .none 0) (post + pre + 1)) :
    let x := periodic (2 ^ p.value - 1) (txLevel c fullScale bitOrderInv pnPre gray false b)
    let m := periodAvg (2 ^ p.value - 1) (signal.length / (2 ^ p.value - 1)) (fun t => signal.getD t 0)
    0 < popVar (2 ^ p.value - 1) m →
    ∃ (ph : ℕ) (h e : List ℝ),
      BestPhase x (fun t => signal.getD t 0) (min ((if c = .pam4 then 1 else 2) * (2 ^ p.value - 1)) signal.length) ph ∧
      h.length = post + pre + 1 ∧
      (∀ h' : List ℝ, h'.length = post + pre + 1 →
        ∑ t ∈ range (2 ^ p.value - 1), (chanOut h pre (fun s => x (s + ph)) t - m t / popVar (2 ^ p.value - 1) m) ^ 2
          ≤ ∑ t ∈ range (2 ^ p.value - 1), (chanOut h' pre (fun s => x (s + ph)) t - m t / popVar (2 ^ p.value - 1) m) ^ 2) ∧
      ∃ g, g ∈ h ∧ (∀ v ∈ h, v ≤ g) ∧
        channelEstimationPrbs ls p signal c fullScale post pre normalize bitOrderInv pnPre gray pnPost
          = .ok (some (if normalize then h.map (· / g) else h, e)) := by
  intro x m hv
  obtain rfl := lfsrStream_unique hb (lfsrStream_bitAt _ _ (by rw [poly_length]; simp))
  have hN : 0 < 2 ^ p.value - 1 := by have := period_ge p; omega
  set ref := refZ p c fullScale bitOrderInv pnPre gray false with href
  have hx : ∀ t : ℤ, x t = ref (t : ZMod (2 ^ p.value - 1)) := fun t => refZ_int p c _ _ _ _ _ t
  have hq : 0 < refReps c := by cases c <;> decide
  have hqe : refReps c = if c = .pam4 then 1 else 2 := by cases c <;> rfl
  obtain ⟨s, cc, hs1, hs2, hs3⟩ := lock_any ref (refReps c) hq signal (by omega) x hx
  have hpat : (List.range (refReps c * (2 ^ p.value - 1))).map (txLevel c fullScale bitOrderInv pnPre gray false
      (bitAt (getPolynomial p) (onesSeed p))) = (List.range (refReps c * (2 ^ p.value - 1))).map (fun t : ℕ => ref (t : ZMod (2 ^ p.value - 1))) :=
    List.map_congr_left (fun t _ => (refZ_cast p c _ _ _ _ _ t).symm)
  have hqN : (2 ^ p.value - 1) ≤ refReps c * (2 ^ p.value - 1) := Nat.le_mul_of_pos_left _ hq
  have hW1 : post + pre + 1 ≤ refReps c * (2 ^ p.value - 1) := le_trans hW hqN
  have hreps : 0 < signal.length / (2 ^ p.value - 1) := Nat.div_pos hlen hN
  have hml := periodMean_length signal (2 ^ p.value - 1) (signal.length / (2 ^ p.value - 1))
  have hmg : ∀ t < (2 ^ p.value - 1), (periodMean signal (2 ^ p.value - 1) (signal.length / (2 ^ p.value - 1))).getD t 0 = m t := fun t ht =>
    periodMean_getD signal (2 ^ p.value - 1) _ t hN ht (Nat.mul_div_le _ _)
  have hvar : varL (periodMean signal (2 ^ p.value - 1) (signal.length / (2 ^ p.value - 1))) = popVar (2 ^ p.value - 1) m := by
    rw [varL_eq _ m (by rw [hml]; exact hmg), hml]
  obtain ⟨h, e, hl, heq, hmin⟩ := chSolve_ok ls ((List.range (refReps c * (2 ^ p.value - 1))).map (fun t : ℕ => ref ((t : ZMod (2 ^ p.value - 1)) + s))
      ++ ((List.range (refReps c * (2 ^ p.value - 1))).map (fun t : ℕ => ref ((t : ZMod (2 ^ p.value - 1)) + s))).take (post + pre + 1))
    (periodMean signal (2 ^ p.value - 1) (signal.length / (2 ^ p.value - 1))) post pre (2 ^ p.value - 1) normalize hN hml (by omega)
    (by simp only [List.length_append, List.length_take, List.length_map, List.length_range]; omega) hls
    (by rw [hvar]; exact hv.ne') (fun t => x (t + s)) (by
      intro k hk
      rw [alignedExt_getD ref _ _ _ _ hW1 (by omega), hx]
      push_cast
      rfl)
  refine ⟨s, h, e, by rw [← hqe]; exact hs3, hl, fun h' hl' => ?_, maxL h.reverse, ?_, ?_, ?_⟩
  · have h2 := hmin h' hl'
    rw [hvar] at h2
    have key : ∀ u : List ℝ, ∑ i ∈ range (2 ^ p.value - 1), (chanOut u pre (fun t => x (t + s)) ((i + post : ℕ) : ℤ)
          - (periodMean signal (2 ^ p.value - 1) (signal.length / (2 ^ p.value - 1))).getD ((i + post) % (2 ^ p.value - 1)) 0 / popVar (2 ^ p.value - 1) m) ^ 2
        = ∑ t ∈ range (2 ^ p.value - 1), (chanOut u pre (fun t => x (t + s)) t - m t / popVar (2 ^ p.value - 1) m) ^ 2 := by
      intro u
      have hper : ∀ t : ℤ, chanOut u pre (fun t => x (t + s)) t
          = ∑ r, tapZ (2 ^ p.value - 1) u pre r * ref ((t : ZMod (2 ^ p.value - 1)) + r + (s : ZMod (2 ^ p.value - 1))) := fun t =>
        chanOut_zmod u pre _ (fun z => ref (z + (s : ZMod (2 ^ p.value - 1)))) (by intro t; rw [hx]; push_cast; rfl) t
      have hf : ∀ t : ℕ, chanOut u pre (fun t => x (t + s)) ((t % (2 ^ p.value - 1) : ℕ) : ℤ)
          = chanOut u pre (fun t => x (t + s)) (t : ℤ) := by
        intro t
        rw [hper, hper]
        have : (((t % (2 ^ p.value - 1) : ℕ) : ℤ) : ZMod (2 ^ p.value - 1)) = ((t : ℤ) : ZMod (2 ^ p.value - 1)) := by
          rw [Int.cast_natCast, Int.cast_natCast, ZMod.natCast_mod]
        rw [this]
      have hsum := sum_shift_period (fun t => (chanOut u pre (fun t => x (t + s)) ((t % (2 ^ p.value - 1) : ℕ) : ℤ)
        - m (t % (2 ^ p.value - 1)) / popVar (2 ^ p.value - 1) m) ^ 2) (2 ^ p.value - 1) (fun i => by simp only [Nat.add_mod_right]) post
      rw [sum_congr rfl (fun i hi => by rw [Nat.mod_eq_of_lt (mem_range.1 hi)] : ∀ i ∈ range (2 ^ p.value - 1),
        (chanOut u pre (fun t => x (t + s)) ((i % (2 ^ p.value - 1) : ℕ) : ℤ) - m (i % (2 ^ p.value - 1)) / popVar (2 ^ p.value - 1) m) ^ 2
          = (chanOut u pre (fun t => x (t + s)) (i : ℤ) - m i / popVar (2 ^ p.value - 1) m) ^ 2)] at hsum
      rw [← hsum]
      refine sum_congr rfl (fun i hi => ?_)
      rw [hmg _ (Nat.mod_lt _ hN), ← hf, Nat.add_comm i post]
    rwa [key, key] at h2
  · have := maxL_mem h.reverse (by intro h0; have := congrArg List.length h0; simp at this; rw [this] at hl; simp at hl)
    exact List.mem_reverse.1 this
  · exact fun v hv => maxL_le _ v (List.mem_reverse.2 hv)
  · unfold channelEstimationPrbs
    rw [prbsReference_eq p c hc]
    simp only [bind, Except.bind]
    rw [hpat, hs2]
    simp only [if_neg hreps.ne']
    exact heq

/-- **C68.** Exact recovery. If the capture is the periodic PRBS, sent through the FIR channel `h` with `pre` precursors
and `post` postcursors whose main tap dominates (`MainTap`), starting at any phase `φ` and for at least the length of
the reference pattern, then the estimate is the channel divided by the variance `v` of a received period, and with
`normalize` the channel divided by its main tap. -/
theorem C68_recovers (ls : Solver ℝ) (p : PrbsEnum) (c : Constellation) (hc : c ≠ .pam3)
    (fullScale bitOrderInv pnPre gray pnPost : Bool) (b : ℕ → ℤ)
    (hb : Spec.LfsrStream (getPolynomial p) (List.replicate p.value 1) b) (h : List ℝ) (post pre : ℕ)
    (hl : h.length = post + pre + 1) (hW : post + pre + 1 ≤ 2 ^ p.value - 1) (hm : MainTap c h pre) (φ : ℤ)
    (signal : List ℝ) (hlen : (if c = .pam4 then 1 else 2) * (2 ^ p.value - 1) ≤ signal.length)
    (hs : ∀ t < signal.length, signal.getD t 0
      = chanOut h pre (periodic (2 ^ p.value - 1) (txLevel c fullScale bitOrderInv pnPre gray false b)) (t + φ))
    (hls : IsLs (solveWith ls .none 0) (post + pre + 1)) :
    let v := popVar (2 ^ p.value - 1) (fun t => signal.getD t 0)
    0 < v ∧
      (∃ e, channelEstimationPrbs ls p signal c fullScale post pre false bitOrderInv pnPre gray pnPost
        = .ok (some (h.map (· / v), e))) ∧
      ∃ e, channelEstimationPrbs ls p signal c fullScale post pre true bitOrderInv pnPre gray pnPost
        = .ok (some (h.map (· / h.getD pre 0), e)) := by
  intro v
  obtain rfl := lfsrStream_unique hb (lfsrStream_bitAt _ _ (by rw [poly_length]; simp))
  have hN1 : 127 ≤ (2 ^ p.value - 1) := period_ge p
  have hN : 0 < (2 ^ p.value - 1) := by omega
  set ref := refZ p c fullScale bitOrderInv pnPre gray false with href
  have hx : ∀ t : ℤ, periodic (2 ^ p.value - 1) (txLevel c fullScale bitOrderInv pnPre gray false
      (bitAt (getPolynomial p) (List.replicate p.value 1))) t = ref (t : ZMod (2 ^ p.value - 1)) := fun t => refZ_int p c _ _ _ _ _ t
  have hq : 0 < refReps c := by cases c <;> decide
  have hqe : refReps c = if c = .pam4 then 1 else 2 := by cases c <;> rfl
  rw [← hqe] at hlen
  have hgood := ref_good p c fullScale bitOrderInv pnPre gray false hc
  rw [← href] at hgood
  have hqN : (2 ^ p.value - 1) ≤ refReps c * (2 ^ p.value - 1) := Nat.le_mul_of_pos_left _ hq
  have hW1 : post + pre + 1 ≤ refReps c * (2 ^ p.value - 1) := le_trans hW hqN
  have hp : pre < h.length := by omega
  have hlN : h.length ≤ (2 ^ p.value - 1) := by omega
  have hlock := hgood.lock (tapZ (2 ^ p.value - 1) h pre) (fun s hs => tapZ_main c h pre hlN hp hm s hs)
  have hs' : ∀ t < signal.length, signal.getD t 0 = ∑ r, tapZ (2 ^ p.value - 1) h pre r * ref ((t : ZMod (2 ^ p.value - 1)) + (φ : ZMod (2 ^ p.value - 1)) + r) := by
    intro t ht
    rw [hs t ht, chanOut_zmod h pre _ ref hx]
    push_cast
    rfl
  obtain ⟨cc, hlk⟩ := lock_ref ref (tapZ (2 ^ p.value - 1) h pre) (φ : ZMod (2 ^ p.value - 1)) (refReps c) hq hlock signal hlen hs'
  have hpat : (List.range (refReps c * (2 ^ p.value - 1))).map (txLevel c fullScale bitOrderInv pnPre gray false
      (bitAt (getPolynomial p) (onesSeed p))) = (List.range (refReps c * (2 ^ p.value - 1))).map (fun t : ℕ => ref (t : ZMod (2 ^ p.value - 1))) :=
    List.map_congr_left (fun t _ => (refZ_cast p c _ _ _ _ _ t).symm)
  have hreps : 0 < signal.length / (2 ^ p.value - 1) := Nat.div_pos (by omega) hN
  have hmean := periodMean_periodic signal
    (fun z => ∑ r, tapZ (2 ^ p.value - 1) h pre r * ref (z + (φ : ZMod (2 ^ p.value - 1)) + r)) hs' hreps
  have hml := periodMean_length signal (2 ^ p.value - 1) (signal.length / (2 ^ p.value - 1))
  have hmg : ∀ t < (2 ^ p.value - 1), (periodMean signal (2 ^ p.value - 1) (signal.length / (2 ^ p.value - 1))).getD t 0 = signal.getD t 0 := by
    intro t ht
    rw [hmean, map_range_getD _ _ _ _ ht, hs' t (by omega)]
  have hvar : varL (periodMean signal (2 ^ p.value - 1) (signal.length / (2 ^ p.value - 1))) = v := by
    rw [varL_eq _ (fun t => signal.getD t 0) (by rw [hml]; exact hmg), hml]
  -- the variance is positive
  have hv : 0 < v := by
    refine popVar_pos (2 ^ p.value - 1) hN _ ?_
    by_contra hcon
    push Not at hcon
    have hconst : ∀ z : ZMod (2 ^ p.value - 1), ∑ r, tapZ (2 ^ p.value - 1) h pre r * ref (z + r) = signal.getD 0 0 := by
      intro z
      have h1 := hcon (z - (φ : ZMod (2 ^ p.value - 1))).val (ZMod.val_lt _)
      rw [hs' _ (by have := ZMod.val_lt (z - (φ : ZMod (2 ^ p.value - 1))); omega), ZMod.natCast_zmod_val] at h1
      rw [← h1]
      simp only [sub_add_cancel]
    have h1 := hlock 1 (by
      intro h0
      have h' : ((1 : ℕ) : ZMod (2 ^ p.value - 1)) = 0 := by rwa [Nat.cast_one]
      have := Nat.le_of_dvd one_pos ((ZMod.natCast_eq_zero_iff _ _).1 h')
      omega)
    simp only [hconst] at h1
    rw [← sum_mul, ← sum_mul, ← sum_shift ref 1] at h1
    exact lt_irrefl _ h1
  refine ⟨hv, ?_⟩
  have hsolve : ∀ normalize : Bool, ∃ x e, x.length = post + pre + 1 ∧
      channelEstimationPrbs ls p signal c fullScale post pre normalize bitOrderInv pnPre gray pnPost
        = .ok (some (if normalize then x.map (· / maxL x.reverse) else x, e)) ∧ x = h.map (· / v) := by
    intro normalize
    obtain ⟨x, e, hxl, heq, hmin⟩ := chSolve_ok ls
      ((List.range (refReps c * (2 ^ p.value - 1))).map (fun t : ℕ => ref ((t : ZMod (2 ^ p.value - 1)) + (φ : ZMod (2 ^ p.value - 1))))
        ++ ((List.range (refReps c * (2 ^ p.value - 1))).map (fun t : ℕ => ref ((t : ZMod (2 ^ p.value - 1)) + (φ : ZMod (2 ^ p.value - 1))))).take (post + pre + 1))
      (periodMean signal (2 ^ p.value - 1) (signal.length / (2 ^ p.value - 1))) post pre (2 ^ p.value - 1) normalize hN hml (by omega)
      (by simp only [List.length_append, List.length_take, List.length_map, List.length_range]; omega) hls
      (by rw [hvar]; exact hv.ne') (fun t => ref ((t : ZMod (2 ^ p.value - 1)) + (φ : ZMod (2 ^ p.value - 1)))) (by
        intro k hk
        rw [alignedExt_getD ref _ _ _ _ hW1 (by omega)]
        push_cast
        rfl)
    refine ⟨x, e, hxl, ?_, ?_⟩
    · unfold channelEstimationPrbs
      rw [prbsReference_eq p c hc]
      simp only [bind, Except.bind]
      rw [hpat, hlk]
      simp only [if_neg hreps.ne']
      exact heq
    · -- both sides reproduce the averaged signal, hence agree
      have hout : ∀ (u : List ℝ) (t : ℤ), chanOut u pre (fun t => ref ((t : ZMod (2 ^ p.value - 1)) + (φ : ZMod (2 ^ p.value - 1)))) t
          = ∑ r, tapZ (2 ^ p.value - 1) u pre r * ref ((t : ZMod (2 ^ p.value - 1)) + r + (φ : ZMod (2 ^ p.value - 1))) := fun u t =>
        chanOut_zmod u pre _ (fun z => ref (z + (φ : ZMod (2 ^ p.value - 1)))) (fun _ => rfl) t
      have htap : ∀ r, tapZ (2 ^ p.value - 1) (h.map (· / v)) pre r = tapZ (2 ^ p.value - 1) h pre r / v := by
        intro r
        rw [tapZ, tapZ, List.length_map, sum_div]
        refine sum_congr rfl (fun k _ => ?_)
        rw [map_div_getD]
        split_ifs
        · rfl
        · rw [zero_div]
      have htarget : ∀ i : ℕ, (periodMean signal (2 ^ p.value - 1) (signal.length / (2 ^ p.value - 1))).getD ((i + post) % (2 ^ p.value - 1)) 0
          = ∑ r, tapZ (2 ^ p.value - 1) h pre r * ref (((i + post : ℕ) : ZMod (2 ^ p.value - 1)) + r + (φ : ZMod (2 ^ p.value - 1))) := by
        intro i
        rw [hmean, map_range_getD _ _ _ _ (Nat.mod_lt _ hN), ZMod.natCast_mod]
        exact sum_congr rfl (fun r _ => by rw [add_right_comm])
      have hz := hmin (h.map (· / v)) (by simpa using hl)
      rw [sum_eq_zero (fun i _ => by
        rw [hout, htarget, hvar, Int.cast_natCast]
        simp only [htap, div_mul_eq_mul_div]
        rw [← sum_div, sub_self]
        ring) (s := range (2 ^ p.value - 1)) (f := fun i : ℕ => (chanOut (h.map (· / v)) pre
          (fun t => ref ((t : ZMod (2 ^ p.value - 1)) + (φ : ZMod (2 ^ p.value - 1)))) ((i + post : ℕ) : ℤ)
          - (periodMean signal (2 ^ p.value - 1) (signal.length / (2 ^ p.value - 1))).getD ((i + post) % (2 ^ p.value - 1)) 0
            / varL (periodMean signal (2 ^ p.value - 1) (signal.length / (2 ^ p.value - 1)))) ^ 2)] at hz
      have h0 := (sum_eq_zero_iff_of_nonneg (fun _ _ => sq_nonneg _)).1
        (le_antisymm hz (sum_nonneg (fun _ _ => sq_nonneg _)))
      have hker : (fun r => tapZ (2 ^ p.value - 1) x pre r - tapZ (2 ^ p.value - 1) h pre r / v) = 0 := by
        apply hgood.inj
        intro z
        have h1 := h0 (z - (φ : ZMod (2 ^ p.value - 1)) - (post : ZMod (2 ^ p.value - 1))).val (mem_range.2 (ZMod.val_lt _))
        have h2 := sub_eq_zero.1 ((pow_eq_zero_iff two_ne_zero).1 h1)
        rw [hout, htarget, hvar, Int.cast_natCast, Nat.cast_add, ZMod.natCast_zmod_val, sub_add_cancel] at h2
        have e1 : ∀ r : ZMod (2 ^ p.value - 1), z - (φ : ZMod (2 ^ p.value - 1)) + r + (φ : ZMod (2 ^ p.value - 1)) = z + r := fun r => by ring
        simp only [e1] at h2
        simp only [sub_mul, sum_sub_distrib, div_mul_eq_mul_div]
        rw [← sum_div, h2, sub_self]
      refine ext_getD 0 (by rw [hxl, List.length_map, hl]) (fun k hk => ?_)
      have h3 := congrFun hker ((pre : ZMod (2 ^ p.value - 1)) - k)
      simp only [Pi.zero_apply] at h3
      rw [tapZ_at x pre (by omega) k hk, tapZ_at h pre hlN k (by omega), sub_eq_zero] at h3
      rw [h3, map_div_getD]
  obtain ⟨x, e, -, h1, rfl⟩ := hsolve false
  obtain ⟨y, e', -, h2, rfl⟩ := hsolve true
  refine ⟨⟨e, h1⟩, e', ?_⟩
  rw [h2]
  have hmax : maxL (h.map (· / v)).reverse = h.getD pre 0 / v := by
    apply le_antisymm
    · have hne : (h.map (· / v)).reverse ≠ [] := by
        intro h0
        have := congrArg List.length h0
        simp at this
        rw [this] at hl
        simp at hl
      obtain ⟨w, hw, he⟩ := List.mem_map.1 (List.mem_reverse.1 (maxL_mem _ hne))
      rw [← he]
      apply div_le_div_of_nonneg_right _ hv.le
      obtain ⟨k, hk, rfl⟩ := List.mem_iff_getElem.1 hw
      rw [← List.getD_eq_getElem _ 0 hk]
      by_cases hkp : k = pre
      · rw [hkp]
      · have h3 := hm.2 k hk hkp
        split_ifs at h3
        · have := le_abs_self (h.getD k 0)
          have := hm.1
          linarith
        · exact h3.le
    · apply maxL_le
      rw [List.mem_reverse, List.mem_map]
      exact ⟨_, mem_of_getD 0 h hp, rfl⟩
  rw [hmax]
  simp only [if_true, List.map_map]
  congr 4
  funext w
  show w / v / (h.getD pre 0 / v) = w / h.getD pre 0
  rw [div_div_div_cancel_right₀ hv.ne']

/-- A dispersive channel meeting `MainTap` with one precursor and two postcursors, for every constellation. -/
example (c : Constellation) : MainTap c [1 / 10, 1, 1 / 4, -1 / 8] 1 := by
  refine ⟨by norm_num, fun k hk hk1 => ?_⟩
  have : k = 0 ∨ k = 2 ∨ k = 3 := by simp at hk; omega
  rcases this with rfl | rfl | rfl <;> split_ifs <;> norm_num [abs_of_pos, abs_of_neg]

/-- **C68.** For NRZ and a channel that is a gain `g`, the estimate is not `g` but the reciprocal `1/(g (1 - 1/N²))`. -/
theorem C68_gain (ls : Solver ℝ) (p : PrbsEnum) (bitOrderInv pnPre gray pnPost : Bool) (b : ℕ → ℤ)
    (hb : Spec.LfsrStream (getPolynomial p) (List.replicate p.value 1) b) (g : ℝ) (hg : 0 < g) (φ : ℤ)
    (signal : List ℝ) (hlen : 2 * (2 ^ p.value - 1) ≤ signal.length)
    (hs : ∀ t < signal.length, signal.getD t 0
      = g * periodic (2 ^ p.value - 1) (txLevel .nrz false bitOrderInv pnPre gray false b) (t + φ))
    (hls : IsLs (solveWith ls .none 0) 1) :
    ∃ e, channelEstimationPrbs ls p signal .nrz false 0 0 false bitOrderInv pnPre gray pnPost
      = .ok (some ([1 / (g * (1 - 1 / ((2 ^ p.value - 1 : ℕ) : ℝ) ^ 2))], e)) := by
  have hN1 := period_ge p
  have hm : MainTap .nrz [g] 0 := ⟨hg, fun k hk hk0 => absurd (by simpa using hk) hk0⟩
  obtain ⟨hv, ⟨e, he⟩, -⟩ := C68_recovers ls p .nrz (by decide) false bitOrderInv pnPre gray pnPost b hb [g] 0 0 rfl
    (by omega) hm φ signal hlen (by
      intro t ht
      rw [hs t ht, chanOut]
      simp) hls
  refine ⟨e, ?_⟩
  rw [he]
  obtain rfl := lfsrStream_unique hb (lfsrStream_bitAt _ _ (by rw [poly_length]; simp))
  have hN : 0 < 2 ^ p.value - 1 := by omega
  have hN' : (((2 ^ p.value - 1 : ℕ) : ℝ)) ≠ 0 := by exact_mod_cast hN.ne'
  have hu1 := uSeq_sum p (onesSeed p) (by simp) (onesSeed_ne p)
  have href : ∀ z, refZ p .nrz false bitOrderInv pnPre gray false z
      = (if pnPre then -1 else 1) * uSeq p (onesSeed p) z := by
    intro z
    rw [refZ, uSeq]
    simp only [txLevel]
    rw [flip_sign]
    simp [unitScale]
  have hsig : ∀ t ∈ range (2 ^ p.value - 1), signal.getD t 0
      = g * ((if pnPre then -1 else 1) * uSeq p (onesSeed p) ((t : ZMod (2 ^ p.value - 1)) + (φ : ZMod (2 ^ p.value - 1)))) := by
    intro t ht
    rw [mem_range] at ht
    have := refZ_int p .nrz false bitOrderInv pnPre gray false (t + φ)
    rw [hs t (by omega)]
    show g * periodic (2 ^ p.value - 1) (txLevel .nrz false bitOrderInv pnPre gray false
      (bitAt (getPolynomial p) (onesSeed p))) (t + φ) = _
    rw [this, href]
    push_cast
    rfl
  have hsq : ∑ t ∈ range (2 ^ p.value - 1), signal.getD t 0 ^ 2 = (2 ^ p.value - 1 : ℕ) * g ^ 2 := by
    rw [sum_congr rfl (fun t ht => show signal.getD t 0 ^ 2 = g ^ 2 by
      rw [hsig t ht, mul_pow, mul_pow, pow_two (uSeq _ _ _), uSeq_sq]
      cases pnPre <;> norm_num), sum_const, card_range, nsmul_eq_mul]
  have hsum : (∑ t ∈ range (2 ^ p.value - 1), signal.getD t 0) ^ 2 = g ^ 2 := by
    rw [sum_congr rfl hsig, ← mul_sum, ← mul_sum,
      zmod_sum_cast (2 ^ p.value - 1) (fun z => uSeq p (onesSeed p) (z + (φ : ZMod (2 ^ p.value - 1)))),
      sum_shift (uSeq p (onesSeed p)), hu1, mul_one, mul_pow]
    cases pnPre <;> norm_num
  have hvar : popVar (2 ^ p.value - 1) (fun t => signal.getD t 0)
      = g ^ 2 * (1 - 1 / ((2 ^ p.value - 1 : ℕ) : ℝ) ^ 2) := by
    rw [popVar_eq _ hN, hsq, div_pow, hsum]
    field_simp
  rw [hvar] at hv ⊢
  have : 0 < 1 - 1 / ((2 ^ p.value - 1 : ℕ) : ℝ) ^ 2 := by
    rcases mul_pos_iff.1 hv with h | h
    · exact h.2
    · exact absurd h.1 (not_lt.2 (sq_nonneg g))
  congr 4
  show [g / _] = [_]
  congr 1
  rw [div_eq_div_iff (by positivity) (by positivity)]
  ring

/-- **C68** (negation of "the FIR of the channel"). A gain of two is reported as a gain below one, for every supported
PRBS: e.g. 0.50003 for PRBS7. -/
theorem C68_negative_scale (ls : Solver ℝ) (p : PrbsEnum) (b : ℕ → ℤ)
    (hb : Spec.LfsrStream (getPolynomial p) (List.replicate p.value 1) b) (signal : List ℝ)
    (hlen : 2 * (2 ^ p.value - 1) ≤ signal.length)
    (hs : ∀ t < signal.length, signal.getD t 0
      = 2 * periodic (2 ^ p.value - 1) (txLevel .nrz false false false false false b) t)
    (hls : IsLs (solveWith ls .none 0) 1) :
    ∃ x e, channelEstimationPrbs ls p signal .nrz false 0 0 false false false false false
      = .ok (some ([x], e)) ∧ 0 < x ∧ x < 1 := by
  obtain ⟨e, he⟩ := C68_gain ls p false false false false b hb 2 (by norm_num) 0 signal hlen
    (by intro t ht; rw [hs t ht, add_zero]) hls
  have hN : (127 : ℝ) ≤ ((2 ^ p.value - 1 : ℕ) : ℝ) := by exact_mod_cast period_ge p
  have h1 : 1 / ((2 ^ p.value - 1 : ℕ) : ℝ) ^ 2 < 1 / 4 := by
    apply one_div_lt_one_div_of_lt (by norm_num)
    nlinarith
  refine ⟨_, e, he, ?_, ?_⟩
  · apply one_div_pos.2
    linarith
  · rw [div_lt_one (by linarith)]
    linarith

/-- three levels carry no whole number of bits -/
theorem prbsReference_pam3 (p : PrbsEnum) (fullScale bitOrderInv pnPre gray pnPost : Bool) :
    prbsReference p .pam3 fullScale bitOrderInv pnPre gray pnPost = .error .valueError := by
  have h3 : ∀ bits f, bin2symbol bits (intLevels .pam3).length f = .error .valueError := by
    intro bits f
    rw [C14_rejects_partial bits _ (by decide) ?_ f]
    · rw [if_neg (fun h => absurd h.1 (by decide))]
    · intro b hb h
      obtain ⟨k, rfl⟩ : ∃ k, b = k + 1 := ⟨b - 1, by omega⟩
      rw [pow_succ] at h
      change 3 = 2 ^ k * 2 at h
      omega
  unfold prbsReference
  simp only [bind, Except.bind]
  rw [prbsGenerator_supported p _ (by simp)]
  simp only [h3]

/-- **C68.** The remaining branches: PAM3 raises ValueError; more postcursors than the PRBS period raise IndexError; a
capture shorter than a period gives no finite result. -/
theorem C68_branches (ls : Solver ℝ) (p : PrbsEnum) (c : Constellation) (signal : List ℝ) (post pre : ℕ)
    (fullScale normalize bitOrderInv pnPre gray pnPost : Bool) (h0 : 0 < signal.length) :
    (c = .pam3 →
      channelEstimationPrbs ls p signal c fullScale post pre normalize bitOrderInv pnPre gray pnPost
        = .error .valueError) ∧
    (c ≠ .pam3 → 2 ^ p.value - 1 < post →
      channelEstimationPrbs ls p signal c fullScale post pre normalize bitOrderInv pnPre gray pnPost
        = .error .indexError) ∧
    (c ≠ .pam3 → post ≤ 2 ^ p.value - 1 → signal.length < 2 ^ p.value - 1 →
      channelEstimationPrbs ls p signal c fullScale post pre normalize bitOrderInv pnPre gray pnPost = .ok none) := by
  have hN : 0 < 2 ^ p.value - 1 := by have := period_ge p; omega
  have hlk : c ≠ .pam3 → ∃ a, lockPattern ((List.range (refReps c * (2 ^ p.value - 1))).map
      (txLevel c fullScale bitOrderInv pnPre gray false (bitAt (getPolynomial p) (onesSeed p)))) signal = .ok a := by
    intro _
    have hq : 0 < refReps c := by cases c <;> decide
    have := Nat.mul_pos hq hN
    rw [lockPattern, if_neg (by simp only [List.length_map, List.length_range]; omega)]
    exact ⟨_, rfl⟩
  refine ⟨?_, fun hc hp => ?_, fun hc hp hl => ?_⟩
  · rintro rfl
    unfold channelEstimationPrbs
    rw [prbsReference_pam3]
    rfl
  · obtain ⟨a, ha⟩ := hlk hc
    unfold channelEstimationPrbs
    rw [prbsReference_eq p c hc]
    simp only [bind, Except.bind]
    rw [ha]
    simp only
    split_ifs with h1
    · rfl
    · unfold chSolve
      rw [npTake_shift_error _ _ _ (by rw [periodMean_length]; exact hp)]
      rfl
  · obtain ⟨a, ha⟩ := hlk hc
    unfold channelEstimationPrbs
    rw [prbsReference_eq p c hc]
    simp only [bind, Except.bind]
    rw [ha]
    simp only
    rw [if_pos (Nat.div_eq_of_lt hl), if_neg (by omega)]
    rfl

/-! ### C69: equalizer estimation from a PRBS -/

/-- **C69.** Any captured signal of at least one period: the function locks the mapped PRBS at a phase `ph` of best
correlation and calls `equalization_estimation` with the averaged period and the symbols from `max(post, dfe)` on. -/
theorem C69_system (ls : Solver ℝ) (p : PrbsEnum) (c : Constellation) (hc : c ≠ .pam3)
    (fullScale bitOrderInv pnPre gray pnPost normalize : Bool) (reg : Reg) (lam : ℝ) (b : ℕ → ℤ)
    (hb : Spec.LfsrStream (getPolynomial p) (List.replicate p.value 1) b) (post pre dfe : ℕ)
    (hP : max post dfe ≤ 2 ^ p.value - 1) (signal : List ℝ) (hlen : 2 ^ p.value - 1 ≤ signal.length) :
    let x := periodic (2 ^ p.value - 1) (txLevel c fullScale bitOrderInv pnPre gray pnPost b)
    let m := periodAvg (2 ^ p.value - 1) (signal.length / (2 ^ p.value - 1)) (fun t => signal.getD t 0)
    ∃ ph : ℕ,
      BestPhase x (fun t => signal.getD t 0) (min ((if c = .pam4 then 1 else 2) * (2 ^ p.value - 1)) signal.length) ph ∧
      equalizationEstimationPrbs ls p signal c post pre dfe normalize reg lam fullScale bitOrderInv pnPre gray pnPost
        = equalizationEstimation ls
            ((List.range (2 ^ p.value - 1)).map (fun n : ℕ => x ((n + max post dfe : ℕ) + ph)))
            ((List.range (2 ^ p.value - 1)).map m) post pre dfe normalize reg lam := by
  intro x m
  obtain rfl := lfsrStream_unique hb (lfsrStream_bitAt _ _ (by rw [poly_length]; simp))
  have hN : 0 < 2 ^ p.value - 1 := by have := period_ge p; omega
  set ref := refZ p c fullScale bitOrderInv pnPre gray pnPost with href
  have hx : ∀ t : ℤ, x t = ref (t : ZMod (2 ^ p.value - 1)) := fun t => refZ_int p c _ _ _ _ _ t
  have hq : 0 < refReps c := by cases c <;> decide
  have hqe : refReps c = if c = .pam4 then 1 else 2 := by cases c <;> rfl
  obtain ⟨s, cc, hs1, hs2, hs3⟩ := lock_any ref (refReps c) hq signal (by omega) x hx
  have hpat : (List.range (refReps c * (2 ^ p.value - 1))).map (txLevel c fullScale bitOrderInv pnPre gray pnPost
      (bitAt (getPolynomial p) (onesSeed p)))
        = (List.range (refReps c * (2 ^ p.value - 1))).map (fun t : ℕ => ref (t : ZMod (2 ^ p.value - 1))) :=
    List.map_congr_left (fun t _ => (refZ_cast p c _ _ _ _ _ t).symm)
  have hqN : 2 ^ p.value - 1 ≤ refReps c * (2 ^ p.value - 1) := Nat.le_mul_of_pos_left _ hq
  have hreps : 0 < signal.length / (2 ^ p.value - 1) := Nat.div_pos hlen hN
  refine ⟨s, by rw [← hqe]; exact hs3, ?_⟩
  unfold equalizationEstimationPrbs
  rw [prbsReference_eq p c hc]
  simp only [bind, Except.bind]
  rw [hpat, hs2]
  simp only [if_neg hreps.ne']
  rw [npTake_shift _ _ _ (by simpa using hqN) hP]
  simp only
  congr 1
  · apply List.map_congr_left
    intro i _
    rw [map_range_getD _ _ _ _ (lt_of_lt_of_le (Nat.mod_lt _ hN) hqN), ZMod.natCast_mod, hx, Int.cast_add, Int.cast_natCast,
      Int.cast_natCast]
  · refine ext_getD 0 (by simp [periodMean_length]) (fun t ht => ?_)
    rw [periodMean_length] at ht
    rw [periodMean_getD signal _ _ t hN ht (Nat.mul_div_le _ _), map_range_getD _ _ _ _ ht]
    rfl

/-- **C69.** A capture shorter than one period is used as it is, with as many locked symbols; PAM3 raises ValueError. -/
theorem C69_short (ls : Solver ℝ) (p : PrbsEnum) (c : Constellation)
    (fullScale bitOrderInv pnPre gray pnPost normalize : Bool) (reg : Reg) (lam : ℝ) (b : ℕ → ℤ)
    (hb : Spec.LfsrStream (getPolynomial p) (List.replicate p.value 1) b) (post pre dfe : ℕ)
    (hP : max post dfe ≤ 2 ^ p.value - 1) (signal : List ℝ) (h0 : 0 < signal.length)
    (hlen : signal.length < 2 ^ p.value - 1) :
    let x := periodic (2 ^ p.value - 1) (txLevel c fullScale bitOrderInv pnPre gray pnPost b)
    (c = .pam3 → equalizationEstimationPrbs ls p signal c post pre dfe normalize reg lam fullScale bitOrderInv pnPre gray
      pnPost = .error .valueError) ∧
    (c ≠ .pam3 → ∃ ph : ℕ, BestPhase x (fun t => signal.getD t 0) signal.length ph ∧
      equalizationEstimationPrbs ls p signal c post pre dfe normalize reg lam fullScale bitOrderInv pnPre gray pnPost
        = equalizationEstimation ls ((List.range signal.length).map (fun n : ℕ => x ((n + max post dfe : ℕ) + ph)))
            signal post pre dfe normalize reg lam) := by
  intro x
  constructor
  · rintro rfl
    unfold equalizationEstimationPrbs
    rw [prbsReference_pam3]
    rfl
  intro hc
  obtain rfl := lfsrStream_unique hb (lfsrStream_bitAt _ _ (by rw [poly_length]; simp))
  have hN : 0 < 2 ^ p.value - 1 := by have := period_ge p; omega
  set ref := refZ p c fullScale bitOrderInv pnPre gray pnPost with href
  have hx : ∀ t : ℤ, x t = ref (t : ZMod (2 ^ p.value - 1)) := fun t => refZ_int p c _ _ _ _ _ t
  have hq : 0 < refReps c := by cases c <;> decide
  obtain ⟨s, cc, hs1, hs2, hs3⟩ := lock_any ref (refReps c) hq signal h0 x hx
  have hpat : (List.range (refReps c * (2 ^ p.value - 1))).map (txLevel c fullScale bitOrderInv pnPre gray pnPost
      (bitAt (getPolynomial p) (onesSeed p)))
        = (List.range (refReps c * (2 ^ p.value - 1))).map (fun t : ℕ => ref (t : ZMod (2 ^ p.value - 1))) :=
    List.map_congr_left (fun t _ => (refZ_cast p c _ _ _ _ _ t).symm)
  have hqN : 2 ^ p.value - 1 ≤ refReps c * (2 ^ p.value - 1) := Nat.le_mul_of_pos_left _ hq
  rw [Nat.min_eq_right (by omega)] at hs3
  refine ⟨s, hs3, ?_⟩
  unfold equalizationEstimationPrbs
  rw [prbsReference_eq p c hc]
  simp only [bind, Except.bind]
  rw [hpat, hs2]
  simp only [if_pos (Nat.div_eq_of_lt hlen)]
  rw [npTake_shift _ _ _ (by simpa using hqN) hP]
  simp only
  congr 1
  rw [← List.map_take, List.take_range, Nat.min_eq_left hlen.le]
  apply List.map_congr_left
  intro i _
  rw [map_range_getD _ _ _ _ (lt_of_lt_of_le (Nat.mod_lt _ hN) hqN), ZMod.natCast_mod, hx, Int.cast_add, Int.cast_natCast,
    Int.cast_natCast]

/-- **C69** (partial: no more DFE taps than FFE postcursors, and at most one, see `C69_negative_window` and
`C58_negative_overflow`). With a least squares solver, the returned taps minimise the squared differences between the
output of the equalizer with `pre` precursors, fed with the averaged period, and the locked symbols, over the symbol
times `post + dfe, …, post + dfe + R - 1`. -/
theorem C69_optimal_partial (ls : Solver ℝ) (p : PrbsEnum) (c : Constellation) (hc : c ≠ .pam3)
    (fullScale bitOrderInv pnPre gray pnPost : Bool) (reg : Reg) (lam : ℝ) (b : ℕ → ℤ)
    (hb : Spec.LfsrStream (getPolynomial p) (List.replicate p.value 1) b) (post pre dfe R : ℕ)
    (hd : dfe ≤ post) (hd1 : dfe ≤ 1) (hR : R + (post + pre + 1) = 2 ^ p.value - 1)
    (hW : dfe + post + pre + 1 ≤ 2 ^ p.value - 1) (signal : List ℝ) (hlen : 2 ^ p.value - 1 ≤ signal.length)
    (hls : IsLs (solveWith ls reg lam) (post + pre + 1 + dfe)) :
    let x := periodic (2 ^ p.value - 1) (txLevel c fullScale bitOrderInv pnPre gray pnPost b)
    let m := periodic (2 ^ p.value - 1)
      (periodAvg (2 ^ p.value - 1) (signal.length / (2 ^ p.value - 1)) (fun t => signal.getD t 0))
    ∃ (ph : ℕ) (r : EqEst ℝ),
      BestPhase x (fun t => signal.getD t 0) (min ((if c = .pam4 then 1 else 2) * (2 ^ p.value - 1)) signal.length) ph ∧
      equalizationEstimationPrbs ls p signal c post pre dfe false reg lam fullScale bitOrderInv pnPre gray pnPost
        = .ok r ∧ r.ffe.length = post + pre + 1 ∧ (r.dfe.getD []).length = dfe ∧
      ∀ f d : List ℝ, f.length = post + pre + 1 → d.length = dfe →
        ∑ i ∈ range R, (eqAt r.ffe (r.dfe.getD []) pre m (fun t => x (t + ph)) ((post + dfe + i : ℕ) : ℤ)
            - x ((post + dfe + i : ℕ) + ph)) ^ 2
          ≤ ∑ i ∈ range R, (eqAt f d pre m (fun t => x (t + ph)) ((post + dfe + i : ℕ) : ℤ)
            - x ((post + dfe + i : ℕ) + ph)) ^ 2 := by
  intro x m
  have hmx : max post dfe = post := max_eq_left hd
  obtain ⟨ph, h1, h2⟩ := C69_system ls p c hc fullScale bitOrderInv pnPre gray pnPost false reg lam b hb post pre dfe
    (by omega) signal hlen
  rw [hmx] at h2
  obtain ⟨r, hr, hfl, hdl, hmin⟩ := C58_optimal_partial ls
    ((List.range (2 ^ p.value - 1)).map (fun n : ℕ => x ((n + post : ℕ) + ph)))
    ((List.range (2 ^ p.value - 1)).map (periodAvg (2 ^ p.value - 1) (signal.length / (2 ^ p.value - 1))
      (fun t => signal.getD t 0))) post pre dfe R reg lam (by simp) (by simp only [List.length_map, List.length_range]; omega)
    (by simp only [List.length_map, List.length_range]; omega) (by omega) hls
  refine ⟨ph, r, h1, by rw [h2]; exact hr, hfl, hdl, fun f d hf hdd => ?_⟩
  have key : ∀ f d : List ℝ, f.length = post + pre + 1 → d.length = dfe → ∀ i ∈ range R, _ := fun f d hf hdd i hi =>
    eqOutput_eqAt f d (2 ^ p.value - 1) post pre dfe i hf hdd (by rw [mem_range] at hi; omega)
      (periodAvg (2 ^ p.value - 1) (signal.length / (2 ^ p.value - 1)) (fun t => signal.getD t 0))
      (fun t => x (t + ph))
  have tgt : ∀ i ∈ range R, ((List.range (2 ^ p.value - 1)).map (fun n : ℕ => x ((n + post : ℕ) + ph))).getD (dfe + i) 0
      = x ((post + dfe + i : ℕ) + ph) := by
    intro i hi
    rw [mem_range] at hi
    rw [map_range_getD _ _ _ _ (by omega)]
    congr 3
    omega
  have h := hmin f d hf hdd
  refine le_of_eq_of_le (sum_congr rfl (fun i hi => ?_)) (h.trans_eq (sum_congr rfl (fun i hi => ?_)))
  · rw [key _ _ hfl hdl i hi, tgt i hi]
  · rw [key _ _ hf hdd i hi, tgt i hi]

/-- **C69** (partial as above). Exact recovery: if the capture is the periodic PRBS sent through a channel `h` whose
main tap dominates, starting at any phase `φ`, and if some equalizer with these tap counts reproduces the symbols, then
so do the returned taps, at all `R` symbol times of the fit. -/
theorem C69_recovers_partial (ls : Solver ℝ) (p : PrbsEnum) (c : Constellation) (hc : c ≠ .pam3)
    (fullScale bitOrderInv pnPre gray pnPost : Bool) (reg : Reg) (lam : ℝ) (b : ℕ → ℤ)
    (hb : Spec.LfsrStream (getPolynomial p) (List.replicate p.value 1) b) (post pre dfe R : ℕ)
    (hd : dfe ≤ post) (hd1 : dfe ≤ 1) (hR : R + (post + pre + 1) = 2 ^ p.value - 1)
    (hW : dfe + post + pre + 1 ≤ 2 ^ p.value - 1)
    (h : List ℝ) (hpre : ℕ) (hp : hpre < h.length) (hl : h.length ≤ 2 ^ p.value - 1) (hm : MainTap c h hpre) (φ : ℤ)
    (signal : List ℝ) (hlen : (if c = .pam4 then 1 else 2) * (2 ^ p.value - 1) ≤ signal.length)
    (hls : IsLs (solveWith ls reg lam) (post + pre + 1 + dfe)) :
    let x := periodic (2 ^ p.value - 1) (txLevel c fullScale bitOrderInv pnPre gray pnPost b)
    let y := chanOut h hpre x
    (∀ t < signal.length, signal.getD t 0 = y (t + φ)) →
    (∃ f d : List ℝ, f.length = post + pre + 1 ∧ d.length = dfe ∧ ∀ t, eqAt f d pre y x t = x t) →
    ∃ r : EqEst ℝ,
      equalizationEstimationPrbs ls p signal c post pre dfe false reg lam fullScale bitOrderInv pnPre gray pnPost
        = .ok r ∧ r.ffe.length = post + pre + 1 ∧ (r.dfe.getD []).length = dfe ∧
      ∀ i < R, eqAt r.ffe (r.dfe.getD []) pre y x ((post + dfe + i : ℕ) + φ) = x ((post + dfe + i : ℕ) + φ) := by
  intro x y hs ⟨f, d, hf, hdl, hex⟩
  have hN1 := period_ge p
  have hN : 0 < 2 ^ p.value - 1 := by omega
  have hq : 0 < refReps c := by cases c <;> decide
  have hqe : refReps c = if c = .pam4 then 1 else 2 := by cases c <;> rfl
  have hqN : 2 ^ p.value - 1 ≤ refReps c * (2 ^ p.value - 1) := Nat.le_mul_of_pos_left _ hq
  rw [← hqe] at hlen
  obtain ⟨ph, r, h1, h2, h3, h4, h5⟩ := C69_optimal_partial ls p c hc fullScale bitOrderInv pnPre gray pnPost reg lam b hb
    post pre dfe R hd hd1 hR hW signal (by omega) hls
  have hbe := lfsrStream_unique hb (lfsrStream_bitAt _ _ (by rw [poly_length]; simp))
  set ref := refZ p c fullScale bitOrderInv pnPre gray pnPost with href
  have hx : ∀ t : ℤ, x t = ref (t : ZMod (2 ^ p.value - 1)) := by
    intro t
    show periodic (2 ^ p.value - 1) (txLevel c fullScale bitOrderInv pnPre gray pnPost b) t = _
    rw [hbe]
    exact refZ_int p c _ _ _ _ _ t
  have hy : ∀ t : ℤ, y t = ∑ r, tapZ (2 ^ p.value - 1) h hpre r * ref ((t : ZMod (2 ^ p.value - 1)) + r) := fun t =>
    chanOut_zmod h hpre x ref hx t
  have hgood := ref_good p c fullScale bitOrderInv pnPre gray pnPost hc
  rw [← href] at hgood
  have hlock := hgood.lock (tapZ (2 ^ p.value - 1) h hpre) (fun s hs => tapZ_main c h hpre hl hp hm s hs)
  rw [← hqe, Nat.min_eq_left hlen] at h1
  have hph := bestPhase_unique ref (tapZ (2 ^ p.value - 1) h hpre) φ (refReps c) hq hlock x hx
    (fun t => signal.getD t 0) (by
      intro t ht
      show signal.getD t 0 = _
      rw [hs t (by omega), hy]
      push_cast
      rfl) ph h1
  rw [Int.cast_natCast] at hph
  -- the symbols and samples of the fit are those of the transmission
  have hxs : ∀ t : ℤ, x (t + ph) = x (t + φ) := by
    intro t
    rw [hx, hx]
    push_cast
    rw [hph]
  have hms : ∀ t : ℤ, periodic (2 ^ p.value - 1)
      (periodAvg (2 ^ p.value - 1) (signal.length / (2 ^ p.value - 1)) (fun t => signal.getD t 0)) t = y (t + φ) := by
    intro t
    rw [periodic]
    have hlt : (t % ((2 ^ p.value - 1 : ℕ) : ℤ)).toNat < 2 ^ p.value - 1 := by
      have h1 := Int.emod_nonneg t (b := ((2 ^ p.value - 1 : ℕ) : ℤ)) (by omega)
      have h2 := Int.emod_lt_of_pos t (b := ((2 ^ p.value - 1 : ℕ) : ℤ)) (by omega)
      omega
    have hreps : 0 < signal.length / (2 ^ p.value - 1) := Nat.div_pos (by omega) hN
    have hval : (((t % ((2 ^ p.value - 1 : ℕ) : ℤ)).toNat : ℕ) : ZMod (2 ^ p.value - 1)) = (t : ZMod (2 ^ p.value - 1)) := by
      have h1 := Int.emod_nonneg t (b := ((2 ^ p.value - 1 : ℕ) : ℤ)) (by omega)
      rw [← Int.cast_natCast, Int.toNat_of_nonneg h1, ZMod.intCast_mod]
    have e : ∀ r ∈ range (signal.length / (2 ^ p.value - 1)),
        signal.getD (r * (2 ^ p.value - 1) + (t % ((2 ^ p.value - 1 : ℕ) : ℤ)).toNat) 0 = y (t + φ) := by
      intro r hr
      rw [mem_range] at hr
      have hle : r * (2 ^ p.value - 1) + (2 ^ p.value - 1) ≤ signal.length := by
        calc r * (2 ^ p.value - 1) + (2 ^ p.value - 1) = (r + 1) * (2 ^ p.value - 1) := by ring
          _ ≤ signal.length / (2 ^ p.value - 1) * (2 ^ p.value - 1) := Nat.mul_le_mul_right _ hr
          _ ≤ signal.length := Nat.div_mul_le_self _ _
      rw [hs _ (by omega), hy, hy, Int.cast_add, Int.cast_natCast, Nat.cast_add, hval, Nat.cast_mul, ZMod.natCast_self,
        mul_zero, zero_add, Int.cast_add]
    rw [periodAvg, sum_congr rfl e, sum_const, card_range, nsmul_eq_mul]
    field_simp
  have hEq : ∀ (f d : List ℝ) (t : ℤ), eqAt f d pre (periodic (2 ^ p.value - 1)
      (periodAvg (2 ^ p.value - 1) (signal.length / (2 ^ p.value - 1)) (fun t => signal.getD t 0)))
      (fun t => x (t + ph)) t = eqAt f d pre y x (t + φ) := by
    intro f d t
    rw [eqAt, eqAt]
    congr 1
    · refine sum_congr rfl (fun k _ => ?_)
      rw [hms]
      congr 2
      ring
    · refine sum_congr rfl (fun k _ => ?_)
      simp only [hxs]
      congr 2
      ring
  refine ⟨r, h2, h3, h4, fun i hi => ?_⟩
  have h6 : ∑ i ∈ range R, (eqAt r.ffe (r.dfe.getD []) pre y x ((post + dfe + i : ℕ) + φ)
        - x ((post + dfe + i : ℕ) + φ)) ^ 2
      ≤ ∑ i ∈ range R, (eqAt f d pre y x ((post + dfe + i : ℕ) + φ) - x ((post + dfe + i : ℕ) + φ)) ^ 2 := by
    refine le_of_eq_of_le (sum_congr rfl (fun i _ => ?_)) ((h5 f d hf hdl).trans_eq (sum_congr rfl (fun i _ => ?_)))
    · rw [← hEq, ← hxs]
    · rw [← hEq, ← hxs]
  rw [sum_eq_zero (fun i _ => by rw [hex, sub_self]; ring) (s := range R)
    (f := fun i => (eqAt f d pre y x ((post + dfe + i : ℕ) + φ) - x ((post + dfe + i : ℕ) + φ)) ^ 2)] at h6
  have h7 := (sum_eq_zero_iff_of_nonneg (fun _ _ => sq_nonneg _)).1
    (le_antisymm h6 (sum_nonneg (fun _ _ => sq_nonneg _))) i (mem_range.2 hi)
  exact sub_eq_zero.1 ((pow_eq_zero_iff two_ne_zero).1 h7)

/-- A channel with a postcursor and taps (`post = 1, pre = 0, dfe = 1`) which reproduce the symbols. -/
example (c : Constellation) (x : ℤ → ℝ) : MainTap c [1, 1 / 4] 0 ∧
    ∀ t, eqAt [1, 0] [1 / 4] 0 (chanOut [1, 1 / 4] 0 x) x t = x t := by
  refine ⟨⟨by norm_num, fun k hk hk1 => ?_⟩, fun t => ?_⟩
  · obtain rfl : k = 1 := by simp at hk; omega
    split_ifs <;> norm_num [abs_of_pos]
  · simp [eqAt, chanOut, sum_range_succ]

/-- **C69** (negation for more DFE taps than FFE postcursors). Every supported PRBS as NRZ, received without any
distortion; one FFE tap and one DFE tap. The taps `[1]`, `[0]` reproduce the symbols, but every solver leaves a
residual: the equalizer is fitted to the *next* symbol. -/
theorem C69_negative_window (ls : Solver ℝ) (p : PrbsEnum) (b : ℕ → ℤ)
    (hb : Spec.LfsrStream (getPolynomial p) (List.replicate p.value 1) b) (signal : List ℝ)
    (hlen : 2 * (2 ^ p.value - 1) ≤ signal.length) (hls : IsLs (solveWith ls .none 0) 2) :
    let x := periodic (2 ^ p.value - 1) (txLevel .nrz false false false false false b)
    (∀ t < signal.length, signal.getD t 0 = x t) →
    (∀ t, eqAt [1] [0] 0 x x t = x t) ∧
    ∃ r, equalizationEstimationPrbs ls p signal .nrz 0 0 1 false .none 0 false false false false false = .ok r ∧
      0 < r.mse.1 := by
  intro x hs
  refine ⟨fun t => by simp [eqAt], ?_⟩
  have hN1 := period_ge p
  have hN : 0 < 2 ^ p.value - 1 := by omega
  obtain ⟨ph, h1, h2⟩ := C69_system ls p .nrz (by decide) false false false false false false .none 0 b hb 0 0 1
    (by show 1 ≤ _; omega) signal (by omega)
  have hbe := lfsrStream_unique hb (lfsrStream_bitAt _ _ (by rw [poly_length]; simp))
  set ref := refZ p .nrz false false false false false with href
  have hx : ∀ t : ℤ, x t = ref (t : ZMod (2 ^ p.value - 1)) := by
    intro t
    show periodic (2 ^ p.value - 1) (txLevel .nrz false false false false false b) t = _
    rw [hbe]
    exact refZ_int p .nrz _ _ _ _ _ t
  have hru : ∀ z, ref z = uSeq p (onesSeed p) z := by
    intro z
    rw [href, refZ, uSeq]
    simp [txLevel, flipBit, unitScale]
  have hgood := ref_good p .nrz false false false false false (by decide)
  rw [← href] at hgood
  have hm : MainTap .nrz [1] 0 := ⟨by norm_num, fun k hk hk0 => absurd (by simpa using hk) hk0⟩
  have hlock := hgood.lock (tapZ (2 ^ p.value - 1) [1] 0)
    (fun s hs => tapZ_main .nrz [1] 0 (by show 1 ≤ _; omega) (by decide) hm s hs)
  have hy : ∀ t : ℤ, x t = ∑ r, tapZ (2 ^ p.value - 1) [1] 0 r * ref ((t : ZMod (2 ^ p.value - 1)) + r) := by
    intro t
    rw [← chanOut_zmod [1] 0 x ref hx]
    simp [chanOut]
  rw [if_neg (by decide), Nat.min_eq_left hlen] at h1
  have hph := bestPhase_unique ref (tapZ (2 ^ p.value - 1) [1] 0) 0 2 (by decide) hlock x hx
    (fun t => signal.getD t 0) (by
      intro t ht
      show signal.getD t 0 = _
      rw [hs t (by omega), hy]
      simp) ph h1
  rw [Int.cast_natCast, Int.cast_zero] at hph
  have hreps : 0 < signal.length / (2 ^ p.value - 1) := Nat.div_pos (by omega) hN
  have hmean : ∀ t < 2 ^ p.value - 1, periodAvg (2 ^ p.value - 1) (signal.length / (2 ^ p.value - 1))
      (fun t => signal.getD t 0) t = x t := by
    intro t ht
    have h := periodMean_periodic signal ref (by intro t ht; rw [hs t ht, hx, Int.cast_natCast]) hreps
    have h3 : (periodMean signal _ _).getD t 0 = _ := congrArg (fun l => l.getD t 0) h
    rw [map_range_getD _ _ _ _ ht, periodMean_getD _ _ _ _ hN ht (Nat.mul_div_le _ _)] at h3
    rw [hx, Int.cast_natCast, ← h3]
    rfl
  set reference := (List.range (2 ^ p.value - 1)).map (fun n : ℕ =>
    periodic (2 ^ p.value - 1) (txLevel .nrz false false false false false b) ((n + max 0 1 : ℕ) + ph)) with hrd
  set mean := (List.range (2 ^ p.value - 1)).map
    (periodAvg (2 ^ p.value - 1) (signal.length / (2 ^ p.value - 1)) (fun t => signal.getD t 0)) with hmd
  obtain ⟨R, hR⟩ : ∃ R, R + 2 = 2 ^ p.value - 1 := ⟨2 ^ p.value - 1 - 2, by omega⟩
  have hrg : ∀ n < 2 ^ p.value - 1, reference.getD n 0 = x (n + 1) := by
    intro n hn
    rw [hrd, map_range_getD _ _ _ _ hn]
    show x ((n + 1 : ℕ) + ph) = _
    rw [hx, hx]
    push_cast
    rw [hph, add_zero]
  have hmg : ∀ n < 2 ^ p.value - 1, mean.getD n 0 = x n := by
    intro n hn
    rw [hmd, map_range_getD _ _ _ _ hn, hmean n hn]
  obtain ⟨A, bb, hA, hbb, hrow, hres, hret⟩ := C58_system ls reference mean 0 0 1 R .none 0 (by simp [hrd, hmd])
    (by simp [hmd]; omega) (by simp [hmd]; omega)
  obtain ⟨w, hw, hwl, -⟩ := hls A bb (by rw [hA, hbb]) hrow
  have hsolve : ∃ e, eqSolve ls .none 0 A bb = .ok (w, e) := by
    rw [solveWith] at hw
    cases h : eqSolve ls .none 0 A bb with
    | error e => rw [h] at hw; cases hw
    | ok r => rw [h] at hw; cases hw; exact ⟨_, rfl⟩
  obtain ⟨e, he⟩ := hsolve
  obtain ⟨r, hr, hrf, hrdf, -, -, hmse, -⟩ := hret w e he hwl
  refine ⟨r, by rw [h2]; exact hr, ?_⟩
  have hRpos : (0 : ℝ) < R := by
    have : 0 < R := by omega
    exact_mod_cast this
  rw [hmse]
  refine div_pos ?_ hRpos
  rcases (sum_nonneg (fun i _ => sq_nonneg _) : (0 : ℝ) ≤ ∑ i ∈ range R, (Spec.eqOutput r.ffe (r.dfe.getD [])
    (Spec.mirrored mean) (fun t => reference.getD t 0) (1 + i) - reference.getD (1 + i) 0) ^ 2).lt_or_eq with h0 | h0
  · exact h0
  exfalso
  have hz := (sum_eq_zero_iff_of_nonneg (fun _ _ => sq_nonneg _)).1 h0.symm
  -- each row asks for a multiple of the present symbol to be the next one
  obtain ⟨f0, d0, rfl⟩ : ∃ f0 d0, w = [f0, d0] := by
    match w, hwl with
    | [f0, d0], _ => exact ⟨f0, d0, rfl⟩
  have hstep : ∀ i < R, (f0 - d0) * x (1 + i : ℕ) = x ((1 + i : ℕ) + 1) := by
    intro i hi
    have h3 := sub_eq_zero.1 ((pow_eq_zero_iff two_ne_zero).1 (hz i (mem_range.2 hi)))
    rw [hrf, hrdf, hrg _ (by omega)] at h3
    rw [← h3]
    simp only [Spec.eqOutput, List.take, List.drop, List.reverse_singleton, List.length_singleton, sum_range_one,
      if_neg one_ne_zero, Option.getD_some, List.getD_cons_zero, Nat.sub_self, Nat.add_zero, Nat.sub_zero]
    rw [Spec.mirrored, if_pos (by rw [hmd]; simp; omega), hmg _ (by omega), hrg _ (by omega)]
    have : ((1 + i - 1 : ℕ) : ℤ) + 1 = ((1 + i : ℕ) : ℤ) := by omega
    rw [this]
    ring
  have hxc : ∀ t : ℤ, x t = 1 ∨ x t = -1 := by
    intro t
    rw [hx, hru]
    exact uSeq_cases _ _ _
  have hk : f0 - d0 = 1 ∨ f0 - d0 = -1 := by
    have h3 := hstep 0 (by omega)
    rcases hxc (1 + 0 : ℕ) with h4 | h4 <;> rcases hxc ((1 + 0 : ℕ) + 1) with h5 | h5 <;> rw [h4, h5] at h3
    · left; linarith
    · right; linarith
    · right; linarith
    · left; linarith
  have hcorr := uSeq_corr p (onesSeed p) (by simp) (onesSeed_ne p) 1
  rw [if_neg (by
      intro h0
      have h' : ((1 : ℕ) : ZMod (2 ^ p.value - 1)) = 0 := by rwa [Nat.cast_one]
      have := Nat.le_of_dvd one_pos ((ZMod.natCast_eq_zero_iff _ _).1 h')
      omega),
    ← zmod_sum_cast (2 ^ p.value - 1) (fun z => uSeq p (onesSeed p) z * uSeq p (onesSeed p) (z + 1))] at hcorr
  have hcx : ∀ t : ℕ, uSeq p (onesSeed p) (t : ZMod (2 ^ p.value - 1)) * uSeq p (onesSeed p) ((t : ZMod (2 ^ p.value - 1)) + 1)
      = x t * x (t + 1) := by
    intro t
    rw [hx, hx, hru, hru]
    push_cast
    rfl
  simp only [hcx] at hcorr
  rw [show 2 ^ p.value - 1 = 1 + R + 1 by omega, sum_range_succ, sum_range_add, sum_range_one] at hcorr
  have hmid : ∀ i ∈ range R, x ((1 + i : ℕ) : ℤ) * x (((1 + i : ℕ) : ℤ) + 1) = f0 - d0 := by
    intro i hi
    rw [← hstep i (mem_range.1 hi)]
    rcases hxc ((1 + i : ℕ) : ℤ) with h4 | h4 <;> rw [h4] <;> ring
  rw [sum_congr rfl hmid, sum_const, card_range, nsmul_eq_mul] at hcorr
  have hb1 : ∀ s t : ℤ, -1 ≤ x s * x t ∧ x s * x t ≤ 1 := by
    intro s t
    rcases hxc s with h4 | h4 <;> rcases hxc t with h5 | h5 <;> rw [h4, h5] <;> norm_num
  have e1 := hb1 ((0 : ℕ) : ℤ) (((0 : ℕ) : ℤ) + 1)
  have e2 := hb1 ((1 + R : ℕ) : ℤ) (((1 + R : ℕ) : ℤ) + 1)
  have hR' : (100 : ℝ) ≤ R := by
    have : 100 ≤ R := by omega
    exact_mod_cast this
  rcases hk with h | h <;> rw [h] at hcorr <;> linarith [e1.1, e1.2, e2.1, e2.2]

end Verif
