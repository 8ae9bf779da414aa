import Verif.Props.RoundedFilter

/-!
# The memory of the channel filter in floating-point arithmetic (C90)

Continuation of `Props/RoundedFilter`: what `awgn_channel` returns as final memory, and processing in chunks.
-/

open Finset

namespace Verif
open Spec

/-- rounding twice is rounding once -/
theorem fl_idem (p : ℕ) (hp : 1 ≤ p) (x : ℝ) : fl p (fl p x) = fl p x := by
  by_cases hx : x = 0
  · rw [hx, fl_zero, fl_zero]
  have hu := ulp_pos p x
  have hlt : |x| < 2 ^ (p : ℤ) * ulp p x := by
    unfold ulp
    rw [← zpow_add₀ (by norm_num), show (p : ℤ) + (Int.log 2 |x| + 1 - p) = Int.log 2 |x| + 1 by ring]
    have := Int.lt_zpow_succ_log_self (b := 2) (by norm_num) (|x|)
    push_cast at this
    exact this
  have herr := roundHalfEven_error (x / ulp p x)
  have habs : |x / ulp p x| < 2 ^ (p : ℤ) := by
    rw [abs_div, abs_of_pos hu, div_lt_iff₀ hu]
    exact hlt
  obtain ⟨k, hk⟩ : ∃ k, k = Spec.roundHalfEven (x / ulp p x) := ⟨_, rfl⟩
  have hfl : fl p x = k * 2 ^ (Int.log 2 |x| + 1 - p) := by rw [hk]; rfl
  rw [← hk] at herr
  rw [zpow_natCast] at habs
  have hkle : |k| ≤ 2 ^ p := by
    have h1 : |(k : ℝ)| ≤ |(k : ℝ) - x / ulp p x| + |x / ulp p x| := by
      have := abs_add_le ((k : ℝ) - x / ulp p x) (x / ulp p x)
      rwa [sub_add_cancel] at this
    have h2 : |(k : ℝ)| < 2 ^ p + 1 := by linarith
    have h3 : ((|k| : ℤ) : ℝ) < ((2 ^ p + 1 : ℤ) : ℝ) := by push_cast; exact h2
    have h4 : |k| < 2 ^ p + 1 := by exact_mod_cast h3
    omega
  rw [hfl]
  rcases hkle.lt_or_eq with h | h
  · exact fl_exact p k _ h
  · have h2p : (1 : ℤ) < 2 ^ p := by
      have : (2 : ℤ) ^ 1 ≤ 2 ^ p := pow_le_pow_right₀ (by norm_num) hp
      omega
    rcases abs_choice k with hs | hs
    · rw [hs] at h
      rw [h]
      have : ((2 ^ p : ℤ) : ℝ) * 2 ^ (Int.log 2 |x| + 1 - (p : ℤ)) = ((1 : ℤ) : ℝ) * 2 ^ (Int.log 2 |x| + 1) := by
        push_cast
        rw [← zpow_natCast, ← zpow_add₀ (by norm_num), one_mul]
        congr 1
        ring
      rw [this]
      exact fl_exact p 1 _ (by simpa using h2p)
    · rw [hs] at h
      rw [show k = -2 ^ p by omega]
      have : ((-2 ^ p : ℤ) : ℝ) * 2 ^ (Int.log 2 |x| + 1 - (p : ℤ)) = ((-1 : ℤ) : ℝ) * 2 ^ (Int.log 2 |x| + 1) := by
        push_cast
        rw [neg_mul, ← zpow_natCast, ← zpow_add₀ (by norm_num)]
        rw [neg_mul, one_mul]
        congr 2
        ring
      rw [this]
      exact fl_exact p (-1) _ (by simpa using h2p)

theorem roundedDot_fixed {p : ℕ} (hp : 1 ≤ p) {l : List (ℝ × ℝ)} {s : ℝ} (h : RoundedDot (fl p) l s) : fl p s = s := by
  induction h with
  | nil => exact fl_zero p
  | prod a b => exact fl_idem p hp _
  | add l m s t hl hm h1 h2 _ _ => exact fl_idem p hp _
  | fma a b l s h _ => exact fl_idem p hp _
  | perm l m s hp' h ih => exact ih

theorem lfRun_memory_fixed (r : ℝ → ℝ) (hr : ∀ x, r (r x) = r x) (b a : List ℝ) (x : List ℝ) :
    ∀ z : List ℝ, (∀ v ∈ z, r v = v) → ∀ v ∈ (lfRun r b a z x).2, r v = v := by
  induction x with
  | nil => intro z hz; exact hz
  | cons x xs ih =>
    intro z hz
    refine ih _ ?_
    intro v hv
    unfold lfStep at hv
    simp only [List.mem_map] at hv
    obtain ⟨i, -, rfl⟩ := hv
    exact hr _

/-- **C90.** The memory returned by `awgn_channel` in `p`-bit arithmetic has the length the next call needs and consists of
`p`-bit numbers, so that the statements about one call hold for each of a sequence of calls. -/
theorem C90_memory (p : ℕ) (hp : 1 ≤ p) (conv : List ℝ → List ℝ → List ℝ) (hconv : IsConvolve (fl p) conv) (b : List ℝ) (a : Denom ℝ)
    (x : List ℝ) (hb : 0 < b.length) (ha : 0 < a.coeffs.length) (h0 : a.coeffs.getD 0 0 ≠ 0) (hx : 0 < x.length)
    (zi : Option (List ℝ)) (hz : ∀ z, zi = some z → z.length = max b.length a.coeffs.length - 1 ∧ ∀ v ∈ z, fl p v = v) :
    ∃ y z', awgnChannelR (fl p) conv x b a zi = .ok (y, z') ∧ z'.length = max b.length a.coeffs.length - 1 ∧
      ∀ v ∈ z', fl p v = v := by
  have hZl := channelMemory_length b a zi fun z h => (hz z h).1
  have hZr : ∀ v ∈ channelMemory b a zi, fl p v = v := by
    unfold channelMemory
    cases zi with
    | some z => exact (hz z rfl).2
    | none =>
      intro v hv
      have : v = 0 := by
        cases a with
        | vec a => simp only [channelRest, Option.getD_none, List.mem_replicate] at hv; exact hv.2
        | num a => simp only [channelRest, Option.getD_none, List.mem_replicate] at hv; exact hv.2
      rw [this, fl_zero]
  unfold awgnChannelR lfilterR
  rw [show zi.getD (channelRest b a) = channelMemory b a zi from rfl]
  generalize channelMemory b a zi = Z at *
  rw [if_neg (by rintro (q | q | q) <;> first | omega | exact h0 q), if_neg (by omega), if_neg (by omega)]
  by_cases h1 : a.coeffs.length = 1
  · simp only [h1, if_true]
    obtain ⟨b', hb'⟩ : ∃ b', b' = b.map (fun v => fl p (v / a.coeffs.getD 0 0)) := ⟨_, rfl⟩
    have hb'l : b'.length = b.length := by rw [hb', List.length_map]
    obtain ⟨g1, g2⟩ := hconv b' x (by omega) hx
    rw [← hb']
    refine ⟨_, _, rfl, ?_, fun v hv => ?_⟩
    · simp only [List.length_drop, List.length_map, List.length_range, g1]
      omega
    · have hv' := List.mem_of_mem_drop hv
      rw [List.mem_map] at hv'
      obtain ⟨i, hi, rfl⟩ := hv'
      rw [List.mem_range, g1] at hi
      split_ifs
      · exact fl_idem p hp _
      · obtain ⟨l, d1, -⟩ := g2 i hi
        exact roundedDot_fixed hp d1
  · simp only [h1, if_false]
    refine ⟨_, _, rfl, ?_, ?_⟩
    · rw [lfRun_state_length, hZl]
    · exact lfRun_memory_fixed (fl p) (fl_idem p hp) _ _ _ _ hZr

/-- **C90.** For filters without feedback the returned memory is what the samples of this call still contribute to the next
outputs, plus what was left of the old memory, up to rounding. -/
theorem C90_fir_memory (p : ℕ) (conv : List ℝ → List ℝ → List ℝ) (hconv : IsConvolve (fl p) conv) (b : List ℝ) (a : Denom ℝ)
    (x : List ℝ) (hb : 0 < b.length) (ha : a.coeffs.length = 1) (h0 : a.coeffs.getD 0 0 ≠ 0) (hx : 0 < x.length)
    (zi : Option (List ℝ)) (hz : ∀ z, zi = some z → z.length = b.length - 1 ∧ ∀ v ∈ z, fl p v = v) :
    ∃ y z', awgnChannelR (fl p) conv x b a zi = .ok (y, z') ∧ z'.length = b.length - 1 ∧
      ∀ m : ℕ, m < b.length - 1 →
        |z'.getD m 0 - (∑ i ∈ range b.length, b.getD i 0 / a.coeffs.getD 0 0 * withPast [] x ((x.length + m : ℕ) - i)
            + (zi.getD []).getD (x.length + m) 0)|
          ≤ ((1 + 2 ^ (-(p : ℤ))) ^ (2 * b.length + 1) - 1)
            * (∑ i ∈ range b.length, |b.getD i 0 / a.coeffs.getD 0 0| * |withPast [] x ((x.length + m : ℕ) - i)|
              + |(zi.getD []).getD (x.length + m) 0|) := by
  have hu0 := unit_nonneg p
  obtain ⟨u, hud⟩ : ∃ u : ℝ, u = 2 ^ (-(p : ℤ)) := ⟨_, rfl⟩
  have herr := fl_error p
  have hr0 := fl_zero p
  rw [← hud] at hu0 ⊢
  simp only [← hud] at herr
  have hM : max b.length a.coeffs.length = b.length := by omega
  have hZl : (channelMemory b a zi).length = b.length - 1 := by
    rw [channelMemory_length b a zi (by rw [hM]; exact fun z h => (hz z h).1), hM]
  have hZe : ∀ i, (channelMemory b a zi).getD i 0 = (zi.getD []).getD i 0 := by
    intro i
    unfold channelMemory
    cases zi with
    | some z => rfl
    | none => cases a <;> simp only [channelRest, Option.getD_none, replicate_getD, List.getD_nil]
  have hZr : ∀ i, fl p ((channelMemory b a zi).getD i 0 * 1) = (channelMemory b a zi).getD i 0 := by
    intro i
    rw [mul_one, hZe]
    cases zi with
    | none => simp only [Option.getD_none, List.getD_nil]; exact hr0
    | some z =>
      simp only [Option.getD_some]
      rcases Nat.lt_or_ge i z.length with q | q
      · exact (hz z rfl).2 _ (mem_of_getD 0 z q)
      · rw [getD_of_le 0 _ q, hr0]
  simp only [← hZe]
  obtain ⟨Z, hZ⟩ : ∃ Z, Z = channelMemory b a zi := ⟨_, rfl⟩
  rw [← hZ] at hZl hZr ⊢
  obtain ⟨r, hrd⟩ : ∃ r, r = fl p := ⟨_, rfl⟩
  rw [← hrd] at hconv herr hr0 hZr ⊢
  obtain ⟨c, hc⟩ : ∃ c, c = a.coeffs.getD 0 0 := ⟨_, rfl⟩
  rw [← hc] at h0 ⊢
  obtain ⟨b', hb'⟩ : ∃ b', b' = b.map (fun v => r (v / c)) := ⟨_, rfl⟩
  have hb'l : b'.length = b.length := by rw [hb', List.length_map]
  have hb'g : ∀ i, b'.getD i 0 = r (b.getD i 0 / c) := by intro i; rw [hb']; exact getD_map_div r hr0 b c i
  obtain ⟨g1, g2⟩ := hconv b' x (by omega) hx
  unfold awgnChannelR lfilterR
  rw [show zi.getD (channelRest b a) = Z from hZ.symm, ← hc]
  rw [if_neg (by rintro (q | q | q) <;> first | omega | exact h0 q), if_neg (by omega), if_neg (by omega)]
  simp only [ha, if_true]
  rw [← hb']
  refine ⟨_, _, rfl, ?_, fun m hm => ?_⟩
  · simp only [List.length_drop, List.length_map, List.length_range, g1]
    omega
  · obtain ⟨n, hn⟩ : ∃ n, n = x.length + m := ⟨_, rfl⟩
    have hnc : n < b'.length + x.length - 1 := by omega
    obtain ⟨l, d1, d2⟩ := g2 n hnc
    rw [← hn, drop_getD, ← hn, map_range_getD _ _ _ _ (by omega)]
    have hP : ∀ l m : List (ℝ × ℝ), l.Perm m → pairSum l = pairSum m ∧ pairAbs l = pairAbs m ∧ l.length = m.length := by
      intro l m h
      exact ⟨(h.map _).sum_eq, (h.map _).sum_eq, h.length_eq⟩
    obtain ⟨p1, p2, p3⟩ := hP _ _ d2
    have hterm : ∀ i, (if i ≤ n ∧ n - i < x.length then x.getD (n - i) 0 else 0) = withPast [] x ((n : ℤ) - i) := by
      intro i
      by_cases q : i ≤ n
      · rw [show (n : ℤ) - i = ((n - i : ℕ) : ℤ) by omega, withPast_nat]
        by_cases q2 : n - i < x.length
        · rw [if_pos ⟨q, q2⟩]
        · rw [if_neg (by omega), getD_of_le 0 x (by omega)]
      · rw [if_neg (by omega), show (n : ℤ) - i = -((i - n - 1 : ℕ) : ℤ) - 1 by omega, withPast_neg]
        simp
    have hs : pairSum l = ∑ i ∈ range b.length, r (b.getD i 0 / c) * withPast [] x (n - i) := by
      rw [p1, pairSum, List.map_map, hb'l]
      rw [list_sum_filter_range b.length (fun i => i ≤ n ∧ n - i < x.length)]
      refine sum_congr rfl fun i hi => ?_
      simp only [Function.comp, hb'g]
      rw [← hterm i]
      split_ifs <;> simp
    have hab : pairAbs l = ∑ i ∈ range b.length, |r (b.getD i 0 / c)| * |withPast [] x (n - i)| := by
      rw [p2, pairAbs, List.map_map, hb'l]
      rw [list_sum_filter_range b.length (fun i => i ≤ n ∧ n - i < x.length)]
      refine sum_congr rfl fun i hi => ?_
      simp only [Function.comp, hb'g]
      rw [← hterm i]
      split_ifs <;> simp
    have hll : l.length ≤ b.length := by
      rw [p3, List.length_map]
      refine (List.length_filter_le _ _).trans ?_
      simp [hb'l]
    have key : |(if n < Z.length then r ((conv b' x).getD n 0 + Z.getD n 0) else (conv b' x).getD n 0)
        - (∑ i ∈ range b.length, r (b.getD i 0 / c) * withPast [] x (n - i) - 0 + Z.getD n 0)|
        ≤ ((1 + u) ^ (2 * b.length) - 1) * (∑ i ∈ range b.length, |r (b.getD i 0 / c)| * |withPast [] x (n - i)| + 0 + |Z.getD n 0|) := by
      rw [sub_zero, add_zero, ← hs, ← hab]
      by_cases q : n < Z.length
      · rw [if_pos q]
        have hl0 : l ≠ [] := by
          intro e
          have : (n - (x.length - 1)) ∈ (List.range b'.length).filter (fun i => i ≤ n ∧ n - i < x.length) := by
            rw [List.mem_filter]
            refine ⟨by simp; omega, ?_⟩
            simp only [Bool.decide_and, Bool.and_eq_true, decide_eq_true_eq]
            omega
          rw [e, List.nil_perm, List.map_eq_nil_iff] at d2
          rw [d2] at this
          simp at this
        have hd : RoundedDot r (l ++ [(Z.getD n 0, 1)]) (r ((conv b' x).getD n 0 + Z.getD n 0)) := by
          have hp := RoundedDot.prod (r := r) (Z.getD n 0) 1
          rw [hZr] at hp
          exact .add _ _ _ _ hl0 (by simp) d1 hp
        have := roundedDot_pow hu0 herr hd (2 * b.length) (by simp only [List.length_append, List.length_singleton]; omega)
        rw [pairSum_append, pairAbs_append, pairSum_single, pairAbs_single, mul_one, abs_one, mul_one] at this
        exact this
      · rw [if_neg q, getD_of_le 0 Z (by omega), abs_zero, add_zero, add_zero]
        exact roundedDot_pow hu0 herr d1 _ (by omega)
    obtain ⟨q1, q2⟩ := sum_perturb (range b.length) (fun i => b.getD i 0 / c) (fun i => r (b.getD i 0 / c))
      (fun i => withPast [] x ((n : ℤ) - i)) u (fun i _ => herr _)
    have hpow1 : (0 : ℝ) ≤ (1 + u) ^ (2 * b.length) - 1 := by
      have : (1 : ℝ) ≤ (1 + u) ^ (2 * b.length) := one_le_pow₀ (by linarith)
      linarith
    have := residual_combine u _ _ _ _ 0 0 _ _ _ 0 0 _ hu0 hpow1 key q1 (by simp) q2 (by simp) (abs_nonneg _)
    rw [sub_zero, add_zero] at this
    refine this.trans (le_of_eq ?_)
    congr 1
    rw [pow_succ]
    ring

/-- **C90.** With feedback the channel runs a sample recursion: processing in chunks with the memory handed on gives, bit for
bit, the output and final memory of one call, in any arithmetic. -/
theorem C90_chunks (r : ℝ → ℝ) (conv : List ℝ → List ℝ → List ℝ) (b : List ℝ) (a : Denom ℝ) (x₁ x₂ : List ℝ) (ha : 2 ≤ a.coeffs.length)
    (zi : Option (List ℝ)) (y₁ z₁ : List ℝ) (h1 : awgnChannelR r conv x₁ b a zi = .ok (y₁, z₁)) :
    ∃ y₂ z₂, awgnChannelR r conv x₂ b a (some z₁) = .ok (y₂, z₂) ∧
      awgnChannelR r conv (x₁ ++ x₂) b a zi = .ok (y₁ ++ y₂, z₂) := by
  unfold awgnChannelR lfilterR at h1 ⊢
  simp only [Option.getD_some]
  by_cases c1 : b.length = 0 ∨ a.coeffs.length = 0 ∨ a.coeffs.getD 0 0 = 0
  · rw [if_pos c1] at h1; cases h1
  rw [if_neg c1] at h1
  by_cases c2 : (zi.getD (channelRest b a)).length ≠ max b.length a.coeffs.length - 1
  · rw [if_pos c2] at h1; cases h1
  rw [if_neg c2, if_neg (by omega)] at h1
  have hn : ¬ a.coeffs.length = 1 := by omega
  simp only [hn, if_false, Except.ok.injEq] at h1
  have hz : z₁.length = max b.length a.coeffs.length - 1 := by
    have := lfRun_state_length r (b.map (fun v => r (v / a.coeffs.getD 0 0))) (a.coeffs.map (fun v => r (v / a.coeffs.getD 0 0)))
      (zi.getD (channelRest b a)) x₁
    rw [h1] at this
    rw [this]
    push Not at c2
    exact c2
  rw [if_neg c1, if_neg c1, if_neg (by rw [hz]; simp), if_neg c2, if_neg (by omega), if_neg (by omega)]
  simp only [hn, if_false]
  refine ⟨_, _, rfl, ?_⟩
  rw [lfRun_append, h1, if_neg (by simp)]

/-- a two-tap channel with memory, in double precision: the memory is a single double -/
example (conv : List ℝ → List ℝ → List ℝ) (hconv : IsConvolve (fl 53) conv) :
    ∃ y z', awgnChannelR (fl 53) conv [1, -1, 1] [1 / 2, 1 / 4] (.num 1) (some [1]) = .ok (y, z') ∧ z'.length = 1 ∧
      |z'.getD 0 0 - 1 / 4| ≤ ((1 + 2 ^ (-((53 : ℕ) : ℤ))) ^ 5 - 1) * (1 / 4) := by
  obtain ⟨y, z', h1, h2, h3⟩ := C90_fir_memory 53 conv hconv [1 / 2, 1 / 4] (.num 1) [1, -1, 1] (by simp) rfl (by simp [Denom.coeffs])
    (by simp) (some [1]) (by
      intro z hz
      cases hz
      refine ⟨rfl, ?_⟩
      intro v hv
      rw [List.mem_singleton.1 hv]
      have := fl_exact 53 1 0 (by norm_num)
      simpa using this)
  refine ⟨y, z', h1, h2, ?_⟩
  have h := h3 0 (by simp)
  have e1 : withPast ([] : List ℝ) [1, -1, 1] (((3 + 0 : ℕ) : ℤ) - (0 : ℕ)) = 0 := by
    rw [show (((3 + 0 : ℕ) : ℤ) - (0 : ℕ)) = ((3 : ℕ) : ℤ) by norm_num, withPast_nat]; rfl
  have e2 : withPast ([] : List ℝ) [1, -1, 1] (((3 + 0 : ℕ) : ℤ) - (1 : ℕ)) = 1 := by
    rw [show (((3 + 0 : ℕ) : ℤ) - (1 : ℕ)) = ((2 : ℕ) : ℤ) by norm_num, withPast_nat]; rfl
  simp only [List.length_cons, List.length_nil, zero_add, Nat.reduceAdd, sum_range_succ, sum_range_zero] at h
  have e3 : ([(1 : ℝ)]).getD (3 + 0) 0 = 0 := rfl
  simp only [Option.getD_some, Nat.add_zero] at h e1 e2 e3
  rw [e1, e2, e3] at h
  norm_num [Denom.coeffs] at h ⊢
  exact h

end Verif
