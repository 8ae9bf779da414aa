import Verif.Lemmas.RoundedFilter
import Verif.Lemmas.Delay
import Verif.Props.Filter
import Verif.Props.Float
import Verif.Props.RoundedLevels

/-!
# The channel filter in floating-point arithmetic (C90)

`fl p` rounds to `p` significant bits; `u = 2^-p`; `fl 53` is double precision.
-/

open Finset

namespace Verif
open Spec

/-- `conv` is `np.convolve` in an arithmetic that rounds by `r`, with an arbitrary order of summation. -/
def IsConvolve (r : ℝ → ℝ) (conv : List ℝ → List ℝ → List ℝ) : Prop :=
  ∀ b x : List ℝ, 0 < b.length → 0 < x.length → (conv b x).length = b.length + x.length - 1 ∧
    ∀ n < b.length + x.length - 1, ∃ l, RoundedDot r l ((conv b x).getD n 0) ∧
      l.Perm (((List.range b.length).filter (fun i => i ≤ n ∧ n - i < x.length)).map (fun i => (b.getD i 0, x.getD (n - i) 0)))

theorem list_sum_filter_range (n : ℕ) (q : ℕ → Prop) [DecidablePred q] (f : ℕ → ℝ) :
    (((List.range n).filter (fun i => q i)).map f).sum = ∑ i ∈ range n, if q i then f i else 0 := by
  induction n with
  | zero => simp
  | succ n ih =>
    rw [List.range_succ, List.filter_append, List.map_append, List.sum_append, ih, sum_range_succ]
    by_cases h : q n <;> simp [h]

theorem roundedDot_pow {r : ℝ → ℝ} {u : ℝ} (hu : 0 ≤ u) (hr : ∀ x, |r x - x| ≤ u * |x|) {l : List (ℝ × ℝ)} {s : ℝ}
    (h : RoundedDot r l s) (k : ℕ) (hk : l.length ≤ k) : |s - pairSum l| ≤ ((1 + u) ^ k - 1) * pairAbs l := by
  refine (roundedDot_error hu hr h).trans (mul_le_mul_of_nonneg_right ?_ (pairAbs_nonneg l))
  exact sub_le_sub_right (pow_le_pow_right₀ (by linarith) hk) 1

theorem getD_map_div (r : ℝ → ℝ) (hr0 : r 0 = 0) (l : List ℝ) (c : ℝ) (i : ℕ) :
    (l.map (fun v => r (v / c))).getD i 0 = r (l.getD i 0 / c) := by
  rcases Nat.lt_or_ge i l.length with h | h
  · rw [getD_map_lt _ 0 0 _ h]
  · rw [getD_of_le 0 l h, getD_of_le 0 _ (by simpa using h), zero_div, hr0]

/-- The memory used by the channel. -/
noncomputable def channelMemory (b : List ℝ) (a : Denom ℝ) (zi : Option (List ℝ)) : List ℝ := zi.getD (channelRest b a)

theorem channelMemory_length (b : List ℝ) (a : Denom ℝ) (zi : Option (List ℝ))
    (hz : ∀ z, zi = some z → z.length = max b.length a.coeffs.length - 1) :
    (channelMemory b a zi).length = max b.length a.coeffs.length - 1 := by
  unfold channelMemory
  cases zi with
  | some z => exact hz z rfl
  | none =>
    cases a with
    | vec a => simp [channelRest, Denom.coeffs, Nat.max_comm]
    | num a => simp [channelRest, Denom.coeffs, Nat.max_comm]

/-- **C90.** The output of `awgn_channel` in `p`-bit arithmetic satisfies the difference equation of the filter up to
rounding: at each time the residual is at most `(1 + u)^(2 M + 1) - 1` times the sum of the absolute values of
the terms, `M = max(len(b), len(a))`. This holds for every filter, stable or not, from rest or from any
memory of `p`-bit numbers. -/
theorem C90_residual (p : ℕ) (conv : List ℝ → List ℝ → List ℝ) (hconv : IsConvolve (fl p) conv) (b : List ℝ) (a : Denom ℝ)
    (x : List ℝ) (hb : 0 < b.length) (ha : 0 < a.coeffs.length) (h0 : a.coeffs.getD 0 0 ≠ 0) (hx : 0 < x.length)
    (zi : Option (List ℝ)) (hz : ∀ z, zi = some z → z.length = max b.length a.coeffs.length - 1 ∧ ∀ v ∈ z, fl p v = v) :
    ∃ y z', awgnChannelR (fl p) conv x b a zi = .ok (y, z') ∧ y.length = x.length ∧
      ∀ n : ℕ, n < x.length →
        |y.getD n 0 - (∑ i ∈ range b.length, b.getD i 0 / a.coeffs.getD 0 0 * withPast [] x (n - i)
            - ∑ j ∈ Ico 1 a.coeffs.length, a.coeffs.getD j 0 / a.coeffs.getD 0 0 * withPast [] y (n - j)
            + (channelMemory b a zi).getD n 0)|
          ≤ ((1 + 2 ^ (-(p : ℤ))) ^ (2 * max b.length a.coeffs.length + 1) - 1)
            * (∑ i ∈ range b.length, |b.getD i 0 / a.coeffs.getD 0 0| * |withPast [] x (n - i)|
              + ∑ j ∈ Ico 1 a.coeffs.length, |a.coeffs.getD j 0 / a.coeffs.getD 0 0| * |withPast [] y (n - j)|
              + |(channelMemory b a zi).getD n 0|) := by
  have hu0 := unit_nonneg p
  obtain ⟨u, hud⟩ : ∃ u : ℝ, u = 2 ^ (-(p : ℤ)) := ⟨_, rfl⟩
  have herr := fl_error p
  have hr0 := fl_zero p
  have hodd := fl_neg p
  rw [← hud] at hu0 ⊢
  simp only [← hud] at herr
  obtain ⟨r, hrd⟩ : ∃ r, r = fl p := ⟨_, rfl⟩
  rw [← hrd] at hconv herr hr0 hodd hz ⊢
  obtain ⟨A, hA⟩ : ∃ A, A = a.coeffs := ⟨_, rfl⟩
  obtain ⟨Z, hZ⟩ : ∃ Z, Z = channelMemory b a zi := ⟨_, rfl⟩
  have hZl : Z.length = max b.length A.length - 1 := by
    rw [hZ, hA]; exact channelMemory_length b a zi fun z h => (hz z h).1
  have hZr : ∀ i, r (Z.getD i 0 * 1) = Z.getD i 0 := by
    intro i
    rw [mul_one]
    rcases Nat.lt_or_ge i Z.length with q | q
    · have hmem := mem_of_getD 0 Z q
      generalize Z.getD i 0 = v at hmem ⊢
      rw [hZ] at hmem
      unfold channelMemory at hmem
      cases zi with
      | some z => exact (hz z rfl).2 _ hmem
      | none =>
        have : v = 0 := by
          cases a with
          | vec a => simp only [channelRest, Option.getD_none, List.mem_replicate] at hmem; exact hmem.2
          | num a => simp only [channelRest, Option.getD_none, List.mem_replicate] at hmem; exact hmem.2
        rw [this, hr0]
    · rw [getD_of_le 0 _ q, hr0]
  rw [← hZ, ← hA]
  rw [← hA] at h0 ha
  obtain ⟨c, hc⟩ : ∃ c, c = A.getD 0 0 := ⟨_, rfl⟩
  rw [← hc] at h0 ⊢
  have hpow1 : ∀ k : ℕ, (0 : ℝ) ≤ (1 + u) ^ k - 1 := fun k => by
    have : (1 : ℝ) ≤ (1 + u) ^ k := one_le_pow₀ (by linarith)
    linarith
  -- the two code paths give the same bound for the normalised coefficients
  have key : ∃ y z', awgnChannelR r conv x b a zi = .ok (y, z') ∧ y.length = x.length ∧
      ∀ n : ℕ, n < x.length →
        |y.getD n 0 - (∑ i ∈ range b.length, r (b.getD i 0 / c) * withPast [] x (n - i)
            - ∑ j ∈ Ico 1 A.length, r (A.getD j 0 / c) * withPast [] y (n - j) + Z.getD n 0)|
          ≤ ((1 + u) ^ (2 * max b.length A.length) - 1)
            * (∑ i ∈ range b.length, |r (b.getD i 0 / c)| * |withPast [] x (n - i)|
              + ∑ j ∈ Ico 1 A.length, |r (A.getD j 0 / c)| * |withPast [] y (n - j)| + |Z.getD n 0|) := by
    unfold awgnChannelR lfilterR
    rw [← hA, show zi.getD (channelRest b a) = Z from hZ.symm, ← hc]
    rw [if_neg (by rintro (q | q | q) <;> first | omega | exact h0 q), if_neg (by omega), if_neg (by omega)]
    by_cases h1 : A.length = 1
    · simp only [h1, if_true]
      obtain ⟨b', hb'⟩ : ∃ b', b' = b.map (fun v => r (v / c)) := ⟨_, rfl⟩
      have hb'l : b'.length = b.length := by rw [hb', List.length_map]
      have hb'g : ∀ i, b'.getD i 0 = r (b.getD i 0 / c) := by intro i; rw [hb']; exact getD_map_div r hr0 b c i
      obtain ⟨g1, g2⟩ := hconv b' x (by omega) hx
      rw [← hb']
      refine ⟨_, _, rfl, ?_, fun n hn => ?_⟩
      · simp only [List.length_take, List.length_map, List.length_range, g1]
        omega
      · have hnc : n < b'.length + x.length - 1 := by omega
        obtain ⟨l, d1, d2⟩ := g2 n hnc
        have hyn : (((List.range (conv b' x).length).map (fun i => if i < Z.length then r ((conv b' x).getD i 0 + Z.getD i 0)
            else (conv b' x).getD i 0)).take x.length).getD n 0
            = if n < Z.length then r ((conv b' x).getD n 0 + Z.getD n 0) else (conv b' x).getD n 0 := by
          rw [List.getD_eq_getElem?_getD, List.getElem?_take_of_lt hn, ← List.getD_eq_getElem?_getD,
            map_range_getD _ _ _ _ (by omega)]
        rw [hyn]
        rw [Nat.max_eq_left (by omega)] at hZl ⊢
        have hP : ∀ l m : List (ℝ × ℝ), l.Perm m → pairSum l = pairSum m ∧ pairAbs l = pairAbs m ∧ l.length = m.length := by
          intro l m h
          exact ⟨(h.map _).sum_eq, (h.map _).sum_eq, h.length_eq⟩
        obtain ⟨p1, p2, p3⟩ := hP _ _ d2
        have hs : pairSum l = ∑ i ∈ range b.length, r (b.getD i 0 / c) * withPast [] x (n - i) := by
          rw [p1, pairSum, List.map_map, hb'l]
          rw [list_sum_filter_range b.length (fun i => i ≤ n ∧ n - i < x.length)]
          refine sum_congr rfl fun i hi => ?_
          simp only [Function.comp, hb'g]
          by_cases q : i ≤ n
          · rw [if_pos ⟨q, by omega⟩, show (n : ℤ) - i = ((n - i : ℕ) : ℤ) by omega, withPast_nat]
          · rw [if_neg (by omega), show (n : ℤ) - i = -((i - n - 1 : ℕ) : ℤ) - 1 by omega, withPast_neg]
            simp
        have hab : pairAbs l = ∑ i ∈ range b.length, |r (b.getD i 0 / c)| * |withPast [] x (n - i)| := by
          rw [p2, pairAbs, List.map_map, hb'l]
          rw [list_sum_filter_range b.length (fun i => i ≤ n ∧ n - i < x.length)]
          refine sum_congr rfl fun i hi => ?_
          simp only [Function.comp, hb'g]
          by_cases q : i ≤ n
          · rw [if_pos ⟨q, by omega⟩, show (n : ℤ) - i = ((n - i : ℕ) : ℤ) by omega, withPast_nat]
          · rw [if_neg (by omega), show (n : ℤ) - i = -((i - n - 1 : ℕ) : ℤ) - 1 by omega, withPast_neg]
            simp
        have hll : l.length ≤ b.length := by
          rw [p3, List.length_map]
          refine (List.length_filter_le _ _).trans ?_
          simp [hb'l]
        rw [Ico_self, sum_empty, sum_empty, sub_zero, add_zero, ← hs, ← hab]
        by_cases q : n < Z.length
        · rw [if_pos q]
          have hl0 : l ≠ [] := by
            intro e
            have : (0 : ℕ) ∈ (List.range b'.length).filter (fun i => i ≤ n ∧ n - i < x.length) := by
              rw [List.mem_filter]
              refine ⟨by simp; omega, by simp; omega⟩
            rw [e, List.nil_perm, List.map_eq_nil_iff] at d2
            rw [d2] at this
            simp at this
          have hd : RoundedDot r (l ++ [(Z.getD n 0, 1)]) (r ((conv b' x).getD n 0 + Z.getD n 0)) := by
            have hp := RoundedDot.prod (r := r) (Z.getD n 0) 1
            rw [hZr] at hp
            exact .add _ _ _ _ hl0 (by simp) d1 hp
          have := roundedDot_pow hu0 herr hd (2 * b.length) (by simp only [List.length_append, List.length_singleton]; omega)
          rw [pairSum_append, pairAbs_append, pairSum_single, pairAbs_single, mul_one, abs_one, mul_one] at this
          exact this
        · rw [if_neg q, getD_of_le 0 Z (by omega), abs_zero, add_zero, add_zero]
          exact roundedDot_pow hu0 herr d1 _ (by omega)
    · simp only [h1, if_false]
      refine ⟨_, _, rfl, lfRun_length _ _ _ _ _, fun n hn => ?_⟩
      obtain ⟨b', hb'⟩ : ∃ b', b' = b.map (fun v => r (v / c)) := ⟨_, rfl⟩
      obtain ⟨a', ha'⟩ : ∃ a', a' = A.map (fun v => r (v / c)) := ⟨_, rfl⟩
      have hb'l : b'.length = b.length := by rw [hb', List.length_map]
      have ha'l : a'.length = A.length := by rw [ha', List.length_map]
      have hb'g : ∀ i, b'.getD i 0 = r (b.getD i 0 / c) := by intro i; rw [hb']; exact getD_map_div r hr0 b c i
      have ha'g : ∀ i, a'.getD i 0 = r (A.getD i 0 / c) := by intro i; rw [ha']; exact getD_map_div r hr0 A c i
      rw [← hb', ← ha']
      obtain ⟨l, d1, d2, d3, d4⟩ := lfRun_dots r hodd b' a' (max b.length A.length - 1) (by omega) (by omega) x Z hZl
        (fun i => [(Z.getD i 0, 1)]) (by simp)
        (by
          intro i
          have hp := RoundedDot.prod (r := r) (Z.getD i 0) 1
          rw [hZr] at hp
          exact hp)
        (by intro i hi; simp only [List.length_singleton]; omega)
        (by intro i hi; rw [getD_of_le 0 Z (by omega)]) n hn
      have h := roundedDot_pow hu0 herr d1 (2 * max b.length A.length) (by omega)
      rw [d3, d4, ← sum_taps, ← sum_fb, ← sum_taps_abs, ← sum_fb_abs, hb'l, ha'l, pairSum_single, pairAbs_single, mul_one,
        abs_one, mul_one] at h
      simp only [hb'g, ha'g] at h
      exact h
  obtain ⟨y, z', k1, k2, k3⟩ := key
  refine ⟨y, z', k1, k2, fun n hn => ?_⟩
  obtain ⟨q1, q2⟩ := sum_perturb (range b.length) (fun i => b.getD i 0 / c) (fun i => r (b.getD i 0 / c))
    (fun i => withPast [] x ((n : ℤ) - i)) u (fun i _ => herr _)
  obtain ⟨q3, q4⟩ := sum_perturb (Ico 1 A.length) (fun i => A.getD i 0 / c) (fun i => r (A.getD i 0 / c))
    (fun i => withPast [] y ((n : ℤ) - i)) u (fun i _ => herr _)
  have := residual_combine u _ _ _ _ _ _ _ _ _ _ _ _ hu0 (hpow1 _) (k3 n hn) q1 q3 q2 q4 (abs_nonneg _)
  refine this.trans (le_of_eq ?_)
  congr 1
  rw [pow_succ]
  ring

/-- the exact output, normalised -/
theorem channel_exact (b : List ℝ) (a : Denom ℝ) (x : List ℝ) (hb : 0 < b.length) (ha : 0 < a.coeffs.length)
    (h0 : a.coeffs.getD 0 0 ≠ 0) (hx : 0 < x.length) (zi : Option (List ℝ))
    (hz : ∀ z, zi = some z → z.length = max b.length a.coeffs.length - 1) :
    ∃ y z', awgnChannel x b a zi = .ok (y, z') ∧ y.length = x.length ∧ ∀ n : ℕ, n < x.length →
      y.getD n 0 = ∑ i ∈ range b.length, b.getD i 0 / a.coeffs.getD 0 0 * withPast [] x (n - i)
        - ∑ j ∈ Ico 1 a.coeffs.length, a.coeffs.getD j 0 / a.coeffs.getD 0 0 * withPast [] y (n - j)
        + (channelMemory b a zi).getD n 0 := by
  have hr : channelRest b a = restMemory b a.coeffs := by
    cases a with
    | vec a => simp only [Denom.coeffs, Nat.max_comm, restMemory, channelRest]
    | num a => simp [Denom.coeffs, Nat.max_comm, restMemory, channelRest]
  have hl := channelMemory_length b a zi hz
  refine ⟨_, _, awgnChannel_eq x b a zi hb ha h0 hz (Or.inr hx), lfRun_length _ _ _ _ _, fun n hn => ?_⟩
  rw [← hr]
  have hm : zi.getD (channelRest b a) = channelMemory b a zi := rfl
  rw [hm]
  obtain ⟨c, hc⟩ : ∃ c, c = a.coeffs.getD 0 0 := ⟨_, rfl⟩
  have h := lfRun_diff b a.coeffs (channelMemory b a zi) x h0 (by omega) (by omega) n hn
  rw [← hc] at h h0 ⊢
  have h' := congrArg (fun t => t / c) h
  simp only [mul_div_cancel_left₀ _ h0, add_div, sub_div] at h'
  rw [h']
  congr 2
  · rw [div_eq_mul_inv, sum_mul]
    exact sum_congr rfl fun i _ => by ring
  · rw [div_eq_mul_inv, sum_mul]
    exact sum_congr rfl fun i _ => by ring

/-- **C90**, filters without feedback: the output in `p`-bit arithmetic differs from the exact output at each time by at
most `(1 + u)^(2 M + 1) - 1` times the sum of the absolute values of the terms. -/
theorem C90_fir (p : ℕ) (conv : List ℝ → List ℝ → List ℝ) (hconv : IsConvolve (fl p) conv) (b : List ℝ) (a : Denom ℝ)
    (x : List ℝ) (hb : 0 < b.length) (ha : a.coeffs.length = 1) (h0 : a.coeffs.getD 0 0 ≠ 0) (hx : 0 < x.length)
    (zi : Option (List ℝ)) (hz : ∀ z, zi = some z → z.length = b.length - 1 ∧ ∀ v ∈ z, fl p v = v) :
    ∃ y z' yE zE, awgnChannelR (fl p) conv x b a zi = .ok (y, z') ∧ awgnChannel x b a zi = .ok (yE, zE) ∧
      y.length = x.length ∧ yE.length = x.length ∧ ∀ n : ℕ, n < x.length →
        |y.getD n 0 - yE.getD n 0| ≤ ((1 + 2 ^ (-(p : ℤ))) ^ (2 * b.length + 1) - 1)
            * (∑ i ∈ range b.length, |b.getD i 0 / a.coeffs.getD 0 0| * |withPast [] x (n - i)|
              + |(zi.getD []).getD n 0|) := by
  have hM : max b.length a.coeffs.length = b.length := by omega
  obtain ⟨y, z', k1, k2, k3⟩ := C90_residual p conv hconv b a x hb (by omega) h0 hx zi (by rw [hM]; exact hz)
  obtain ⟨yE, zE, e1, e2, e3⟩ := channel_exact b a x hb (by omega) h0 hx zi (by rw [hM]; exact fun z h => (hz z h).1)
  refine ⟨y, z', yE, zE, k1, e1, k2, e2, fun n hn => ?_⟩
  have h1 := k3 n hn
  have h2 := e3 n hn
  rw [ha, Ico_self, sum_empty, sub_zero] at h1 h2
  rw [← h2, sum_empty, add_zero, show max b.length 1 = b.length by omega] at h1
  have hmem : (channelMemory b a zi).getD n 0 = (zi.getD []).getD n 0 := by
    unfold channelMemory
    cases zi with
    | some z => rfl
    | none =>
      cases a with
      | vec a => simp only [Option.getD_none, channelRest, replicate_getD]; simp
      | num a => simp only [Option.getD_none, channelRest, replicate_getD]; simp
  rw [hmem] at h1
  exact h1

/-- **C90**, double precision without feedback: inputs bounded by `X` give an absolute error of at most
`(2 len(b) + 1) 2^-52 X Σ|b|`. -/
theorem C90_fir_double (conv : List ℝ → List ℝ → List ℝ) (hconv : IsConvolve (fl 53) conv) (b x : List ℝ)
    (hb : 0 < b.length) (hx : 0 < x.length) (X : ℝ) (hX : ∀ v ∈ x, |v| ≤ X) (hsize : 2 * b.length + 1 ≤ 2 ^ 52) :
    ∃ y z' yE zE, awgnChannelR (fl 53) conv x b (.num 1) none = .ok (y, z') ∧ awgnChannel x b (.num 1) none = .ok (yE, zE) ∧
      y.length = x.length ∧ yE.length = x.length ∧ ∀ n : ℕ, n < x.length →
        |y.getD n 0 - yE.getD n 0| ≤ (2 * b.length + 1) / 2 ^ 52 * (X * (b.map (fun v => |v|)).sum) := by
  obtain ⟨y, z', yE, zE, k1, k2, k3, k4, k5⟩ := C90_fir 53 conv hconv b (.num 1) x hb rfl (by simp [Denom.coeffs]) hx none
    (by simp)
  refine ⟨y, z', yE, zE, k1, k2, k3, k4, fun n hn => (k5 n hn).trans ?_⟩
  have hu : (2 : ℝ) ^ (-((53 : ℕ) : ℤ)) = 1 / 2 ^ 53 := by rw [zpow_neg, zpow_natCast, one_div]
  have hX0 : 0 ≤ X := (abs_nonneg _).trans (hX _ (mem_of_getD 0 x hx))
  have hS : ∑ i ∈ range b.length, |b.getD i 0 / (Denom.num (1 : ℝ)).coeffs.getD 0 0| * |withPast [] x (n - i)|
      ≤ X * (b.map (fun v => |v|)).sum := by
    have hsum : (b.map (fun v => |v|)).sum = ∑ i ∈ range b.length, |b.getD i 0| := by
      rw [← list_sum_range_map]
      congr 1
      refine ext_getD 0 (by simp) fun i hi => ?_
      rw [List.length_map] at hi
      rw [getD_map_lt _ 0 0 _ hi, map_range_getD _ _ _ _ hi]
    rw [hsum, mul_sum]
    refine sum_le_sum fun i _ => ?_
    simp only [Denom.coeffs, List.getD_cons_zero, div_one]
    rw [mul_comm]
    refine mul_le_mul_of_nonneg_right ?_ (abs_nonneg _)
    unfold withPast
    split
    · rcases Nat.lt_or_ge ((n : ℤ) - i).toNat x.length with q | q
      · exact hX _ (mem_of_getD 0 x q)
      · rw [getD_of_le 0 _ q, abs_zero]; exact hX0
    · simpa using hX0
  have hs' : ((2 * b.length + 1 : ℕ) : ℝ) ≤ 2 ^ 52 := by exact_mod_cast hsize
  have hp := one_add_pow_le (1 / 2 ^ 53) (by positivity) (2 * b.length + 1) (by linarith)
  rw [hu]
  simp only [Option.getD_none, List.getD_nil, abs_zero, add_zero]
  have hnn : 0 ≤ X * (b.map (fun v => |v|)).sum :=
    mul_nonneg hX0 (List.sum_nonneg (by intro x hx; rw [List.mem_map] at hx; obtain ⟨q, -, rfl⟩ := hx; positivity))
  have hk : (1 + 1 / 2 ^ 53 : ℝ) ^ (2 * b.length + 1) - 1 ≤ (2 * b.length + 1) / 2 ^ 52 := by
    push_cast at hp
    linarith
  have hk0 : (0 : ℝ) ≤ (1 + 1 / 2 ^ 53 : ℝ) ^ (2 * b.length + 1) - 1 := by
    have : (1 : ℝ) ≤ (1 + 1 / 2 ^ 53) ^ (2 * b.length + 1) := one_le_pow₀ (by norm_num)
    linarith
  exact mul_le_mul hk hS (sum_nonneg fun i _ => by positivity) (hk0.trans hk)

/-! ### filters with feedback -/

/-- a driven recursion is the convolution of the drive with the impulse response -/
theorem recursion_conv (N T : ℕ) (α : ℕ → ℝ) (D G : ℤ → ℝ) (e : ℕ → ℝ) (hD : ∀ t < 0, D t = 0) (hG : ∀ t < 0, G t = 0)
    (hd : ∀ n : ℕ, n < T → D n = e n - ∑ j ∈ Ico 1 N, α j * D (n - j))
    (hg : ∀ n : ℕ, n < T → G n = (if n = 0 then 1 else 0) - ∑ j ∈ Ico 1 N, α j * G (n - j)) (n : ℕ) (hn : n < T) :
    D n = ∑ m ∈ range (n + 1), e m * G ((n : ℤ) - m) := by
  induction n using Nat.strong_induction_on with
  | _ n ih =>
    have hshift : ∀ j ∈ Ico 1 N, D ((n : ℤ) - j) = ∑ m ∈ range (n + 1), e m * G ((n : ℤ) - m - j) := by
      intro j hj
      rw [mem_Ico] at hj
      rcases Nat.lt_or_ge n j with q | q
      · rw [hD _ (by omega), sum_eq_zero]
        intro m hm
        rw [hG _ (by omega), mul_zero]
      · have h1 := ih (n - j) (by omega) (by omega)
        rw [show ((n : ℤ) - j) = ((n - j : ℕ) : ℤ) by omega, h1, show n + 1 = (n - j + 1) + j by omega,
          sum_range_add (fun m => e m * G ((n : ℤ) - m - j)) (n - j + 1) j]
        rw [sum_eq_zero (s := range j), add_zero]
        · exact sum_congr rfl fun m _ => by congr 2; omega
        · intro m hm
          rw [hG _ (by omega), mul_zero]
    have hterm : ∀ m ∈ range (n + 1), e m * G ((n : ℤ) - m)
        = (if m = n then e n else 0) - e m * ∑ j ∈ Ico 1 N, α j * G ((n : ℤ) - m - j) := by
      intro m hm
      rw [mem_range] at hm
      have h1 := hg (n - m) (by omega)
      rw [show (((n - m : ℕ)) : ℤ) = (n : ℤ) - m by omega] at h1
      rw [h1, mul_sub]
      congr 1
      by_cases q : m = n
      · rw [if_pos (by omega), if_pos q, q, mul_one]
      · rw [if_neg (by omega), if_neg q, mul_zero]
    rw [hd n hn, sum_congr rfl hterm, sum_sub_distrib]
    congr 1
    · rw [sum_ite_eq' (range (n + 1)) n, if_pos (by simp)]
    · rw [sum_congr rfl fun j hj => by rw [hshift j hj, mul_sum]]
      rw [sum_comm]
      refine sum_congr rfl fun m _ => ?_
      rw [mul_sum]
      exact sum_congr rfl fun j _ => by ring

/-- **C90**, filters with feedback: let `G` bound the absolute sum of the impulse response of `1/A` (over the length of
the signal), `γ = (1 + u)^(2 M + 1) - 1`, `W` bound the absolute sum of the forward terms plus memory, `Y` the
exact output, and `S = Σ_{j≥1} |a_j/a_0|`. If `G γ S < 1`, the output in `p`-bit arithmetic stays within
`G γ (W + S Y) / (1 - G γ S)` of the exact output at every time. -/
theorem C90_stable (p : ℕ) (conv : List ℝ → List ℝ → List ℝ) (hconv : IsConvolve (fl p) conv) (b : List ℝ) (a : Denom ℝ)
    (x : List ℝ) (hb : 0 < b.length) (ha : 0 < a.coeffs.length) (h0 : a.coeffs.getD 0 0 ≠ 0) (hx : 0 < x.length)
    (zi : Option (List ℝ)) (hz : ∀ z, zi = some z → z.length = max b.length a.coeffs.length - 1 ∧ ∀ v ∈ z, fl p v = v)
    (g : List ℝ) (zg : List ℝ)
    (hg : awgnChannel (1 :: List.replicate (x.length - 1) 0) [a.coeffs.getD 0 0] a none = .ok (g, zg))
    (yE zE : List ℝ) (hyE : awgnChannel x b a zi = .ok (yE, zE)) (G W Y S γ : ℝ)
    (hG : ∀ n < x.length, ∑ k ∈ range (n + 1), |g.getD k 0| ≤ G)
    (hW : ∀ n : ℕ, n < x.length → ∑ i ∈ range b.length, |b.getD i 0 / a.coeffs.getD 0 0| * |withPast [] x (n - i)|
      + |(channelMemory b a zi).getD n 0| ≤ W)
    (hY : ∀ n < x.length, |yE.getD n 0| ≤ Y)
    (hS : S = ∑ j ∈ Ico 1 a.coeffs.length, |a.coeffs.getD j 0 / a.coeffs.getD 0 0|)
    (hγ : γ = (1 + 2 ^ (-(p : ℤ))) ^ (2 * max b.length a.coeffs.length + 1) - 1) (hsmall : G * γ * S < 1) :
    ∃ y z', awgnChannelR (fl p) conv x b a zi = .ok (y, z') ∧ y.length = x.length ∧
      ∀ n < x.length, |y.getD n 0 - yE.getD n 0| ≤ G * γ * (W + S * Y) / (1 - G * γ * S) := by
  obtain ⟨y, z', k1, k2, k3⟩ := C90_residual p conv hconv b a x hb ha h0 hx zi hz
  refine ⟨y, z', k1, k2, ?_⟩
  have hu0 := unit_nonneg p
  have hγ0 : 0 ≤ γ := by
    have : (1 : ℝ) ≤ (1 + 2 ^ (-(p : ℤ))) ^ (2 * max b.length a.coeffs.length + 1) := one_le_pow₀ (by linarith)
    rw [hγ]; linarith
  have hS0 : 0 ≤ S := by rw [hS]; exact sum_nonneg fun _ _ => abs_nonneg _
  have hG0 : 0 ≤ G := (sum_nonneg fun _ _ => abs_nonneg _).trans (hG 0 hx)
  have hY0 : 0 ≤ Y := (abs_nonneg _).trans (hY 0 hx)
  have hW0 : 0 ≤ W := by
    refine le_trans ?_ (hW 0 hx)
    exact add_nonneg (sum_nonneg fun _ _ => by positivity) (abs_nonneg _)
  -- exact equations
  obtain ⟨yE', zE', e1, e2, e3⟩ := channel_exact b a x hb ha h0 hx zi fun z h => (hz z h).1
  rw [hyE] at e1
  obtain ⟨rfl, rfl⟩ : yE = yE' ∧ zE = zE' := by
    have := Except.ok.inj e1
    exact ⟨congrArg Prod.fst this, congrArg Prod.snd this⟩
  obtain ⟨g', zg', f1, f2, f3⟩ := channel_exact [a.coeffs.getD 0 0] a (1 :: List.replicate (x.length - 1) 0) (by simp) ha h0
    (by simp) none (by simp)
  rw [hg] at f1
  obtain ⟨rfl, rfl⟩ : g = g' ∧ zg = zg' := by
    have := Except.ok.inj f1
    exact ⟨congrArg Prod.fst this, congrArg Prod.snd this⟩
  have hT : (1 :: List.replicate (x.length - 1) (0 : ℝ)).length = x.length := by simp; omega
  rw [hT] at f2 f3
  obtain ⟨A, hA⟩ : ∃ A, A = a.coeffs := ⟨_, rfl⟩
  obtain ⟨c, hc⟩ : ∃ c, c = a.coeffs.getD 0 0 := ⟨_, rfl⟩
  obtain ⟨Z, hZ⟩ : ∃ Z, Z = channelMemory b a zi := ⟨_, rfl⟩
  rw [← hγ] at k3
  rw [← hc] at k3 e3 f3 hW hS h0
  rw [← hA] at k3 e3 f3 hS
  rw [← hZ] at k3 e3 hW
  -- impulse response
  have hgrec : ∀ n : ℕ, n < x.length → withPast [] g n = (if n = 0 then 1 else 0)
      - ∑ j ∈ Ico 1 A.length, A.getD j 0 / c * withPast [] g ((n : ℤ) - j) := by
    intro n hn
    have h1 := f3 n hn
    rw [withPast_nat, h1]
    have hm : (channelMemory [c] a none).getD n 0 = 0 := by
      unfold channelMemory
      cases a with
      | vec a => simp only [Option.getD_none, channelRest, replicate_getD]
      | num a => simp only [Option.getD_none, channelRest, replicate_getD]
    rw [hm, add_zero]
    congr 1
    rw [List.length_singleton, sum_range_one, List.getD_cons_zero, div_self h0, one_mul, Nat.cast_zero, sub_zero, withPast_nat]
    cases n with
    | zero => simp
    | succ n => rw [List.getD_cons_succ, replicate_getD, if_neg (by omega)]
  -- residuals
  obtain ⟨R, hR⟩ : ∃ R : ℕ → ℝ, ∀ n, R n = y.getD n 0 - (∑ i ∈ range b.length, b.getD i 0 / c * withPast [] x ((n : ℤ) - i)
      - ∑ j ∈ Ico 1 A.length, A.getD j 0 / c * withPast [] y ((n : ℤ) - j) + Z.getD n 0) := ⟨_, fun _ => rfl⟩
  obtain ⟨D, hDd⟩ : ∃ D : ℤ → ℝ, ∀ t, D t = withPast [] y t - withPast [] yE t := ⟨_, fun _ => rfl⟩
  have hDrec : ∀ n : ℕ, n < x.length → D n = R n - ∑ j ∈ Ico 1 A.length, A.getD j 0 / c * D ((n : ℤ) - j) := by
    intro n hn
    rw [hDd, withPast_nat, withPast_nat, hR, e3 n hn]
    simp only [hDd, mul_sub, sum_sub_distrib]
    ring
  have hneg : ∀ (l : List ℝ) (t : ℤ), t < 0 → withPast [] l t = 0 := by
    intro l t ht
    unfold withPast
    rw [if_neg (by omega)]
    simp
  have hconvD := recursion_conv A.length x.length (fun j => A.getD j 0 / c) D (withPast [] g) R
    (by intro t ht; rw [hDd, hneg _ _ ht, hneg _ _ ht, sub_zero]) (fun t ht => hneg g t ht) hDrec hgrec
  -- the bound
  obtain ⟨E, hE⟩ : ∃ E, E = G * γ * (W + S * Y) / (1 - G * γ * S) := ⟨_, rfl⟩
  have hpos : 0 < 1 - G * γ * S := by linarith
  have hE0 : 0 ≤ E := by
    rw [hE]
    exact div_nonneg (mul_nonneg (mul_nonneg hG0 hγ0) (add_nonneg hW0 (mul_nonneg hS0 hY0))) hpos.le
  have hEfix : G * γ * (W + S * (Y + E)) = E := by
    have : E * (1 - G * γ * S) = G * γ * (W + S * Y) := by rw [hE, div_mul_cancel₀ _ hpos.ne']
    linarith
  rw [← hE]
  have main : ∀ n : ℕ, n < x.length → |D n| ≤ E := by
    intro n
    induction n using Nat.strong_induction_on with
    | _ n ih =>
      intro hn
      have hy : ∀ t : ℤ, t < n → |withPast [] y t| ≤ Y + E := by
        intro t ht
        rcases lt_or_ge t 0 with q | q
        · rw [hneg _ _ q, abs_zero]; linarith
        · obtain ⟨m, rfl⟩ := Int.eq_ofNat_of_zero_le q
          have hm : m < n := by exact_mod_cast ht
          have h1 := ih m hm (by omega)
          rw [hDd, withPast_nat, withPast_nat] at h1
          rw [withPast_nat]
          have h2 := hY m (by omega)
          have h3 := abs_add_le (y.getD m 0 - yE.getD m 0) (yE.getD m 0)
          rw [sub_add_cancel] at h3
          linarith
      have hRb : ∀ m : ℕ, m ≤ n → |R m| ≤ γ * (W + S * (Y + E)) := by
        intro m hm
        rw [hR]
        refine (k3 m (by omega)).trans (mul_le_mul_of_nonneg_left ?_ hγ0)
        have h1 := hW m (by omega)
        have h2 : ∑ j ∈ Ico 1 A.length, |A.getD j 0 / c| * |withPast [] y ((m : ℤ) - j)| ≤ S * (Y + E) := by
          rw [hS, sum_mul]
          refine sum_le_sum fun j hj => ?_
          rw [mem_Ico] at hj
          exact mul_le_mul_of_nonneg_left (hy _ (by omega)) (abs_nonneg _)
        linarith
      rw [hconvD n hn]
      have hg1 : ∑ m ∈ range (n + 1), |withPast [] g ((n : ℤ) - m)| ≤ G := by
        have h1 := hG n hn
        rw [← sum_range_reflect] at h1
        refine le_trans (le_of_eq ?_) h1
        refine sum_congr rfl fun m hm => ?_
        rw [mem_range] at hm
        rw [show (n : ℤ) - m = ((n + 1 - 1 - m : ℕ) : ℤ) by omega, withPast_nat]
      calc |∑ m ∈ range (n + 1), R m * withPast [] g ((n : ℤ) - m)|
          ≤ ∑ m ∈ range (n + 1), |R m * withPast [] g ((n : ℤ) - m)| := abs_sum_le_sum_abs _ _
        _ ≤ ∑ m ∈ range (n + 1), γ * (W + S * (Y + E)) * |withPast [] g ((n : ℤ) - m)| := by
            refine sum_le_sum fun m hm => ?_
            rw [mem_range] at hm
            rw [abs_mul]
            exact mul_le_mul_of_nonneg_right (hRb m (by omega)) (abs_nonneg _)
        _ = γ * (W + S * (Y + E)) * ∑ m ∈ range (n + 1), |withPast [] g ((n : ℤ) - m)| := by rw [mul_sum]
        _ ≤ γ * (W + S * (Y + E)) * G := by
            refine mul_le_mul_of_nonneg_left hg1 (mul_nonneg hγ0 (add_nonneg hW0 (mul_nonneg hS0 (by linarith))))
        _ = E := by linarith [hEfix]
  intro n hn
  have := main n hn
  rwa [hDd, withPast_nat, withPast_nat] at this

/-- a convolution of the assumed kind: fused multiply-adds from the last term to the first -/
theorem isConvolve_exists (r : ℝ → ℝ) : ∃ conv, IsConvolve r conv := by
  refine ⟨fun b x => (List.range (b.length + x.length - 1)).map fun n =>
    (((List.range b.length).filter (fun i => i ≤ n ∧ n - i < x.length)).map (fun i => (b.getD i 0, x.getD (n - i) 0))).foldr
      (fun q s => r (q.1 * q.2 + s)) 0, fun b x _ _ => ⟨by simp, fun n hn => ⟨_, ?_, List.Perm.refl _⟩⟩⟩
  rw [map_range_getD _ _ _ _ hn]
  exact foldr_roundedDot _ _

example : ∃ conv, IsConvolve (fl 53) conv := isConvolve_exists _

/-- a three-tap channel in double precision -/
example (conv : List ℝ → List ℝ → List ℝ) (hconv : IsConvolve (fl 53) conv) :
    ∃ y z' yE zE, awgnChannelR (fl 53) conv [1, -1, 1, 1] [1 / 10, 1, -2 / 5] (.num 1) none = .ok (y, z') ∧
      awgnChannel [1, -1, 1, 1] [1 / 10, 1, -2 / 5] (.num (1 : ℝ)) none = .ok (yE, zE) ∧
      y.length = 4 ∧ yE.length = 4 ∧ ∀ n : ℕ, n < 4 → |y.getD n 0 - yE.getD n 0| ≤ 7 / 2 ^ 52 * (3 / 2) := by
  obtain ⟨y, z', yE, zE, k1, k2, k3, k4, k5⟩ := C90_fir_double conv hconv [1 / 10, 1, -2 / 5] [1, -1, 1, 1] (by simp) (by simp)
    1 (by simp) (by simp)
  refine ⟨y, z', yE, zE, k1, k2, k3, k4, fun n hn => (k5 n hn).trans (le_of_eq ?_)⟩
  simp only [List.length_cons, List.length_nil, List.map_cons, List.map_nil, List.sum_cons, List.sum_nil]
  norm_num [abs_div, abs_neg]

/-- a one-pole filter in double precision -/
example (conv : List ℝ → List ℝ → List ℝ) (hconv : IsConvolve (fl 53) conv) :
    ∃ y z', awgnChannelR (fl 53) conv [1, 1, 1] [1] (.vec [1, -1 / 2]) none = .ok (y, z') ∧ y.length = 3 ∧
      ∀ n < 3, |y.getD n 0 - ([1, 3 / 2, 7 / 4] : List ℝ).getD n 0| ≤ 1 / 2 ^ 46 := by
  have hy : awgnChannel [1, 1, 1] [1] (.vec [(1 : ℝ), -1 / 2]) none = .ok ([1, 3 / 2, 7 / 4], [7 / 8]) := by
    norm_num [awgnChannel, channelRest, Denom.coeffs, lfilter, lfRun, lfStep, List.replicate, List.range_succ]
  have hg : awgnChannel [1, 0, 0] [1] (.vec [(1 : ℝ), -1 / 2]) none = .ok ([1, 1 / 2, 1 / 4], [1 / 8]) := by
    norm_num [awgnChannel, channelRest, Denom.coeffs, lfilter, lfRun, lfStep, List.replicate, List.range_succ]
  obtain ⟨y, z', k1, k2, k3⟩ := C90_stable 53 conv hconv [1] (.vec [1, -1 / 2]) [1, 1, 1] (by simp) (by simp [Denom.coeffs])
    (by simp [Denom.coeffs]) (by simp) none (by simp) _ _ hg _ _ hy 2 1 2 (1 / 2) _
    (by
      intro n hn
      simp only [List.length_cons, List.length_nil] at hn
      interval_cases n <;> norm_num [sum_range_succ])
    (by
      intro n hn
      simp only [List.length_cons, List.length_nil] at hn
      have hm : (channelMemory [1] (.vec [(1 : ℝ), -1 / 2]) none).getD n 0 = 0 := by
        simp only [channelMemory, Option.getD_none, channelRest, replicate_getD]
      rw [hm]
      simp only [List.length_singleton, sum_range_one, Nat.cast_zero, sub_zero, withPast_nat]
      interval_cases n <;> norm_num [Denom.coeffs])
    (by
      intro n hn
      simp only [List.length_cons, List.length_nil] at hn
      interval_cases n <;> norm_num)
    (by norm_num [Denom.coeffs, sum_Ico_eq_sum_range])
    rfl (by norm_num [Denom.coeffs])
  refine ⟨y, z', k1, k2, fun n hn => (k3 n hn).trans ?_⟩
  norm_num [Denom.coeffs]

end Verif
