import Verif.Model.RoundedFilter
import Verif.Lemmas.RoundedLevels
import Verif.Lemmas.FilterClass

/-! Rounding errors of the filter recursion. -/

open Finset

namespace Verif
open Spec

/-! ### rounding is odd -/

theorem specRound_neg (x : ℝ) : Spec.roundHalfEven (-x) = -Spec.roundHalfEven x := by
  by_cases h : Int.fract x = 0
  · obtain ⟨k, hk⟩ : ∃ k : ℤ, x = k := ⟨⌊x⌋, by have := Int.floor_add_fract x; rw [h, add_zero] at this; exact this.symm⟩
    rw [hk, specRound_int, ← Int.cast_neg, specRound_int]
  · have h1 := Int.fract_neg h
    have h2 : ⌊-x⌋ = -⌊x⌋ - 1 := by
      have a1 := Int.floor_add_fract x
      have a2 := Int.floor_add_fract (-x)
      have : ((⌊-x⌋ : ℤ) : ℝ) = ((-⌊x⌋ - 1 : ℤ) : ℝ) := by push_cast; linarith
      exact_mod_cast this
    unfold Spec.roundHalfEven
    rw [h1, h2]
    have he : Even (-⌊x⌋ - 1) ↔ ¬ Even ⌊x⌋ := by
      rw [Int.even_sub_one, even_neg]
    rcases lt_trichotomy (Int.fract x) (1 / 2) with q | q | q
    · have c1 : ¬ (1 - Int.fract x < 1 / 2) := by linarith
      have c2 : 1 / 2 < 1 - Int.fract x := by linarith
      simp only [if_pos q, if_neg c1, if_pos c2]; ring
    · have c1 : ¬ ((1 : ℝ) - 1 / 2 < 1 / 2) := by norm_num
      have c2 : ¬ ((1 : ℝ) / 2 < 1 - 1 / 2) := by norm_num
      have c3 : ¬ ((1 : ℝ) / 2 < 1 / 2) := by norm_num
      rw [q]
      simp only [if_neg c1, if_neg c2, if_neg c3]
      by_cases hE : Even ⌊x⌋
      · rw [if_neg (by rw [he]; exact not_not.2 hE), if_pos hE]; ring
      · rw [if_pos (by rw [he]; exact hE), if_neg hE]; ring
    · have c1 : 1 - Int.fract x < 1 / 2 := by linarith
      have c2 : ¬ (Int.fract x < 1 / 2) := by linarith
      simp only [if_pos c1, if_neg c2, if_pos q]; ring

theorem fl_neg (p : ℕ) (x : ℝ) : fl p (-x) = -fl p x := by
  unfold fl
  have : ulp p (-x) = ulp p x := by unfold ulp; rw [abs_neg]
  rw [this, neg_div, specRound_neg]
  push_cast
  ring

theorem pairSum_append (l m : List (ℝ × ℝ)) : pairSum (l ++ m) = pairSum l + pairSum m := by
  simp [pairSum]

theorem pairAbs_append (l m : List (ℝ × ℝ)) : pairAbs (l ++ m) = pairAbs l + pairAbs m := by
  simp [pairAbs]

theorem pairSum_single (a b : ℝ) : pairSum [(a, b)] = a * b := by simp [pairSum]

theorem pairAbs_single (a b : ℝ) : pairAbs [(a, b)] = |a| * |b| := by simp [pairAbs]

theorem pairAbs_nil : pairAbs [] = 0 := by simp [pairAbs]

/-! ### the recursion -/

/-- Every output of the recursion is a rounded scalar product of coefficients with past inputs and outputs,
if the entries of the memory are. -/
theorem lfRun_dots (r : ℝ → ℝ) (hodd : ∀ x, r (-x) = -r x) (b a : List ℝ) (N : ℕ) (hb : b.length ≤ N + 1)
    (ha : a.length ≤ N + 1) (x z : List ℝ) (hN : z.length = N) (L : ℕ → List (ℝ × ℝ))
    (h1 : ∀ i, L i ≠ []) (h2 : ∀ i, RoundedDot r (L i) (z.getD i 0)) (h3 : ∀ i ≤ N, (L i).length + 2 * i ≤ 2 * N + 1)
    (h4 : ∀ i, N ≤ i → L i = [(0, 1)]) (n : ℕ) (hn : n < x.length) :
    ∃ l, RoundedDot r l ((lfRun r b a z x).1.getD n 0) ∧ l.length ≤ 2 * N + 2 ∧
      pairSum l = ∑ j ∈ Finset.range (n + 1), b.getD j 0 * x.getD (n - j) 0
        - ∑ j ∈ Finset.range n, a.getD (j + 1) 0 * (lfRun r b a z x).1.getD (n - 1 - j) 0 + pairSum (L n) ∧
      pairAbs l = ∑ j ∈ Finset.range (n + 1), |b.getD j 0| * |x.getD (n - j) 0|
        + ∑ j ∈ Finset.range n, |a.getD (j + 1) 0| * |(lfRun r b a z x).1.getD (n - 1 - j) 0| + pairAbs (L n) := by
  induction x generalizing z n L with
  | nil => simp at hn
  | cons x xs ih =>
    cases n with
    | zero =>
      refine ⟨L 0 ++ [(b.getD 0 0, x)], ?_, ?_, ?_, ?_⟩
      · exact .add _ _ _ _ (h1 0) (by simp) (h2 0) (.prod _ _)
      · have := h3 0 (by omega)
        simp only [List.length_append, List.length_singleton]
        omega
      · rw [pairSum_append, pairSum_single]
        simp [add_comm]
      · rw [pairAbs_append, pairAbs_single]
        simp [add_comm]
    | succ n =>
      obtain ⟨s, hs⟩ : ∃ s, s = lfStep r b a z x := ⟨_, rfl⟩
      have hl : s.2.length = N := by rw [hs, lfStep_state_length, hN]
      obtain ⟨L', hL'⟩ : ∃ L' : ℕ → List (ℝ × ℝ), ∀ i, L' i
          = if i < N then (L (i + 1) ++ [(x, b.getD (i + 1) 0)]) ++ [(-s.1, a.getD (i + 1) 0)] else [(0, 1)] := ⟨_, fun _ => rfl⟩
      have hL1 : ∀ i, i < N → L' i = (L (i + 1) ++ [(x, b.getD (i + 1) 0)]) ++ [(-s.1, a.getD (i + 1) 0)] := by
        intro i hi; rw [hL', if_pos hi]
      have hL2 : ∀ i, N ≤ i → L' i = [(0, 1)] := by
        intro i hi; rw [hL', if_neg (by omega)]
      have hr0 : r 0 = 0 := by
        have := hodd 0
        rw [neg_zero] at this
        linarith
      have e1 : (lfRun r b a z (x :: xs)).1 = s.1 :: (lfRun r b a s.2 xs).1 := by rw [hs]; rfl
      obtain ⟨l, g1, g2, g3, g4⟩ := ih s.2 hl L'
        (by
          intro i
          rcases Nat.lt_or_ge i N with q | q
          · rw [hL1 i q]; simp
          · rw [hL2 i q]; simp)
        (by
          intro i
          rcases Nat.lt_or_ge i N with q | q
          · rw [hL1 i q]
            have hz : s.2.getD i 0 = r (r (z.getD (i + 1) 0 + r (x * b.getD (i + 1) 0)) + r (-s.1 * a.getD (i + 1) 0)) := by
              rw [neg_mul, hodd, ← sub_eq_add_neg, hs]
              unfold lfStep
              rw [getD_map_lt _ 0 0 _ (by simp; omega), getD_of_lt 0 (List.range _) (by simp; omega)]
              simp
            rw [hz]
            exact .add _ _ _ _ (by simp) (by simp) (.add _ _ _ _ (h1 _) (by simp) (h2 _) (.prod _ _)) (.prod _ _)
          · rw [hL2 i q, getD_of_le 0 _ (by omega)]
            have := RoundedDot.prod (r := r) 0 1
            rwa [zero_mul, hr0] at this)
        (by
          intro i hi
          rcases Nat.lt_or_ge i N with q | q
          · rw [hL1 i q]
            have := h3 (i + 1) (by omega)
            simp only [List.length_append, List.length_singleton]
            omega
          · rw [hL2 i q]
            simp only [List.length_singleton]
            omega)
        (fun i hi => hL2 i hi) n (by simpa using hn)
      refine ⟨l, by rw [e1, List.getD_cons_succ]; exact g1, g2, ?_, ?_⟩
      · have hLs : pairSum (L' n) = x * b.getD (n + 1) 0 - s.1 * a.getD (n + 1) 0 + pairSum (L (n + 1)) := by
          rcases Nat.lt_or_ge n N with q | q
          · rw [hL1 n q, pairSum_append, pairSum_append, pairSum_single, pairSum_single]; ring
          · rw [hL2 n q, h4 (n + 1) (by omega), getD_of_le 0 b (by omega), getD_of_le 0 a (by omega)]
            simp [pairSum]
        rw [g3, hLs, e1, Finset.sum_range_succ (fun j => b.getD j 0 * (x :: xs).getD (n + 1 - j) 0) (n + 1),
          Finset.sum_range_succ (fun j => a.getD (j + 1) 0 * (s.1 :: (lfRun r b a s.2 xs).1).getD (n + 1 - 1 - j) 0) n]
        have e2 : ∑ j ∈ Finset.range (n + 1), b.getD j 0 * (x :: xs).getD (n + 1 - j) 0
            = ∑ j ∈ Finset.range (n + 1), b.getD j 0 * xs.getD (n - j) 0 := by
          refine Finset.sum_congr rfl (fun j hj => ?_)
          rw [Finset.mem_range] at hj
          rw [show n + 1 - j = n - j + 1 by omega, List.getD_cons_succ]
        have e3 : ∑ j ∈ Finset.range n, a.getD (j + 1) 0 * (s.1 :: (lfRun r b a s.2 xs).1).getD (n + 1 - 1 - j) 0
            = ∑ j ∈ Finset.range n, a.getD (j + 1) 0 * (lfRun r b a s.2 xs).1.getD (n - 1 - j) 0 := by
          refine Finset.sum_congr rfl (fun j hj => ?_)
          rw [Finset.mem_range] at hj
          rw [show n + 1 - 1 - j = n - 1 - j + 1 by omega, List.getD_cons_succ]
        rw [e2, e3]
        simp only [Nat.sub_self, List.getD_cons_zero, Nat.add_sub_cancel]
        ring
      · have hLs : pairAbs (L' n) = |x| * |b.getD (n + 1) 0| + |s.1| * |a.getD (n + 1) 0| + pairAbs (L (n + 1)) := by
          rcases Nat.lt_or_ge n N with q | q
          · rw [hL1 n q, pairAbs_append, pairAbs_append, pairAbs_single, pairAbs_single, abs_neg]; ring
          · rw [hL2 n q, h4 (n + 1) (by omega), getD_of_le 0 b (by omega), getD_of_le 0 a (by omega)]
            simp [pairAbs]
        rw [g4, hLs, e1, Finset.sum_range_succ (fun j => |b.getD j 0| * |(x :: xs).getD (n + 1 - j) 0|) (n + 1),
          Finset.sum_range_succ (fun j => |a.getD (j + 1) 0| * |(s.1 :: (lfRun r b a s.2 xs).1).getD (n + 1 - 1 - j) 0|) n]
        have e2 : ∑ j ∈ Finset.range (n + 1), |b.getD j 0| * |(x :: xs).getD (n + 1 - j) 0|
            = ∑ j ∈ Finset.range (n + 1), |b.getD j 0| * |xs.getD (n - j) 0| := by
          refine Finset.sum_congr rfl (fun j hj => ?_)
          rw [Finset.mem_range] at hj
          rw [show n + 1 - j = n - j + 1 by omega, List.getD_cons_succ]
        have e3 : ∑ j ∈ Finset.range n, |a.getD (j + 1) 0| * |(s.1 :: (lfRun r b a s.2 xs).1).getD (n + 1 - 1 - j) 0|
            = ∑ j ∈ Finset.range n, |a.getD (j + 1) 0| * |(lfRun r b a s.2 xs).1.getD (n - 1 - j) 0| := by
          refine Finset.sum_congr rfl (fun j hj => ?_)
          rw [Finset.mem_range] at hj
          rw [show n + 1 - 1 - j = n - 1 - j + 1 by omega, List.getD_cons_succ]
        rw [e2, e3]
        simp only [Nat.sub_self, List.getD_cons_zero, Nat.add_sub_cancel]
        ring

/-! ### sums over absolute values -/

theorem abs_getD (l : List ℝ) (i : ℕ) : |l.getD i 0| = (l.map (fun v => |v|)).getD i 0 := by
  rcases Nat.lt_or_ge i l.length with h | h
  · rw [getD_map_lt _ 0 0 _ h]
  · rw [getD_of_le 0 l h, getD_of_le 0 _ (by simpa using h), abs_zero]

theorem abs_withPast (x : List ℝ) (t : ℤ) : |withPast [] x t| = withPast [] (x.map (fun v => |v|)) t := by
  unfold withPast
  split
  · exact abs_getD x _
  · simp

theorem sum_taps_abs (c x : List ℝ) (n : ℕ) :
    ∑ i ∈ range c.length, |c.getD i 0| * |withPast [] x (n - i)|
      = ∑ j ∈ range (n + 1), |c.getD j 0| * |x.getD (n - j) 0| := by
  have := sum_taps (c.map (fun v => |v|)) (x.map (fun v => |v|)) n
  rw [List.length_map] at this
  simp only [abs_getD, abs_withPast]
  exact this

theorem sum_fb_abs (a y : List ℝ) (n : ℕ) :
    ∑ j ∈ Ico 1 a.length, |a.getD j 0| * |withPast [] y (n - j)|
      = ∑ j ∈ range n, |a.getD (j + 1) 0| * |y.getD (n - 1 - j) 0| := by
  have := sum_fb (a.map (fun v => |v|)) (y.map (fun v => |v|)) n
  rw [List.length_map] at this
  simp only [abs_getD, abs_withPast]
  exact this

/-- perturbed coefficients in a sum -/
theorem sum_perturb {ι : Type} (s : Finset ι) (c c' v : ι → ℝ) (u : ℝ) (h : ∀ i ∈ s, |c' i - c i| ≤ u * |c i|) :
    |∑ i ∈ s, c' i * v i - ∑ i ∈ s, c i * v i| ≤ u * ∑ i ∈ s, |c i| * |v i| ∧
      ∑ i ∈ s, |c' i| * |v i| ≤ (1 + u) * ∑ i ∈ s, |c i| * |v i| := by
  constructor
  · rw [← sum_sub_distrib, mul_sum]
    refine (abs_sum_le_sum_abs _ _).trans (sum_le_sum fun i hi => ?_)
    rw [← sub_mul, abs_mul, ← mul_assoc]
    exact mul_le_mul_of_nonneg_right (h i hi) (abs_nonneg _)
  · rw [mul_sum]
    refine sum_le_sum fun i hi => ?_
    rw [← mul_assoc]
    refine mul_le_mul_of_nonneg_right ?_ (abs_nonneg _)
    have := abs_add_le (c' i - c i) (c i)
    rw [sub_add_cancel] at this
    have := h i hi
    linarith

/-- from normalised to given coefficients -/
theorem residual_combine (u K y B B' A A' z Ba Ba' Aa Aa' za : ℝ) (hu : 0 ≤ u) (hK : 0 ≤ K)
    (h : |y - (B' - A' + z)| ≤ K * (Ba' + Aa' + za)) (hB : |B' - B| ≤ u * Ba) (hA : |A' - A| ≤ u * Aa)
    (hBa : Ba' ≤ (1 + u) * Ba) (hAa : Aa' ≤ (1 + u) * Aa) (hz : 0 ≤ za) :
    |y - (B - A + z)| ≤ ((1 + K) * (1 + u) - 1) * (Ba + Aa + za) := by
  have h1 := abs_le.1 h
  have h2 := abs_le.1 hB
  have h3 := abs_le.1 hA
  have h4 : K * (Ba' + Aa' + za) ≤ K * ((1 + u) * Ba + (1 + u) * Aa + (1 + u) * za) :=
    mul_le_mul_of_nonneg_left (by nlinarith) hK
  have h5 : ((1 + K) * (1 + u) - 1) * (Ba + Aa + za)
      = K * ((1 + u) * Ba + (1 + u) * Aa + (1 + u) * za) + u * Ba + u * Aa + u * za := by ring
  have h6 := mul_nonneg hu hz
  rw [h5, abs_le]
  constructor <;> linarith

end Verif
