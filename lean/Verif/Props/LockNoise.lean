import Verif.Props.Checker
import Verif.Model.LockWith
import Verif.Spec.LockNoise
import Mathlib.Data.List.GetD
import Mathlib.Tactic.Linarith
import Mathlib.Tactic.NormNum

/-! **C81**: the pattern lock with noise and rounding. -/

namespace Verif
open Spec

theorem lockPatternWith_exact {K : Type} [Semiring K] [LinearOrder K] (pat sig : List K) :
    lockPatternWith correlateValid pat sig = lockPattern pat sig := rfl

theorem tile2_getD {K : Type} [Zero K] (p : List K) (i : ℕ) (hi : i < 2 * p.length) :
    (tile p 2).getD i 0 = p.getD (i % p.length) 0 := by
  apply getD_eq_of_getElem?
  rw [tile_getElem? _ _ _ (by omega)]

theorem tile_slice_le {α : Type*} (p : List α) (s : Nat) (hs : s ≤ p.length) :
    ((tile p 2).drop s).take p.length = p.rotate s := by
  rcases Nat.lt_or_ge s p.length with h | h
  · exact tile_slice p s h
  · have : s = p.length := by omega
    subst this
    rw [List.rotate_length]
    simp [tile]

/-- **C81.** Let the signal be the pattern from phase `φ` on, with gain `g > 0`, offset `c` and noise of
magnitude at most `E`, and let the correlations be computed with absolute error at most `δ`. If different
levels of the pattern are at least `d` apart and `2 δ < d (g d - 2 E)`, the lock returns the pattern
rotated to phase `φ`. -/
theorem C81_lock {K : Type} [Field K] [LinearOrder K] [IsStrictOrderedRing K] (cor : List K → List K → List K)
    (pat sig : List K) (hp : pat ≠ []) (hlen : pat.length ≤ sig.length) (φ : ℕ) (g c d E δ : K)
    (hg : 0 < g) (hd : 0 < d) (hdist : LevelDistance d pat)
    (hsig : ∀ i < pat.length, |sig.getD i 0 - (g * pat.getD ((φ + i) % pat.length) 0 + c)| ≤ E)
    (hcor : CorrelatesWithin cor δ (pat ++ pat) (sig.take pat.length)) (hE : 2 * δ < d * (g * d - 2 * E)) :
    ∃ rot xc, lockPatternWith cor pat sig = .ok (rot, xc) ∧ rot.length = pat.length ∧
      ∀ i < pat.length, rot[i]? = pat[(φ + i) % pat.length]? := by
  have hp0 : 0 < pat.length := List.length_pos_iff.2 hp
  have ht : tile pat 2 = pat ++ pat := by simp [tile]
  unfold lockPatternWith
  rw [if_neg (by omega)]
  simp only [Nat.min_eq_left hlen]
  have hvl : (sig.take pat.length).length = pat.length := by simp [hlen]
  obtain ⟨hc1, hc2⟩ := hcor
  rw [← ht] at hc1 hc2
  rw [hvl, tile_length] at hc1 hc2
  have hP : 2 * pat.length - pat.length = pat.length := by omega
  rw [hP] at hc1 hc2
  generalize hx : cor (tile pat 2) (sig.take pat.length) = xc at *
  have hxne : xc ≠ [] := List.ne_nil_of_length_pos (by omega)
  have hs := argmax_lt xc hxne
  have hmax : ∀ y ∈ xc, y ≤ xc.getD (argmax xc) 0 := by
    intro y hy
    rw [List.getD_eq_getElem _ _ hs]
    exact argmax_spec xc hxne y hy
  generalize argmax xc = s at *
  -- periodic extension of the pattern
  obtain ⟨q, hq⟩ : ∃ q : ℕ → K, q = fun i => pat.getD (i % pat.length) 0 := ⟨_, rfl⟩
  have hqp : ∀ i, q (i + pat.length) = q i := by intro i; simp [hq]
  obtain ⟨e, he⟩ : ∃ e : ℕ → K, e = fun i => sig.getD i 0 - (g * q (φ + i) + c) := ⟨_, rfl⟩
  have heE : ∀ i < pat.length, |e i| ≤ E := by
    intro i hi
    rw [he, hq]
    exact hsig i hi
  have hcorr : ∀ k ≤ pat.length, |xc.getD k 0 - ∑ i ∈ Finset.range pat.length, q (k + i) * (g * q (φ + i) + c + e i)| ≤ δ := by
    intro k hk
    have := hc2 k hk
    rw [show ∑ i ∈ Finset.range pat.length, q (k + i) * (g * q (φ + i) + c + e i)
        = ∑ l ∈ Finset.range pat.length, (tile pat 2).getD (k + l) 0 * (sig.take pat.length).getD l 0 by
      apply Finset.sum_congr rfl
      intro i hi
      rw [Finset.mem_range] at hi
      rw [tile2_getD _ _ (by omega), he, hq]
      have : (sig.take pat.length).getD i 0 = sig.getD i 0 := by
        apply getD_eq_of_getElem?
        rw [List.getElem?_take, if_pos hi]
      rw [this]
      ring]
    exact this
  have hle : xc.getD (φ % pat.length) 0 ≤ xc.getD s 0 := by
    have h1 : φ % pat.length < xc.length := by have := Nat.mod_lt φ hp0; omega
    rw [List.getD_eq_getElem _ _ h1]
    exact hmax _ (List.getElem_mem _)
  have hsum : ∀ k, ∑ i ∈ Finset.range pat.length, q (k + i) = ∑ i ∈ Finset.range pat.length, q i :=
    fun k => sum_shift_period q pat.length hqp k
  have hsq : ∀ k, ∑ i ∈ Finset.range pat.length, q (k + i) * q (k + i)
      = ∑ i ∈ Finset.range pat.length, q i * q i := fun k =>
    sum_shift_period (fun i => q i * q i) pat.length (fun i => by simp only [hqp]) k
  have hqm : ∀ i, q (φ % pat.length + i) = q (φ + i) := by
    intro i
    simp only [hq]
    rw [Nat.mod_add_mod]
  -- the differences
  obtain ⟨D, hD⟩ : ∃ D : ℕ → K, D = fun i => q (φ + i) - q (s + i) := ⟨_, rfl⟩
  have key : g / 2 * ∑ i ∈ Finset.range pat.length, D i ^ 2 + ∑ i ∈ Finset.range pat.length, D i * e i ≤ 2 * δ := by
    have a1 := abs_le.1 (hcorr s (by omega))
    have a2 := abs_le.1 (hcorr (φ % pat.length) (by have := Nat.mod_lt φ hp0; omega))
    simp only [hqm] at a2
    have e1 : ∀ k, ∑ i ∈ Finset.range pat.length, q (k + i) * (g * q (φ + i) + c + e i)
        = g * ∑ i ∈ Finset.range pat.length, q (k + i) * q (φ + i) + c * ∑ i ∈ Finset.range pat.length, q i
          + ∑ i ∈ Finset.range pat.length, q (k + i) * e i := by
      intro k
      rw [← hsum k, Finset.mul_sum, Finset.mul_sum, ← Finset.sum_add_distrib, ← Finset.sum_add_distrib]
      exact Finset.sum_congr rfl (fun i _ => by ring)
    rw [e1] at a1 a2
    have e2 : ∑ i ∈ Finset.range pat.length, D i ^ 2 = 2 * ∑ i ∈ Finset.range pat.length, q (φ + i) * q (φ + i)
        - 2 * ∑ i ∈ Finset.range pat.length, q (s + i) * q (φ + i) := by
      have e3 : ∑ i ∈ Finset.range pat.length, D i ^ 2 = ∑ i ∈ Finset.range pat.length, q (φ + i) * q (φ + i)
          - 2 * ∑ i ∈ Finset.range pat.length, q (s + i) * q (φ + i)
          + ∑ i ∈ Finset.range pat.length, q (s + i) * q (s + i) := by
        rw [Finset.mul_sum, ← Finset.sum_sub_distrib, ← Finset.sum_add_distrib, hD]
        exact Finset.sum_congr rfl (fun i _ => by ring)
      rw [e3, hsq s, hsq φ]
      ring
    have e4 : ∑ i ∈ Finset.range pat.length, D i * e i
        = ∑ i ∈ Finset.range pat.length, q (φ + i) * e i - ∑ i ∈ Finset.range pat.length, q (s + i) * e i := by
      rw [← Finset.sum_sub_distrib, hD]
      exact Finset.sum_congr rfl (fun i _ => by ring)
    rw [e2, e4]
    linarith [a1.1, a1.2, a2.1, a2.2]
  have hmem : ∀ i, q i ∈ pat := by
    intro i
    rw [hq]
    simp only
    rw [List.getD_eq_getElem _ _ (Nat.mod_lt _ hp0)]
    exact List.getElem_mem _
  have hDd : ∀ i, d * |D i| ≤ D i ^ 2 := by
    intro i
    by_cases h0 : q (φ + i) = q (s + i)
    · rw [hD]; simp [h0]
    · have := hdist _ (hmem (φ + i)) _ (hmem (s + i)) h0
      rw [← sq_abs (D i), sq]
      apply mul_le_mul_of_nonneg_right _ (abs_nonneg _)
      rw [hD]; exact this
  have hDe : ∀ i < pat.length, -(E * |D i|) ≤ D i * e i := by
    intro i hi
    have h1 : |D i * e i| ≤ E * |D i| := by
      rw [abs_mul, mul_comm E]
      exact mul_le_mul_of_nonneg_left (heE i hi) (abs_nonneg _)
    exact (abs_le.1 h1).1
  have hfin : (g * d / 2 - E) * ∑ i ∈ Finset.range pat.length, |D i| ≤ 2 * δ := by
    refine le_trans ?_ key
    rw [Finset.mul_sum, Finset.mul_sum, ← Finset.sum_add_distrib]
    apply Finset.sum_le_sum
    intro i hi
    have h1 := hDe i (by simpa using hi)
    have h2 := mul_le_mul_of_nonneg_left (hDd i) (by linarith : 0 ≤ g / 2)
    nlinarith
  have hδ : 0 ≤ δ := le_trans (abs_nonneg _) (hcorr 0 (by omega))
  have hpos : 0 < g * d - 2 * E := by
    by_contra hn
    have := mul_nonpos_of_nonneg_of_nonpos hd.le (not_lt.1 hn)
    linarith
  have h6 : ∀ i < pat.length, q (s + i) = q (φ + i) := by
    intro i hi
    by_contra hne
    have hi' : i ∈ Finset.range pat.length := by simpa using hi
    have h1 : d ≤ |D i| := by
      rw [hD]; exact hdist _ (hmem (φ + i)) _ (hmem (s + i)) (Ne.symm hne)
    have h2 : ∑ i ∈ Finset.range pat.length, D i = 0 := by
      rw [hD, Finset.sum_sub_distrib, hsum, hsum, sub_self]
    have h3 : 2 * d ≤ ∑ i ∈ Finset.range pat.length, |D i| := by
      rw [← Finset.add_sum_erase _ _ hi'] at h2 ⊢
      have h4 : |∑ i ∈ (Finset.range pat.length).erase i, D i| ≤ ∑ i ∈ (Finset.range pat.length).erase i, |D i| :=
        Finset.abs_sum_le_sum_abs _ _
      rw [show ∑ i ∈ (Finset.range pat.length).erase i, D i = - D i by linarith, abs_neg] at h4
      linarith
    have h5 := mul_le_mul_of_nonneg_left h3 (by linarith : 0 ≤ g * d / 2 - E)
    nlinarith
  refine ⟨_, _, rfl, ?_, fun i hi => ?_⟩
  · rw [tile_slice_le _ _ (by omega)]; simp
  · rw [tile_slice_le _ _ (by omega), List.getElem?_rotate hi, Nat.add_comm i s]
    have := h6 i hi
    have hm1 := Nat.mod_lt (s + i) hp0
    have hm2 := Nat.mod_lt (φ + i) hp0
    simp only [hq, List.getD_eq_getElem?_getD, List.getElem?_eq_getElem hm1,
      List.getElem?_eq_getElem hm2, Option.getD_some] at this
    rw [List.getElem?_eq_getElem hm1, List.getElem?_eq_getElem hm2, this]

/-- **C81**, exact correlations: noise below half the received level distance never moves the lock. -/
theorem C81_lock_noise {K : Type} [Field K] [LinearOrder K] [IsStrictOrderedRing K]
    (pat sig : List K) (hp : pat ≠ []) (hlen : pat.length ≤ sig.length) (φ : ℕ) (g c d E : K)
    (hg : 0 < g) (hd : 0 < d) (hdist : LevelDistance d pat)
    (hsig : ∀ i < pat.length, |sig.getD i 0 - (g * pat.getD ((φ + i) % pat.length) 0 + c)| ≤ E)
    (hE : E < g * d / 2) :
    ∃ rot xc, lockPattern pat sig = .ok (rot, xc) ∧ rot.length = pat.length ∧
      ∀ i < pat.length, rot[i]? = pat[(φ + i) % pat.length]? := by
  rw [← lockPatternWith_exact]
  refine C81_lock correlateValid pat sig hp hlen φ g c d E 0 hg hd hdist hsig ?_ ?_
  · have hvl : (sig.take pat.length).length = pat.length := by simp [hlen]
    have ht : tile pat 2 = pat ++ pat := by simp [tile]
    rw [← ht]
    constructor
    · rw [correlateValid_tile _ _ (by omega), List.length_map, List.length_range, tile_length]
    · intro k hk
      rw [tile_length] at hk
      rw [correlateValid_tile _ _ (by omega), List.getD_eq_getElem _ _ (by simp; omega), List.getElem_map, List.getElem_range]
      unfold corr
      rw [← Finset.sum_sub_distrib, Finset.sum_eq_zero, abs_zero]
      intro l hl
      rw [Finset.mem_range] at hl
      rw [tile2_getD _ _ (by omega), sub_self]
  · have := mul_pos hd (by linarith : 0 < g * d - 2 * E)
    linarith

/-- **C81**, the bound is the best possible: noise of exactly half the level distance can hide the phase. -/
theorem C81_noise_sharp :
    ∃ (pat sig : List ℚ) (φ : ℕ), LevelDistance 2 pat ∧ pat.length ≤ sig.length ∧
      (∀ i < pat.length, |sig.getD i 0 - (1 * pat.getD ((φ + i) % pat.length) 0 + 0)| ≤ 1 * 2 / 2) ∧
      ∃ rot xc, lockPattern pat sig = .ok (rot, xc) ∧ ∃ i < pat.length, rot[i]? ≠ pat[(φ + i) % pat.length]? := by
  refine ⟨[-1, 1], [0, 0], 1, ?_, by simp, ?_, [-1, 1], [0, 0, 0], by decide +kernel, 0, by simp, by decide +kernel⟩
  · intro x hx y hy hne
    simp at hx hy
    rcases hx with rfl | rfl <;> rcases hy with rfl | rfl <;> first | exact absurd rfl hne | norm_num
  · intro i hi
    simp only [List.length_cons, List.length_nil] at hi
    interval_cases i <;> norm_num

/-- a PAM4 pattern, gain one half, offset 1, noise up to 1/4, correlations rounded to multiples of 1/8 -/
example : LevelDistance (2 : ℚ) [-3, 1, 3, -1, 1] ∧
    (∀ i < 5, |([5 / 4, 21 / 8, 3 / 4, 3 / 2, -7 / 10] : List ℚ).getD i 0
      - (1 / 2 * ([-3, 1, 3, -1, 1] : List ℚ).getD ((1 + i) % 5) 0 + 1)| ≤ 1 / 4) ∧
    2 * (1 / 16 : ℚ) < 2 * (1 / 2 * 2 - 2 * (1 / 4)) := by
  refine ⟨?_, ?_, by norm_num⟩
  · intro x hx y hy hne
    simp at hx hy
    rcases hx with rfl | rfl | rfl | rfl | rfl <;> rcases hy with rfl | rfl | rfl | rfl | rfl <;> first | exact absurd rfl hne | norm_num
  · intro i hi
    interval_cases i <;> norm_num

end Verif
