import Verif.Lemmas.LmsStop

/-!
C131: what the stopping rules of the FFE training test guarantee. The test stops when the loss is small, when it changes little, or
after 100000 passes, and then asserts that every tap is within 1/100 of the reference. If the loss grows at least like `lam` times the
squared distance from the reference taps, each of the three ways to stop bounds the distance; with the constants of the test the assertion
holds for `lam ≥ 1/4` and an initial loss of at most 1. For a weak signal (small `lam`) the test stops far from the reference and fails.
-/

open Finset

namespace Verif
open Spec

/-- an exact pass: its loss is the mean square error of the taps it starts from, and it makes progress towards the minimum -/
theorem C131_pass (y d levels t z : List ℝ) (L : ℕ) (mu A lam : ℝ) (hL : 1 ≤ L) (hLN : L ≤ y.length) (hd : d.length = y.length)
    (hlv : levels ≠ []) (htl : t.length = L) (hzl : z.length = L)
    (hA : ∀ v ∈ y, |v| ≤ A) (hmu : 0 < mu) (hstep : mu * (L * A ^ 2) ≤ 2) (hlam : 0 < lam)
    (hmin : ∀ s : List ℝ, s.length = L → ffeMse y d z + lam * tapGap L s z ^ 2 ≤ ffeMse y d s) :
    ∃ t', lmsFfePass 0 y d levels mu t = .ok (some (ffeMse y d t), t') ∧ t'.length = L ∧
      lam * mu / 2 * (ffeMse y d t - ffeMse y d z) ≤ ffeMse y d t - ffeMse y d t' := by
  obtain ⟨t', o, h1, h2, h3, h4, h5⟩ := ffePass_taps y d levels t mu (by omega) (by omega) hd hlv
  rw [htl] at h2 h4 h5
  exact ⟨t', h1, h2, pass_progress y d t t' z L mu A lam hL hLN hd htl h2 hzl hA hmu hstep hlam hmin o h3 h4 h5⟩

/-- what is known when the loop ends: `x` is the loss of the taps, `m` the minimum, `x0` the initial loss, `q` the progress per pass -/
def exitBound (q m x0 x tolLoss tolStep : ℝ) (n : ℕ) : LmsExit → Prop
  | .loss => x ≤ tolLoss
  | .step => x - m ≤ tolStep / q
  | .count => x - m ≤ (1 - q) ^ n * (x0 - m)

/-- the loop from its second pass on -/
theorem loop_bound (y d levels z : List ℝ) (L : ℕ) (mu A lam tolLoss tolStep : ℝ) (hL : 1 ≤ L) (hLN : L ≤ y.length) (hd : d.length = y.length)
    (hlv : levels ≠ []) (hzl : z.length = L)
    (hA : ∀ v ∈ y, |v| ≤ A) (hmu : 0 < mu) (hstep : mu * (L * A ^ 2) ≤ 2) (hlam : 0 < lam) (hlm : lam * mu ≤ 2)
    (hmin : ∀ s : List ℝ, s.length = L → ffeMse y d z + lam * tapGap L s z ^ 2 ≤ ffeMse y d s) (n : ℕ) :
    ∀ (last : ℝ) (t : List ℝ), t.length = L → ffeMse y d t ≤ last → lam * mu / 2 * (last - ffeMse y d z) ≤ last - ffeMse y d t →
      ∃ e t', lmsFfeLoop 0 y d levels mu tolLoss tolStep n last t = .ok (e, t') ∧ t'.length = L ∧
        exitBound (lam * mu / 2) (ffeMse y d z) (ffeMse y d t) (ffeMse y d t') tolLoss tolStep n e := by
  have hq : 0 < lam * mu / 2 := by positivity
  have hge : ∀ s : List ℝ, s.length = L → ffeMse y d z ≤ ffeMse y d s := fun s hs =>
    (le_add_of_nonneg_right (by positivity)).trans (hmin s hs)
  induction n with
  | zero =>
    intro last t htl _ _
    exact ⟨.count, t, rfl, htl, by simp [exitBound]⟩
  | succ n ih =>
    intro last t htl hlast hp
    obtain ⟨t', e1, e2, e3⟩ := C131_pass y d levels t z L mu A lam hL hLN hd hlv htl hzl hA hmu hstep hlam hmin
    have h0 := hge t htl
    have h0' := hge t' e2
    have hdec : ffeMse y d t' ≤ ffeMse y d t := by
      have := mul_nonneg hq.le (sub_nonneg.2 h0)
      linarith
    unfold lmsFfeLoop
    by_cases h1 : last ≤ tolLoss
    · exact ⟨.loss, t, by rw [if_pos h1], htl, hlast.trans h1⟩
    · rw [if_neg h1, e1]
      by_cases h2 : |ffeMse y d t - last| < tolStep
      · refine ⟨.step, t', ?_, e2, ?_⟩
        · show (if _ then _ else _) = _
          rw [if_pos h2]
        · show _ ≤ tolStep / (lam * mu / 2)
          rw [le_div_iff₀ hq]
          have h3 := (abs_lt.1 h2).1
          have : (ffeMse y d t' - ffeMse y d z) * (lam * mu / 2) ≤ (last - ffeMse y d z) * (lam * mu / 2) :=
            mul_le_mul_of_nonneg_right (by linarith) hq.le
          linarith
      · obtain ⟨e, t'', f1, f2, f3⟩ := ih (ffeMse y d t) t' e2 hdec e3
        refine ⟨e, t'', ?_, f2, ?_⟩
        · show (if _ then _ else _) = _
          rw [if_neg h2, f1]
        · cases e with
          | loss => exact f3
          | step => exact f3
          | count =>
            refine le_trans (show _ ≤ _ from f3) ?_
            rw [pow_succ, mul_assoc]
            exact mul_le_mul_of_nonneg_left (by linarith) (pow_nonneg (by linarith) n)

/-- **C131.** The training loop on a whole record with known symbols, of at least one pass. `z` are the reference taps, the loss grows at least
like `lam` times the squared distance from them; the initial entry of `loss_vec` exceeds `tolLoss` and the initial loss by `tolStep`.
The loop ends without an exception, and
* if it ended since the loss was small, the loss of the taps is at most `tolLoss`;
* if it ended since the loss changed little, the loss exceeds the minimum by at most `2 tolStep / (lam mu)`;
* if it ended after its `n` passes, the loss exceeds the minimum by at most `(1 - lam mu / 2) ^ n` times the initial excess;
in every case `lam` times the squared distance from the reference is at most the excess of the loss. -/
theorem C131_loop (y d levels t0 z : List ℝ) (L : ℕ) (mu A lam tolLoss tolStep last : ℝ) (hL : 1 ≤ L) (hLN : L ≤ y.length)
    (hd : d.length = y.length) (hlv : levels ≠ []) (ht0 : t0.length = L) (hzl : z.length = L)
    (hA : ∀ v ∈ y, |v| ≤ A) (hmu : 0 < mu) (hstep : mu * (L * A ^ 2) ≤ 2) (hlam : 0 < lam) (hlm : lam * mu ≤ 2)
    (hmin : ∀ s : List ℝ, s.length = L → ffeMse y d z + lam * tapGap L s z ^ 2 ≤ ffeMse y d s)
    (hlast : tolLoss < last) (hlast2 : ffeMse y d t0 + tolStep ≤ last) (n : ℕ) (hn : 1 ≤ n) :
    ∃ e t, lmsFfeLoop 0 y d levels mu tolLoss tolStep n last t0 = .ok (e, t) ∧ t.length = L ∧
      lam * tapGap L t z ^ 2 ≤ ffeMse y d t - ffeMse y d z ∧
      (e = .loss → ffeMse y d t ≤ tolLoss) ∧
      (e = .step → ffeMse y d t - ffeMse y d z ≤ 2 * tolStep / (lam * mu)) ∧
      (e = .count → ffeMse y d t - ffeMse y d z ≤ (1 - lam * mu / 2) ^ n * (ffeMse y d t0 - ffeMse y d z)) := by
  obtain ⟨n, rfl⟩ : ∃ k, n = k + 1 := ⟨n - 1, by omega⟩
  obtain ⟨t1, e1, e2, e3⟩ := C131_pass y d levels t0 z L mu A lam hL hLN hd hlv ht0 hzl hA hmu hstep hlam hmin
  obtain ⟨e, t, f1, f2, f3⟩ := loop_bound y d levels z L mu A lam tolLoss tolStep hL hLN hd hlv hzl hA hmu hstep hlam hlm hmin n
    (ffeMse y d t0) t1 e2 (by
      have h0 : 0 ≤ ffeMse y d t0 - ffeMse y d z := sub_nonneg.2 ((le_add_of_nonneg_right (by positivity)).trans (hmin t0 ht0))
      have := mul_nonneg (show 0 ≤ lam * mu / 2 by positivity) h0
      linarith) e3
  refine ⟨e, t, ?_, f2, by have := hmin t f2; linarith, ?_, ?_, ?_⟩
  · unfold lmsFfeLoop
    rw [if_neg (not_le.2 hlast), e1]
    show (if _ then _ else _) = _
    rw [if_neg, f1]
    rw [not_lt, abs_sub_comm]
    exact le_trans (by linarith) (le_abs_self _)
  · rintro rfl; exact f3
  · rintro rfl
    refine le_trans (show _ ≤ _ from f3) (le_of_eq ?_)
    field_simp
  · rintro rfl
    refine le_trans (show _ ≤ _ from f3) ?_
    rw [pow_succ, mul_assoc]
    exact mul_le_mul_of_nonneg_left (by linarith) (pow_nonneg (by linarith) n)

/-- the loop from its second pass on does not use up its passes if the thresholds are not too small -/
theorem loop_stops (y d levels z : List ℝ) (L : ℕ) (mu A lam tolLoss tolStep : ℝ) (hL : 1 ≤ L) (hLN : L ≤ y.length) (hd : d.length = y.length)
    (hlv : levels ≠ []) (hzl : z.length = L)
    (hA : ∀ v ∈ y, |v| ≤ A) (hmu : 0 < mu) (hstep : mu * (L * A ^ 2) ≤ 2) (hlam : 0 < lam) (hlm : lam * mu ≤ 2)
    (hmin : ∀ s : List ℝ, s.length = L → ffeMse y d z + lam * tapGap L s z ^ 2 ≤ ffeMse y d s) (n : ℕ) :
    ∀ (last : ℝ) (t : List ℝ), t.length = L → ffeMse y d t ≤ last → lam * mu / 2 * (last - ffeMse y d z) ≤ last - ffeMse y d t →
      (1 - lam * mu / 2) ^ n * (last - ffeMse y d z) < tolStep →
      ∃ e t', lmsFfeLoop 0 y d levels mu tolLoss tolStep (n + 1) last t = .ok (e, t') ∧ e ≠ .count := by
  have hq : 0 < lam * mu / 2 := by positivity
  have hge : ∀ s : List ℝ, s.length = L → ffeMse y d z ≤ ffeMse y d s := fun s hs =>
    (le_add_of_nonneg_right (by positivity)).trans (hmin s hs)
  induction n with
  | zero =>
    intro last t htl hlast _ hsm
    obtain ⟨t', e1, e2, e3⟩ := C131_pass y d levels t z L mu A lam hL hLN hd hlv htl hzl hA hmu hstep hlam hmin
    have h0 := hge t htl
    rw [pow_zero, one_mul] at hsm
    unfold lmsFfeLoop
    by_cases h1 : last ≤ tolLoss
    · exact ⟨.loss, t, by rw [if_pos h1], by simp⟩
    · rw [if_neg h1, e1]
      refine ⟨.step, t', ?_, by simp⟩
      show (if _ then _ else _) = _
      rw [if_pos]
      rw [abs_sub_comm, abs_of_nonneg (by linarith)]
      linarith
  | succ n ih =>
    intro last t htl hlast hp hsm
    obtain ⟨t', e1, e2, e3⟩ := C131_pass y d levels t z L mu A lam hL hLN hd hlv htl hzl hA hmu hstep hlam hmin
    have h0 := hge t htl
    have hdec : ffeMse y d t' ≤ ffeMse y d t := by
      have := mul_nonneg hq.le (sub_nonneg.2 h0)
      linarith
    rw [lmsFfeLoop]
    by_cases h1 : last ≤ tolLoss
    · exact ⟨.loss, t, by rw [if_pos h1], by simp⟩
    · rw [if_neg h1, e1]
      by_cases h2 : |ffeMse y d t - last| < tolStep
      · refine ⟨.step, t', ?_, by simp⟩
        show (if _ then _ else _) = _
        rw [if_pos h2]
      · obtain ⟨e, t'', f1, f2⟩ := ih (ffeMse y d t) t' e2 hdec e3 (by
          refine lt_of_le_of_lt ?_ hsm
          rw [pow_succ, mul_assoc]
          exact mul_le_mul_of_nonneg_left (by linarith) (pow_nonneg (by linarith) n))
        refine ⟨e, t'', ?_, f2⟩
        show (if _ then _ else _) = _
        rw [if_neg h2, f1]

/-- **C131.** The loop stops by one of its two thresholds within `n + 2` passes if `(1 - lam mu / 2) ^ n` times the initial excess of the loss is below
the threshold on its change. -/
theorem C131_stops (y d levels t0 z : List ℝ) (L : ℕ) (mu A lam tolLoss tolStep last : ℝ) (hL : 1 ≤ L) (hLN : L ≤ y.length)
    (hd : d.length = y.length) (hlv : levels ≠ []) (ht0 : t0.length = L) (hzl : z.length = L)
    (hA : ∀ v ∈ y, |v| ≤ A) (hmu : 0 < mu) (hstep : mu * (L * A ^ 2) ≤ 2) (hlam : 0 < lam) (hlm : lam * mu ≤ 2)
    (hmin : ∀ s : List ℝ, s.length = L → ffeMse y d z + lam * tapGap L s z ^ 2 ≤ ffeMse y d s)
    (hlast : tolLoss < last) (hlast2 : ffeMse y d t0 + tolStep ≤ last) (n : ℕ)
    (hn : (1 - lam * mu / 2) ^ n * (ffeMse y d t0 - ffeMse y d z) < tolStep) :
    ∃ e t, lmsFfeLoop 0 y d levels mu tolLoss tolStep (n + 2) last t0 = .ok (e, t) ∧ e ≠ .count := by
  obtain ⟨t1, e1, e2, e3⟩ := C131_pass y d levels t0 z L mu A lam hL hLN hd hlv ht0 hzl hA hmu hstep hlam hmin
  obtain ⟨e, t, f1, f2⟩ := loop_stops y d levels z L mu A lam tolLoss tolStep hL hLN hd hlv hzl hA hmu hstep hlam hlm hmin n
    (ffeMse y d t0) t1 e2 (by
      have h0 : 0 ≤ ffeMse y d t0 - ffeMse y d z := sub_nonneg.2 ((le_add_of_nonneg_right (by positivity)).trans (hmin t0 ht0))
      have := mul_nonneg (show 0 ≤ lam * mu / 2 by positivity) h0
      linarith) e3 hn
  refine ⟨e, t, ?_, f2⟩
  rw [lmsFfeLoop, if_neg (not_le.2 hlast), e1]
  show (if _ then _ else _) = _
  rw [if_neg, f1]
  rw [not_lt, abs_sub_comm]
  exact le_trans (by linarith) (le_abs_self _)

/-- a tap is not further away than all taps together -/
theorem tap_le_gap (L : ℕ) (t z : List ℝ) (i : ℕ) (hi : i < L) : |z.getD i 0 - t.getD i 0| ≤ tapGap L t z := by
  unfold tapGap
  rw [abs_sub_comm, ← Real.sqrt_sq_eq_abs]
  exact Real.sqrt_le_sqrt (single_le_sum (f := fun i => (t.getD i 0 - z.getD i 0) ^ 2) (fun _ _ => sq_nonneg _) (mem_range.2 hi))

/-- two thousand passes at `lam = 1/4` -/
theorem pass_power_part (x : ℝ) (h0 : 0 ≤ 1 - x) (hx : 1 - x ≤ 1 - 1 / 8000) (k : ℕ) (hk : k = 2000) : (1 - x) ^ k ≤ 4 / 5 := by
  have hb : (1 : ℝ) + (k : ℝ) * (1 / 8000) ≤ (1 + 1 / 8000) ^ k := one_add_mul_le_pow (by norm_num) k
  have h4 : (1 - x) * (1 + 1 / 8000) ≤ 1 := by nlinarith
  have h5 : (1 - x) ^ k * (1 + 1 / 8000) ^ k ≤ 1 := by
    rw [← mul_pow]
    exact pow_le_one₀ (mul_nonneg h0 (by norm_num)) h4
  have h6 : (0 : ℝ) ≤ (1 - x) ^ k := pow_nonneg h0 _
  have hk' : (k : ℝ) = 2000 := by rw [hk]; norm_num
  rw [hk'] at hb
  generalize (1 - x) ^ k = a at *
  generalize ((1 : ℝ) + 1 / 8000) ^ k = b at *
  nlinarith

/-- a hundred thousand passes at `lam = 1/4` -/
theorem pass_power (x : ℝ) (h1 : 1 / 8000 ≤ x) (h2 : x ≤ 1) (N : ℕ) (hN : N = 100000) : (1 - x) ^ N ≤ 1 / 50000 := by
  have h0 : 0 ≤ 1 - x := by linarith
  have hx : 1 - x ≤ 1 - 1 / 8000 := by linarith
  obtain ⟨k, hk⟩ : ∃ k : ℕ, k = 2000 := ⟨_, rfl⟩
  have hNk : N = k * 50 := by rw [hN, hk]
  rw [hNk, pow_mul]
  refine (pow_le_pow_left₀ (pow_nonneg h0 _) (pass_power_part x h0 hx k hk) 50).trans ?_
  norm_num

/-- **C131.** With the constants of the test its assertion holds, for a record whose loss grows at least like a quarter of the squared distance
from the reference taps (a signal of enough power in every direction) and an initial loss of at most 1. -/
theorem C131_test_passes (y d levels t0 z : List ℝ) (L : ℕ) (A lam : ℝ) (hL : 1 ≤ L) (hLN : L ≤ y.length)
    (hd : d.length = y.length) (hlv : levels ≠ []) (ht0 : t0.length = L) (hzl : z.length = L)
    (hA : ∀ v ∈ y, |v| ≤ A) (hstep : L * A ^ 2 ≤ 2000) (hlam : 1 / 4 ≤ lam) (hlm : lam ≤ 2000)
    (hmin : ∀ s : List ℝ, s.length = L → ffeMse y d z + lam * tapGap L s z ^ 2 ≤ ffeMse y d s) (h1 : ffeMse y d t0 ≤ 1) :
    lmsFfeStopTest 0 y d levels z t0 = .ok true := by
  have hz0 : 0 ≤ ffeMse y d z := div_nonneg (sum_nonneg fun _ _ => sq_nonneg _) (Nat.cast_nonneg _)
  have hzt : ffeMse y d z ≤ ffeMse y d t0 := (le_add_of_nonneg_right (by positivity)).trans (hmin t0 ht0)
  obtain ⟨N, hN⟩ : ∃ N : ℕ, N = 100000 := ⟨_, rfl⟩
  have hN1 : 1 ≤ N := by rw [hN]; norm_num
  obtain ⟨e, t, f1, f2, f3, g1, g2, g3⟩ := C131_loop y d levels t0 z L (1 / 10 ^ 3) A lam (1 / 10 ^ 6) (2 / 10 ^ 9) (10 ^ 3) hL hLN hd hlv ht0 hzl
    hA (by norm_num) (by linarith) (by linarith) (by linarith) hmin (by norm_num) (by linarith) N hN1
  have hgap : tapGap L t z ^ 2 < (1 / 10 ^ 2) ^ 2 := by
    have hx : tapGap L t z ^ 2 * (1 / 4) ≤ lam * tapGap L t z ^ 2 := by nlinarith [sq_nonneg (tapGap L t z)]
    cases e with
    | loss => have := g1 rfl; linarith
    | step =>
      have h2 := g2 rfl
      have h3 : 2 * (2 / 10 ^ 9) / (lam * (1 / 10 ^ 3)) ≤ 16 / 10 ^ 6 := by
        rw [div_le_iff₀ (by positivity)]
        linarith
      linarith
    | count =>
      have h2 := g3 rfl
      have h3 := pass_power (lam * (1 / 10 ^ 3) / 2) (by linarith) (by linarith) N hN
      have h4 : (1 - lam * (1 / 10 ^ 3) / 2) ^ N * (ffeMse y d t0 - ffeMse y d z) ≤ 1 / 50000 * 1 :=
        mul_le_mul h3 (by linarith) (by linarith) (by norm_num)
      linarith
  have hg : tapGap L t z < 1 / 10 ^ 2 := lt_of_pow_lt_pow_left₀ 2 (by norm_num) hgap
  unfold lmsFfeStopTest
  rw [← hN, f1]
  show Except.ok _ = _
  congr 1
  rw [List.all_eq_true]
  intro b hb
  obtain ⟨i, hi, rfl⟩ := List.mem_iff_getElem.1 hb
  rw [List.length_zipWith] at hi
  have hi' : i < L := by omega
  rw [List.getElem_zipWith]
  refine decide_eq_true ?_
  have := tap_le_gap L t z i hi'
  rw [List.getD_eq_getElem _ _ (by omega), List.getD_eq_getElem _ _ (by omega)] at this
  exact lt_of_le_of_lt this hg

/-- **C131, negative.** Nothing but the size of the signal: a record of amplitude 1/100 whose reference tap 1 equalizes it without error; the loss
changes by less than 2e-9 in the second pass, the loop ends with a tap below 1/100 and the assertion of the test fails. -/
theorem C131_weak_signal_fails :
    ffeMse [1 / 100] [1 / 100] [1] = 0 ∧ lmsFfeStopTest (K := ℝ) 0 [1 / 100] [1 / 100] [-1, 1] [1] [0] = .ok false := by
  have hm : ∀ x : ℝ, ffeMse [1 / 100] [1 / 100] [x] = (x * (1 / 100) - 1 / 100) ^ 2 := by
    intro x; simp [ffeMse]
  have hpass : ∀ x : ℝ, lmsFfePass 0 [1 / 100] [1 / 100] [-1, 1] (1 / 10 ^ 3) [x]
      = .ok (some ((x * (1 / 100) - 1 / 100) ^ 2), [x - (x * (1 / 100) - 1 / 100) * (1 / 100) / 2 * (1 / 10 ^ 3)]) := by
    intro x
    obtain ⟨t', o, h1, h2, h3, h4, h5⟩ := ffePass_taps [1 / 100] [1 / 100] [-1, 1] [x] (1 / 10 ^ 3) (by simp) (by simp) rfl (by simp)
    rw [h1, hm]
    obtain ⟨a, rfl⟩ := List.length_eq_one_iff.1 (h2.trans rfl)
    obtain ⟨b, rfl⟩ := List.length_eq_one_iff.1 (h3.trans rfl)
    have e1 := h4 0 (by simp)
    have e2 := h5 0 (by simp)
    simp [listSig] at e1
    simp [tapGrad, listSig] at e2
    rw [show Ico (0 : ℤ) 1 = {0} from rfl, sum_singleton] at e2
    simp at e2
    rw [e2, e1]
    congr 4
    ring
  have hloop : ∀ n : ℕ, ∃ a : ℝ, |1 - a| ≥ 1 / 2 ∧
      lmsFfeLoop 0 [1 / 100] [1 / 100] [-1, 1] (1 / 10 ^ 3) (1 / 10 ^ 6) (2 / 10 ^ 9) (n + 1 + 1) (10 ^ 3) [0] = .ok (.step, [a]) := by
    intro n
    refine ⟨0 - (0 * (1 / 100) - 1 / 100) * (1 / 100) / 2 * (1 / 10 ^ 3)
      - ((0 - (0 * (1 / 100) - 1 / 100) * (1 / 100) / 2 * (1 / 10 ^ 3)) * (1 / 100) - 1 / 100) * (1 / 100) / 2 * (1 / 10 ^ 3), ?_, ?_⟩
    · exact le_trans (by norm_num) (le_abs_self _)
    · rw [lmsFfeLoop, if_neg (by norm_num), hpass]
      show (if _ then _ else _) = _
      rw [if_neg (by rw [not_lt, abs_sub_comm]; exact le_trans (by norm_num) (le_abs_self _)), lmsFfeLoop, if_neg (by norm_num), hpass]
      show (if _ then _ else _) = _
      rw [if_pos (by rw [abs_lt]; constructor <;> norm_num)]
  refine ⟨by rw [hm]; norm_num, ?_⟩
  obtain ⟨N, hN⟩ : ∃ N : ℕ, N = 99998 := ⟨_, rfl⟩
  obtain ⟨a, ha, h⟩ := hloop N
  have hN2 : 100000 = N + 1 + 1 := by rw [hN]
  unfold lmsFfeStopTest
  rw [hN2, h]
  show Except.ok (List.all [decide (|(1 : ℝ) - a| < 1 / 10 ^ 2)] id) = _
  rw [decide_eq_false (by rw [not_lt]; exact le_trans (by norm_num) ha)]
  rfl

/-- the minimum of the record of the examples -/
theorem impulse2_min (s : List ℝ) (hs : s.length = 2) :
    ffeMse [2, 0, 0, 0] [2, 1, 0, 0] [1, 1 / 2] + 1 * tapGap 2 s [1, 1 / 2] ^ 2 ≤ ffeMse [2, 0, 0, 0] [2, 1, 0, 0] s := by
  obtain ⟨a, b, rfl⟩ := List.length_eq_two.1 hs
  unfold tapGap
  rw [Real.sq_sqrt (sum_nonneg fun _ _ => sq_nonneg _)]
  norm_num [ffeMse, sum_range_succ]
  nlinarith

/-- a record that meets the hypotheses: an impulse of height 2 seen by two taps -/
example : lmsFfeStopTest (K := ℝ) 0 [2, 0, 0, 0] [2, 1, 0, 0] [-1, 1] [1, 1 / 2] [1, 0] = .ok true := by
  refine C131_test_passes [2, 0, 0, 0] [2, 1, 0, 0] [-1, 1] [1, 0] [1, 1 / 2] 2 2 1 (by norm_num) (by simp) rfl (by simp) rfl rfl
    (by norm_num) (by norm_num) (by norm_num) (by norm_num) impulse2_min ?_
  norm_num [ffeMse, sum_range_succ]

/-- the same record with learning rate 1/4 stops by a threshold of 1/100 within 27 passes -/
example : ∃ e t, lmsFfeLoop (K := ℝ) 0 [2, 0, 0, 0] [2, 1, 0, 0] [-1, 1] (1 / 4) (1 / 10 ^ 6) (1 / 100) 27 (10 ^ 3) [1, 0] = .ok (e, t) ∧
    e ≠ .count := by
  refine C131_stops [2, 0, 0, 0] [2, 1, 0, 0] [-1, 1] [1, 0] [1, 1 / 2] 2 (1 / 4) 2 1 (1 / 10 ^ 6) (1 / 100) (10 ^ 3) (by norm_num) (by simp) rfl
    (by simp) rfl rfl (by norm_num) (by norm_num) (by norm_num) (by norm_num) (by norm_num) impulse2_min (by norm_num)
    (by norm_num [ffeMse, sum_range_succ]) 25 (by norm_num [ffeMse, sum_range_succ])

end Verif
