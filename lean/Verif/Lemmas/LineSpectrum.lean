import Verif.Spec.LineSpectrum
import Mathlib.Algebra.BigOperators.Ring.Finset
import Mathlib.Algebra.BigOperators.Field
import Mathlib.Data.Fintype.BigOperators
import Mathlib.Tactic.FieldSimp
import Mathlib.Tactic.Linarith
import Mathlib.Tactic.Ring

/-! Helper lemmas for `Verif/Props/LineSpectrum.lean`. -/

namespace Verif
open Spec Finset

/-- the mean of a product of functions of single bits is the product of the means -/
theorem coin_prod {K : Type*} [Field K] [CharZero K] (N : ℕ) (g : ℕ → Bool → K) :
    (∑ f : Fin N → Bool, ∏ i : Fin N, g i (f i)) / 2 ^ N = ∏ l ∈ range N, (g l false + g l true) / 2 := by
  have h := Finset.prod_univ_sum (fun _ : Fin N => (univ : Finset Bool)) (fun (i : Fin N) (b : Bool) => g i b)
  rw [Fintype.piFinset_univ] at h
  rw [← h, prod_div_distrib, prod_const, card_range, ← Fin.prod_univ_eq_prod_range (fun l => g l false + g l true)]
  congr 1
  refine prod_congr rfl fun i _ => ?_
  rw [Fintype.sum_bool, add_comm]

theorem coinMean_prod (N : ℕ) (F : (Fin N → Bool) → ℝ) (e : ℝ) (g : ℕ → Bool → ℝ) (h : ∀ f, F f = e * ∏ i : Fin N, g i (f i)) :
    coinMean N F = e * ∏ l ∈ range N, (g l false + g l true) / 2 := by
  unfold coinMean
  rw [← coin_prod, sum_congr rfl fun f _ => h f, ← mul_sum, mul_div_assoc]

theorem coinMean_sum {ι : Type*} (N : ℕ) (s : Finset ι) (F : ι → (Fin N → Bool) → ℝ) :
    coinMean N (fun f => ∑ i ∈ s, F i f) = ∑ i ∈ s, coinMean N (F i) := by
  unfold coinMean
  rw [sum_comm, sum_div]

theorem coinMean_mul (N : ℕ) (c : ℝ) (F : (Fin N → Bool) → ℝ) : coinMean N (fun f => F f * c) = coinMean N F * c := by
  unfold coinMean
  rw [← sum_mul, mul_div_right_comm]

/-- the expected periodogram from the correlations -/
theorem mean_periodogram (N n : ℕ) (x : (Fin N → Bool) → ℕ → ℝ) (ω : ℝ) :
    coinMean N (fun f => periodogram (x f) n ω)
      = ∑ j ∈ range n, ∑ k ∈ range n, coinMean N (fun f => x f j * x f k) * Real.cos (ω * ((j : ℝ) - k)) := by
  have h : (fun f : Fin N → Bool => periodogram (x f) n ω)
      = fun f => ∑ j ∈ range n, ∑ k ∈ range n, x f j * x f k * Real.cos (ω * ((j : ℝ) - k)) := by
    funext f
    unfold periodogram
    rw [sq, sq, sum_mul_sum, sum_mul_sum, ← sum_add_distrib]
    refine sum_congr rfl fun j _ => ?_
    rw [← sum_add_distrib]
    refine sum_congr rfl fun k _ => ?_
    rw [mul_sub, Real.cos_sub]
    ring
  rw [h, coinMean_sum]
  refine sum_congr rfl fun j _ => ?_
  rw [coinMean_sum]
  exact sum_congr rfl fun k _ => coinMean_mul N _ _

/-- a double sum over one more index -/
theorem double_succ (R : ℕ → ℕ → ℝ) (n : ℕ) :
    ∑ j ∈ range (n + 1), ∑ k ∈ range (n + 1), R j k
      = ∑ j ∈ range n, ∑ k ∈ range n, R j k + (∑ j ∈ range n, (R j n + R n j) + R n n) := by
  rw [sum_range_succ, sum_range_succ]
  rw [sum_congr rfl fun j _ => sum_range_succ (fun k => R j k) n, sum_add_distrib, sum_add_distrib]
  ring

/-- neighbours with correlation `r` at the places `q`, nothing else -/
theorem chain_sum (v r ω : ℝ) (q : ℕ → Prop) [DecidablePred q] (n : ℕ) (R : ℕ → ℕ → ℝ) (hd : ∀ j ≤ n, R j j = v)
    (hn : ∀ j k, j < k → k ≤ n → R j k = (if k = j + 1 ∧ q j then r else 0)) (hs : ∀ j k, j < k → k ≤ n → R k j = R j k) :
    ∑ j ∈ range (n + 1), ∑ k ∈ range (n + 1), R j k * Real.cos (ω * ((j : ℝ) - k))
      = (n + 1) * v + 2 * r * Real.cos ω * ((range n).filter q).card := by
  induction n with
  | zero => simp [hd 0 le_rfl]
  | succ n ih =>
    rw [double_succ, ih (fun j hj => hd j (by omega)) (fun j k h1 h2 => hn j k h1 (by omega)) (fun j k h1 h2 => hs j k h1 (by omega)),
      hd (n + 1) le_rfl]
    have hrow : ∑ j ∈ range (n + 1), (R j (n + 1) * Real.cos (ω * ((j : ℝ) - ((n + 1 : ℕ) : ℝ)))
        + R (n + 1) j * Real.cos (ω * (((n + 1 : ℕ) : ℝ) - (j : ℝ)))) = if q n then 2 * r * Real.cos ω else 0 := by
      rw [sum_eq_single n]
      · rw [hs n (n + 1) (by omega) le_rfl, hn n (n + 1) (by omega) le_rfl]
        have e1 : ω * ((n : ℝ) - ((n + 1 : ℕ) : ℝ)) = -ω := by push_cast; ring
        have e2 : ω * (((n + 1 : ℕ) : ℝ) - (n : ℝ)) = ω := by push_cast; ring
        rw [e1, e2, Real.cos_neg]
        by_cases h : q n
        · rw [if_pos ⟨rfl, h⟩, if_pos h]; ring
        · rw [if_neg (fun h' => h h'.2), if_neg h]; ring
      · intro j hj hne
        rw [mem_range] at hj
        rw [hs j (n + 1) (by omega) le_rfl, hn j (n + 1) (by omega) le_rfl, if_neg (by omega)]
        ring
      · intro h; exact absurd (mem_range.2 (by omega)) h
    rw [hrow, range_add_one, filter_insert]
    by_cases h : q n
    · rw [if_pos h, if_pos h, card_insert_of_notMem (by simp)]
      push_cast
      simp only [sub_self, mul_zero, Real.cos_zero]
      ring
    · rw [if_neg h, if_neg h]
      push_cast
      simp only [sub_self, mul_zero, Real.cos_zero]
      ring

end Verif
