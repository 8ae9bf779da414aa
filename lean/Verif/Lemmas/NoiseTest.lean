import Verif.Model.NoiseTest
import Verif.Lemmas.Noise
import Verif.Lemmas.ChanTests

/-! Helper lemmas for the test of the noise generator. -/

open Finset

namespace Verif
open Spec (avg meanPower unbiasedVar txLevel flipBit unitScale)

theorem noise_pattern (p : PrbsEnum) (bits : List Int) (hd : csvData p = some bits) (c : Constellation) (hc : c ≠ .pam3) :
    mapping (if c = .pam4 then pairDot (tile bits 2) else bits) c false none false = .ok ((List.range (2 ^ p.value - 1)).map
      (txLevel c false false false false false (bitAt (getPolynomial p) (onesSeed p)))) := by
  have hN : 0 < 2 ^ p.value - 1 := by have := period_ge p; omega
  have hb := csvData_eq p bits hd
  have hbit := bitAt_mem (getPolynomial p) (onesSeed p)
  by_cases h4 : c = .pam4
  · subst h4
    have ht : tile bits 2 = (List.range (2 * (2 ^ p.value - 1))).map (bitAt (getPolynomial p) (onesSeed p)) := by
      have := range_getD_tile (bitAt (getPolynomial p) (onesSeed p)) (2 ^ p.value - 1) 2 (2 * (2 ^ p.value - 1)) hN
        (fun t => bitAt_mod p (onesSeed p) (by simp) t) le_rfl
      rw [← this, hb, List.take_of_length_le (by rw [tile_length]; simp)]
    have hp : pairDot (tile bits 2) = (List.range (2 ^ p.value - 1)).map fun t =>
        bitAt (getPolynomial p) (onesSeed p) (2 * t) + bitAt (getPolynomial p) (onesSeed p) (2 * t + 1) * 2 := by
      rw [pairDot, ht, List.length_map, List.length_range, Nat.mul_div_cancel_left _ (by norm_num)]
      refine List.map_congr_left fun t ht => ?_
      rw [List.mem_range] at ht
      rw [map_range_getD _ _ _ _ (by omega), map_range_getD _ _ _ _ (by omega), mul_one]
    rw [if_pos rfl, hp, mapping_valid]
    · rw [List.map_map]
      congr 1
      refine List.map_congr_left fun t _ => ?_
      simp only [Function.comp_apply]
      rcases hbit (2 * t) with h | h <;> rcases hbit (2 * t + 1) with h' | h' <;>
        simp [txLevel, h, h', flipBit, intLevels] <;> norm_num
    · intro x hx
      rw [List.mem_map] at hx
      obtain ⟨t, -, rfl⟩ := hx
      have : ((intLevels .pam4).length : ℤ) = 4 := by decide
      rw [this]
      rcases hbit (2 * t) with h | h <;> rcases hbit (2 * t + 1) with h' | h' <;> rw [h, h'] <;> constructor <;> norm_num
  · rw [if_neg h4, mapping_valid]
    · rw [hb, List.map_map]
      congr 1
      refine List.map_congr_left fun t _ => ?_
      simp only [Function.comp_apply]
      cases c with
      | nrz => rcases hbit t with h | h <;> simp [txLevel, h, flipBit, intLevels] <;> norm_num
      | ook => rcases hbit t with h | h <;> simp [txLevel, h, flipBit, intLevels]
      | pam3 => exact absurd rfl hc
      | pam4 => exact absurd rfl h4
    · intro x hx
      rw [hb, List.mem_map] at hx
      obtain ⟨t, -, rfl⟩ := hx
      have : (2 : ℤ) ≤ (intLevels c).length := by cases c <;> decide
      rcases hbit t with h | h <;> rw [h] <;> constructor <;> omega

theorem map_sum_getD (l : List ℝ) (f : ℝ → ℝ) : (l.map f).sum = ∑ n ∈ range l.length, f (l.getD n 0) := by
  induction l with
  | nil => simp
  | cons a l ih =>
    rw [List.map_cons, List.sum_cons, ih, List.length_cons, sum_range_succ']
    simp only [List.getD_cons_succ, List.getD_cons_zero]
    rw [add_comm]

theorem npVar1_eq (l : List ℝ) (hl : 2 ≤ l.length) : npVar1 l = some (unbiasedVar l.length fun n => l.getD n 0) := by
  rw [npVar1, if_neg (by omega), unbiasedVar, avg, map_sum_getD]
  have := map_sum_getD l id
  rw [List.map_id] at this
  rw [this]
  rfl

theorem unbiasedVar_scale (N : ℕ) (x y : ℕ → ℝ) (s : ℝ) (h : ∀ n < N, y n = s * x n) :
    unbiasedVar N y = s ^ 2 * unbiasedVar N x := by
  have ha : avg N y = s * avg N x := by
    rw [avg, avg, sum_congr rfl fun n hn => h n (mem_range.1 hn), ← mul_sum, mul_div_assoc]
  rw [unbiasedVar, unbiasedVar, ha, ← mul_div_assoc, mul_sum]
  congr 1
  refine sum_congr rfl fun n hn => ?_
  rw [h n (mem_range.1 hn)]
  ring

end Verif
