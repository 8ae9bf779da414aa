import Verif.Model.SimLink
import Verif.Lemmas.Slicer
import Verif.Props.Slicer
import Verif.Lemmas.Prbs

/-! Lemmas for the analog to digital converter of the example simulation. -/

namespace Verif
open Spec

theorem sampleEvery_length {α : Type} [Zero α] (phase step : ℕ) (x : List α) :
    (sampleEvery phase step x).length = (x.length - phase + step - 1) / step := by simp [sampleEvery]

theorem sampleEvery_getElem? {α : Type} [Zero α] (phase step : ℕ) (hs : 0 < step) (x : List α) (k : ℕ) :
    (sampleEvery phase step x)[k]? = x[phase + k * step]? := by
  rw [sampleEvery, map_range_getElem?]
  have hiff : k < (x.length - phase + step - 1) / step ↔ phase + k * step < x.length := by
    rw [← Nat.succ_le_iff, Nat.le_div_iff_mul_le hs, Nat.succ_mul]
    omega
  by_cases h : k < (x.length - phase + step - 1) / step
  · rw [if_pos h]
    have h' := hiff.1 h
    simp [h']
  · rw [if_neg h, List.getElem?_eq_none (by have := mt hiff.2 h; omega)]

theorem sampleEvery_append {α : Type} [Zero α] (phase step : ℕ) (hp : phase < step) (x y : List α)
    (hx : step ∣ x.length) : sampleEvery phase step (x ++ y) = sampleEvery phase step x ++ sampleEvery phase step y := by
  have hs : 0 < step := by omega
  obtain ⟨m, hm⟩ := hx
  have hlen : (sampleEvery phase step x).length = m := by
    rw [sampleEvery_length, hm]
    rcases Nat.eq_zero_or_pos m with rfl | hmp
    · simp only [Nat.mul_zero, Nat.zero_sub, Nat.zero_add]
      exact Nat.div_eq_of_lt (by omega)
    · obtain ⟨j, rfl⟩ : ∃ j, m = j + 1 := ⟨m - 1, by omega⟩
      rw [Nat.mul_succ]
      refine Nat.div_eq_of_lt_le ?_ ?_
      · rw [Nat.succ_mul, Nat.mul_comm j]; omega
      · rw [Nat.succ_mul, Nat.succ_mul, Nat.mul_comm j]; omega
  apply List.ext_getElem?
  intro k
  rw [sampleEvery_getElem? _ _ hs]
  by_cases hk : k < m
  · have hle : phase + k * step < x.length := by
      have := Nat.mul_le_mul_left step (show k + 1 ≤ m from hk)
      rw [Nat.mul_succ] at this
      rw [hm, Nat.mul_comm k]; omega
    rw [List.getElem?_append_left hle, List.getElem?_append_left (by omega), sampleEvery_getElem? _ _ hs]
  · have hge : x.length ≤ phase + k * step := by
      rw [hm]
      have := Nat.mul_le_mul_right step (show m ≤ k by omega)
      rw [Nat.mul_comm step]; omega
    rw [List.getElem?_append_right hge, List.getElem?_append_right (by omega), sampleEvery_getElem? _ _ hs, hlen, hm]
    congr 1
    have h1 : k * step = (k - m) * step + step * m := by
      rw [Nat.mul_comm step, ← Nat.add_mul]; congr 1; omega
    rw [h1]; omega

end Verif
