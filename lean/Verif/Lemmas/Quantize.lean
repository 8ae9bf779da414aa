import Verif.Lemmas.Slicer
import Verif.Spec.Slicer

/-! Lemmas: the level vector of the quantizer is exactly the documented grid. -/

namespace Verif
open Spec

variable {K : Type} [Field K] [LinearOrder K] [IsStrictOrderedRing K]

theorem quantLevels_mem (t : ℕ) (ht : 1 ≤ t) (fb : ℕ) (ty : FixType) (r : ℤ × ℤ)
    (hr : codeRange t ty = some r) :
    ∃ levels : List K, quantLevels t fb ty = .ok levels ∧ r.1 ≤ r.2 ∧
      ∀ y, y ∈ levels ↔ ∃ k : Int, r.1 ≤ k ∧ k ≤ r.2 ∧ y = k * (1 / 2 ^ fb : K) := by
  have hp : (1:Int) ≤ 2 ^ (t - 1) := by
    have := Nat.one_le_two_pow (n := t - 1); exact_mod_cast this
  have h2 : (2:Int) ^ t = 2 * 2 ^ (t - 1) := by
    rw [← pow_succ']; congr 1; omega
  have hpn : 1 ≤ 2 ^ (t - 1) := Nat.one_le_two_pow
  have h2n : 2 ^ t = 2 * 2 ^ (t - 1) := by
    rw [← pow_succ']; congr 1; omega
  -- the fractional scaling
  have hfrac : ∀ l : List K, (if (fb : Int) > 0 then l.map (fun x => x / 2 ^ (fb : Int).toNat) else l)
      = l.map (fun x => x * (1 / 2 ^ fb : K)) := by
    intro l
    rcases Nat.eq_zero_or_pos fb with rfl | h
    · simp
    · rw [if_pos (by exact_mod_cast h), Int.toNat_natCast]
      apply List.map_congr_left; intro x _; ring
  have mem_scaled : ∀ (l : List K) (y : K), y ∈ l.map (fun x => x * (1 / 2 ^ fb : K)) ↔
      ∃ z ∈ l, y = z * (1 / 2 ^ fb : K) := by
    intro l y; rw [List.mem_map]
    constructor
    · rintro ⟨z, hz, rfl⟩; exact ⟨z, hz, rfl⟩
    · rintro ⟨z, hz, rfl⟩; exact ⟨z, hz, rfl⟩
  cases ty with
  | u =>
    simp only [codeRange, Option.some.injEq] at hr; subst hr
    refine ⟨((List.range (2 ^ t)).map (fun (i : ℕ) => (i : K))).map
      (fun x => x * (1 / 2 ^ fb : K)), ?_, by simp only [unsignedRange]; omega, fun y => ?_⟩
    · simp only [quantLevels, Except.map, hfrac]
    rw [mem_scaled]
    simp only [unsignedRange, List.mem_map, List.mem_range]
    constructor
    · rintro ⟨z, ⟨i, hi, rfl⟩, rfl⟩
      exact ⟨i, by omega, by have : (i:Int) < 2 ^ t := by exact_mod_cast hi
                             omega, by push_cast; rfl⟩
    · rintro ⟨k, h0, h1, rfl⟩
      refine ⟨k, ⟨k.toNat, by zify; rw [Int.toNat_of_nonneg h0]; omega, ?_⟩, rfl⟩
      rw [← Int.cast_natCast, Int.toNat_of_nonneg h0]
  | s =>
    simp only [codeRange, Option.some.injEq] at hr; subst hr
    refine ⟨((List.range (2 ^ t)).map (fun (i : ℕ) => (i : K))).map (fun l => l - 2 ^ (t - 1)) |>.map
      (fun x => x * (1 / 2 ^ fb : K)), ?_, by simp only [signedRange]; omega, fun y => ?_⟩
    · simp only [quantLevels, show t ≠ 0 by omega, if_false, Except.map, hfrac]
    rw [mem_scaled]
    simp only [signedRange, List.mem_map, List.mem_range]
    constructor
    · rintro ⟨z, ⟨w, ⟨i, hi, rfl⟩, rfl⟩, rfl⟩
      have : (i:Int) < 2 ^ t := by exact_mod_cast hi
      exact ⟨i - 2 ^ (t - 1), by omega, by omega, by push_cast; rfl⟩
    · rintro ⟨k, h0, h1, rfl⟩
      have hk : 0 ≤ k + 2 ^ (t - 1) := by omega
      refine ⟨k, ⟨((k + 2 ^ (t - 1)).toNat : K), ⟨(k + 2 ^ (t - 1)).toNat, ?_, rfl⟩, ?_⟩, rfl⟩
      · zify; rw [Int.toNat_of_nonneg hk]; omega
      · rw [← Int.cast_natCast, Int.toNat_of_nonneg hk]; push_cast; ring
  | ss =>
    simp only [codeRange, Option.some.injEq] at hr; subst hr
    refine ⟨(((List.range (2 ^ t)).map (fun (i : ℕ) => (i : K))).drop 1).map (fun l => l - 2 ^ (t - 1)) |>.map
      (fun x => x * (1 / 2 ^ fb : K)), ?_, by simp only [symmetricRange]; omega, fun y => ?_⟩
    · simp only [quantLevels, Except.map, hfrac]
    rw [mem_scaled]
    have hd : ((List.range (2 ^ t)).map (fun (i : ℕ) => (i : K))).drop 1
        = (List.range (2 ^ t - 1)).map (fun (i : ℕ) => ((i + 1 : ℕ) : K)) := by
      obtain ⟨n, hn⟩ : ∃ n, 2 ^ t = n + 1 := ⟨2 ^ t - 1, by omega⟩
      rw [hn, List.range_succ_eq_map]
      simp [Function.comp_def]
    rw [hd]
    simp only [symmetricRange, List.mem_map, List.mem_range]
    constructor
    · rintro ⟨z, ⟨w, ⟨i, hi, rfl⟩, rfl⟩, rfl⟩
      have : (i:Int) + 1 < 2 ^ t := by
        have : i + 1 < 2 ^ t := by omega
        exact_mod_cast this
      exact ⟨i + 1 - 2 ^ (t - 1), by omega, by omega, by push_cast; rfl⟩
    · rintro ⟨k, h0, h1, rfl⟩
      have hk : 0 ≤ k + 2 ^ (t - 1) - 1 := by omega
      refine ⟨k, ⟨(((k + 2 ^ (t - 1) - 1).toNat + 1 : ℕ) : K), ⟨(k + 2 ^ (t - 1) - 1).toNat, ?_, rfl⟩, ?_⟩, rfl⟩
      · have : ((k + 2 ^ (t - 1) - 1).toNat : Int) < 2 ^ t - 1 := by
          rw [Int.toNat_of_nonneg hk]; omega
        zify [Nat.one_le_two_pow (n := t)]
        exact this
      · rw [Nat.cast_add, ← Int.cast_natCast, Int.toNat_of_nonneg hk]; push_cast; ring
  | other => simp [codeRange] at hr

end Verif
