import Verif.Model.Symbol
import Verif.Spec.Symbol
import Verif.Lemmas.ListAux
import Mathlib.Data.List.Chain
import Mathlib.Data.List.Nodup
import Mathlib.Data.List.Perm.Basic
import Mathlib.Data.List.Perm.Subperm
import Mathlib.Data.Nat.Bitwise

/-! Lemmas on the reflected binary (Gray) numbering. -/

namespace Verif
open Spec

theorem dotMsb_cons (c : Nat) (r : List Nat) : dotMsb (c :: r) = c * 2 ^ r.length + dotMsb r := by
  unfold dotMsb
  rw [List.length_cons, List.range_succ_eq_map, List.map_cons, List.map_map, List.zipWith_cons_cons,
    List.sum_cons]
  congr 3
  apply List.map_congr_left
  intro i hi
  simp only [Function.comp]
  congr 1; omega

/-- values of the reflected list, `G j` has width `j+1` -/
def G : Nat → List Nat
  | 0 => [0, 1]
  | j + 1 => G j ++ (G j).reverse.map (2 ^ (j + 1) + ·)

theorem zipWith_cons_const (c : Nat) (L : List (List Nat)) (n : Nat) (h : L.length = n) :
    List.zipWith (fun c r => c :: r) (List.replicate n c) L = L.map (c :: ·) := by
  induction L generalizing n with
  | nil => simp
  | cons r L ih =>
    obtain ⟨k, rfl⟩ : ∃ k, n = k + 1 := ⟨n - 1, by simp at h; omega⟩
    rw [List.replicate_succ, List.zipWith_cons_cons, ih k (by simpa using h)]
    rfl

theorem gray_fold (j : Nat) :
    ((List.range' 1 j).foldl grayPass [[0], [1]]).length = 2 ^ (j + 1) ∧
    (∀ r ∈ (List.range' 1 j).foldl grayPass [[0], [1]], r.length = j + 1) ∧
    ((List.range' 1 j).foldl grayPass [[0], [1]]).map dotMsb = G j := by
  induction j with
  | zero => simp [G, dotMsb]
  | succ j ih =>
    obtain ⟨h1, h2, h3⟩ := ih
    rw [List.range'_concat, List.foldl_append]
    generalize (List.range' 1 j).foldl grayPass [[0], [1]] = L at *
    have e : grayPass L (1 + 1 * j) = L.map (0 :: ·) ++ L.reverse.map (1 :: ·) := by
      unfold grayPass
      rw [List.zipWith_append (by rw [List.length_replicate, h1, show 1 + 1 * j = j + 1 by omega]), zipWith_cons_const _ _ _ (by rw [h1]; congr 1; omega),
        zipWith_cons_const _ _ _ (by rw [List.length_reverse, h1]; congr 1; omega)]
    simp only [List.foldl_cons, List.foldl_nil]
    rw [e]
    refine ⟨?_, ?_, ?_⟩
    · simp [h1, pow_succ]; omega
    · intro r hr
      simp only [List.mem_append, List.mem_map, List.mem_reverse] at hr
      rcases hr with ⟨s, hs, rfl⟩ | ⟨s, hs, rfl⟩ <;> simp [h2 s hs]
    · rw [List.map_append, G, ← h3, List.map_map, List.map_map, ← List.map_reverse, List.map_map]
      congr 1
      · apply List.map_congr_left
        intro r hr; simp [dotMsb_cons]
      · apply List.map_congr_left
        intro r hr
        simp [dotMsb_cons, h2 r (List.mem_reverse.1 hr)]

theorem G_length (j : Nat) : (G j).length = 2 ^ (j + 1) := by
  induction j with
  | zero => rfl
  | succ j ih => simp [G, ih]; rw [pow_succ 2 (j+1)]; omega

theorem G_lt (j : Nat) : ∀ x ∈ G j, x < 2 ^ (j + 1) := by
  induction j with
  | zero => decide
  | succ j ih =>
    intro x hx
    simp only [G, List.mem_append, List.mem_map, List.mem_reverse] at hx
    rw [pow_succ 2 (j+1)]
    rcases hx with hx | ⟨y, hy, rfl⟩
    · have := ih x hx; omega
    · have := ih y hy; omega

theorem G_nodup (j : Nat) : (G j).Nodup := by
  induction j with
  | zero => decide
  | succ j ih =>
    rw [G, List.nodup_append]
    refine ⟨ih, (List.nodup_reverse.2 ih).map (fun a b h => by simpa using h), ?_⟩
    intro a ha b hb
    rw [List.mem_map] at hb
    obtain ⟨y, -, rfl⟩ := hb
    have := G_lt j a ha
    omega

theorem add_eq_xor {x k : Nat} (h : x < 2 ^ k) : 2 ^ k + x = 2 ^ k ^^^ x := by
  apply Nat.eq_of_testBit_eq
  intro i
  rw [Nat.testBit_xor, Nat.testBit_two_pow]
  rcases Nat.lt_trichotomy i k with hi | hi | hi
  · rw [Nat.testBit_two_pow_add_gt hi, decide_eq_false (by omega)]; simp
  · subst hi
    rw [Nat.testBit_two_pow_add_eq, Nat.testBit_lt_two_pow h]; simp
  · rw [Nat.testBit_lt_two_pow (x := 2 ^ k + x) (i := i)]
    · rw [Nat.testBit_lt_two_pow (lt_of_lt_of_le h (Nat.pow_le_pow_right (by norm_num) hi.le))]
      simp; omega
    · calc 2 ^ k + x < 2 ^ k + 2 ^ k := by omega
        _ = 2 ^ (k + 1) := by rw [pow_succ]; omega
        _ ≤ 2 ^ i := Nat.pow_le_pow_right (by norm_num) hi

theorem OneBitApart.symm {a b : Nat} (h : OneBitApart a b) : OneBitApart b a := by
  obtain ⟨k, hk⟩ := h; exact ⟨k, by rw [Nat.xor_comm]; exact hk⟩

theorem G_head (j : Nat) : (G j).head? = some 0 := by
  induction j with
  | zero => rfl
  | succ j ih => rw [G, List.head?_append, ih]; rfl

theorem G_last (j : Nat) : (G j).getLast? = some (2 ^ j) := by
  cases j with
  | zero => rfl
  | succ j =>
    rw [G, List.getLast?_append, List.getLast?_map, List.getLast?_reverse, G_head]; simp

theorem G_chain (j : Nat) : (G j).IsChain OneBitApart := by
  induction j with
  | zero =>
    rw [G]
    simp only [List.isChain_cons_cons, List.IsChain.singleton, and_true]
    exact ⟨0, rfl⟩
  | succ j ih =>
    rw [G, List.isChain_append]
    refine ⟨ih, ?_, ?_⟩
    · rw [List.isChain_map]
      have hr : (G j).reverse.IsChain OneBitApart := by
        rw [List.isChain_reverse]
        exact ih.imp (fun a b h => OneBitApart.symm h)
      have hlt : ∀ x ∈ (G j).reverse, x < 2 ^ (j + 1) := fun x hx => G_lt j x (List.mem_reverse.1 hx)
      revert hr hlt
      generalize (G j).reverse = l
      intro hr hlt
      induction l with
      | nil => exact List.IsChain.nil
      | cons a l ihl =>
        cases l with
        | nil => exact List.IsChain.singleton _
        | cons b l =>
          rw [List.isChain_cons_cons] at hr ⊢
          refine ⟨?_, ihl hr.2 (fun x hx => hlt x (by simp at hx ⊢; tauto))⟩
          obtain ⟨k, hk⟩ := hr.1
          refine ⟨k, ?_⟩
          rw [add_eq_xor (hlt a (by simp)), add_eq_xor (hlt b (by simp)), ← hk]
          rw [show 2 ^ (j + 1) ^^^ a ^^^ (2 ^ (j + 1) ^^^ b)
            = (2 ^ (j + 1) ^^^ 2 ^ (j + 1)) ^^^ (a ^^^ b) by ac_rfl]
          simp
    · intro x hx y hy
      rw [G_last] at hx
      rw [List.head?_map, List.head?_reverse, G_last] at hy
      simp only [Option.mem_def, Option.some.injEq, Option.map_some] at hx hy
      subst hx; subst hy
      refine ⟨j + 1, ?_⟩
      rw [add_eq_xor (Nat.pow_lt_pow_right (by norm_num) (by omega)),
        show 2 ^ j ^^^ (2 ^ (j + 1) ^^^ 2 ^ j) = (2 ^ j ^^^ 2 ^ j) ^^^ 2 ^ (j + 1) by ac_rfl]
      simp

theorem le_two_pow_ceilLog2 (m : Nat) : m ≤ 2 ^ (ceilLog2 m - 1 + 1) := by
  have h := Nat.lt_log2_self (n := m)
  unfold ceilLog2
  split
  · rename_i he
    calc m = 2 ^ m.log2 := he.symm
      _ ≤ _ := Nat.pow_le_pow_right (by norm_num) (by omega)
  · rw [Nat.add_sub_cancel]; omega

theorem getGray_eq (m : Nat) (hm : 0 < m) :
    getGrayLevelVec m = .ok ((G (ceilLog2 m - 1)).take m) := by
  unfold getGrayLevelVec
  rw [if_neg (by omega)]
  simp only [(gray_fold _).2.2]

theorem ceilLog2_pow (b : Nat) : ceilLog2 (2 ^ b) = b := by
  simp [ceilLog2, Nat.log2_two_pow]

/-- closed form: entry `i` is `i xor (i/2)` -/
theorem G_getElem? (j i : Nat) (hi : i < 2 ^ (j + 1)) : (G j)[i]? = some (i ^^^ (i / 2)) := by
  induction j generalizing i with
  | zero =>
    have : i = 0 ∨ i = 1 := by simp at hi; omega
    rcases this with rfl | rfl <;> rfl
  | succ j ih =>
    rw [G]
    by_cases h : i < 2 ^ (j + 1)
    · rw [List.getElem?_append_left (by rw [G_length]; exact h), ih i h]
    · have hlen := G_length j
      rw [List.getElem?_append_right (by omega), List.getElem?_map, List.getElem?_reverse (by
        rw [hlen, pow_succ 2 (j+1)] at *; omega), hlen]
      have hp : 2 ^ (j + 1 + 1) = 2 * 2 ^ (j + 1) := by rw [pow_succ]; omega
      obtain ⟨i', hi'⟩ : ∃ i', i' = 2 ^ (j + 1) - 1 - (i - 2 ^ (j + 1)) := ⟨_, rfl⟩
      have hi'lt : i' < 2 ^ (j + 1) := by have := Nat.one_le_two_pow (n := j+1); omega
      rw [← hi', ih i' hi'lt]
      simp only [Option.map_some, Option.some.injEq]
      have hie : i = 2 ^ (j + 2) - (i' + 1) := by
        rw [show j + 2 = j + 1 + 1 from rfl]; omega
      have hx : i' ^^^ i' / 2 < 2 ^ (j + 1) := Nat.xor_lt_two_pow hi'lt (by omega)
      rw [add_eq_xor hx]
      apply Nat.eq_of_testBit_eq
      intro t
      simp only [Nat.testBit_xor, Nat.testBit_div_two]
      rw [hie, Nat.testBit_two_pow_sub_succ (by rw [pow_succ]; omega),
        Nat.testBit_two_pow_sub_succ (by rw [pow_succ]; omega), Nat.testBit_two_pow]
      rcases Nat.lt_trichotomy t (j + 1) with ht | ht | ht
      · have h1 : decide (t < j + 2) = true := by simp; omega
        have h2 : decide (t + 1 < j + 2) = true := by simp; omega
        have h3 : decide (j + 1 = t) = false := by simp; omega
        rw [h1, h2, h3]; simp
      · subst ht
        have h2 : decide (j + 1 + 1 < j + 2) = false := by simp
        have h5 : i'.testBit (j + 1) = false := Nat.testBit_lt_two_pow hi'lt
        have h6 : i'.testBit (j + 1 + 1) = false := Nat.testBit_lt_two_pow (by rw [pow_succ]; omega)
        rw [h2, h5, h6]; simp
      · have h1 : decide (t < j + 2) = false := by simp; omega
        have h2 : decide (t + 1 < j + 2) = false := by simp; omega
        have h3 : decide (j + 1 = t) = false := by simp; omega
        have hle : 2 ^ (j + 1) ≤ 2 ^ t := Nat.pow_le_pow_right (by norm_num) ht.le
        have h5 : i'.testBit t = false := Nat.testBit_lt_two_pow (by omega)
        have h6 : i'.testBit (t + 1) = false := Nat.testBit_lt_two_pow (by rw [pow_succ]; omega)
        rw [h1, h2, h3, h5, h6]; simp

end Verif
