import Verif.Props.Symbol
import Verif.Props.Mapping
import Verif.Props.Slicer
import Verif.Spec.Checker
import Verif.Lemmas.SimLinkFull

/-! Helper lemmas for C79. -/

open Finset

namespace Verif
open Verif.Spec

theorem mismatches_sum {α : Type*} [DecidableEq α] (n : ℕ) (f g : ℕ → α) :
    mismatches n f g = ∑ i ∈ range n, if f i ≠ g i then 1 else 0 := by
  rw [mismatches, card_filter]

theorem mismatches_congr_pos {α : Type*} [DecidableEq α] (n : ℕ) (f g f' g' : ℕ → α) (hf : ∀ i < n, f i = f' i)
    (hg : ∀ i < n, g i = g' i) : mismatches n f g = mismatches n f' g' := by
  rw [mismatches_sum, mismatches_sum]
  refine sum_congr rfl (fun i hi => ?_)
  rw [hf i (mem_range.1 hi), hg i (mem_range.1 hi)]

theorem sum_range_blocks (w n : ℕ) (F : ℕ → ℕ) :
    ∑ i ∈ range (w * n), F i = ∑ i ∈ range n, ∑ r ∈ range w, F (w * i + r) := by
  induction n with
  | zero => simp
  | succ n ih => rw [Nat.mul_succ, sum_range_add, ih, sum_range_succ]

theorem mismatches_flatten (T : Int → List Int) (w : ℕ) (hT : ∀ s, (T s).length = w) (a b : List Int)
    (hl : a.length = b.length)
    (h : ∀ i < b.length, mismatches w (stream (T (a.getD i 0))) (stream (T (b.getD i 0)))
      = if a.getD i 0 ≠ b.getD i 0 then 1 else 0) :
    mismatches (w * b.length) (stream (a.map T).flatten) (stream (b.map T).flatten)
      = mismatches b.length (stream a) (stream b) := by
  rw [mismatches_sum, sum_range_blocks, mismatches_sum]
  refine sum_congr rfl (fun i hi => ?_)
  rw [mem_range] at hi
  have := h i hi
  rw [mismatches_sum] at this
  rw [show (if stream a i ≠ stream b i then 1 else 0) = if a.getD i 0 ≠ b.getD i 0 then 1 else 0 from rfl, ← this]
  refine sum_congr rfl (fun r hr => ?_)
  rw [mem_range] at hr
  have e1 : stream (a.map T).flatten (w * i + r) = stream (T (a.getD i 0)) r := flatMap_getD T w hT 0 0 a i r (by omega) hr
  have e2 : stream (b.map T).flatten (w * i + r) = stream (T (b.getD i 0)) r := flatMap_getD T w hT 0 0 b i r hi hr
  simp only [e1, e2]

/-- the Gray permutation of four levels -/
def gray4b (x : Int) : Int := if x = 2 then 3 else if x = 3 then 2 else x

theorem gray_bits_table : ∀ f1 f2 f3 f4 : Bool, ∀ a b : Fin 4, (a.val ≤ b.val + 1 ∧ b.val ≤ a.val + 1) →
    mismatches 2 (stream (rxRow ⟨f1, f2, f3, f4⟩ (symBits 2 (gray4b (a.val : Int)))))
      (stream (rxRow ⟨f1, f2, f3, f4⟩ (symBits 2 (gray4b (b.val : Int)))))
      = if (a.val : Int) ≠ (b.val : Int) then 1 else 0 := by
  decide +kernel

/-- Receiver side of a Gray coded link without PAM3: symbols are turned into bits one by one, and neighbouring symbols
differ in one bit. -/
theorem gray_chain (c : Constellation) (hc : c ≠ .pam3) (w : ℕ) (hw : numLevels c = 2 ^ w) (f : SymFlags) :
    ∃ T : Int → List Int, (∀ s, (T s).length = w) ∧
      (∀ r : List Int, (∀ x ∈ r, 0 ≤ x ∧ x < numLevels c) → (w = 1 ∨ r.length ≠ 1 ∨ f.matrixOp = false) →
        (do let s ← decodingGray r c; symbol2bin s (numLevels c) f) = .ok (r.map T).flatten) ∧
      ∀ a b : Int, 0 ≤ a ∧ a < numLevels c → 0 ≤ b ∧ b < numLevels c → |a - b| ≤ 1 →
        mismatches w (stream (T a)) (stream (T b)) = if a ≠ b then 1 else 0 := by
  have two : ∀ c : Constellation, numLevels c = 2 → (∀ r, decodingGray r c = npTake [0, 1] r) → ∃ T : Int → List Int, (∀ s, (T s).length = 1) ∧
      (∀ r : List Int, (∀ x ∈ r, 0 ≤ x ∧ x < numLevels c) →
        (do let s ← decodingGray r c; symbol2bin s (numLevels c) f) = .ok (r.map T).flatten) ∧
      ∀ a b : Int, 0 ≤ a ∧ a < numLevels c → 0 ≤ b ∧ b < numLevels c →
        mismatches 1 (stream (T a)) (stream (T b)) = if a ≠ b then 1 else 0 := by
    intro c h2 hd
    rw [h2]
    refine ⟨fun s => if f.pnInv then (symBits 1 s).map (fun x => 1 - x) else symBits 1 s, fun s => ?_, fun r hr => ?_,
      fun a b ha hb => ?_⟩
    · split_ifs <;> simp [symBits]
    · have h1 : npTake [(0 : Int), 1] r = .ok r := by
        have := npTake_ok [(0:Int), 1] r id (fun x hx => by
          obtain ⟨h1, h2⟩ := hr x hx
          interval_cases x <;> rfl)
        rwa [List.map_id] at this
      rw [hd, h1]
      exact symbol2bin_two r f
    · obtain ⟨a0, a1⟩ := ha
      obtain ⟨b0, b1⟩ := hb
      interval_cases a <;> interval_cases b <;> cases f.pnInv <;> decide
  have hw1 : numLevels c = 2 → w = 1 := by
    intro h
    rw [h] at hw
    rcases w with _ | _ | w
    · simp at hw
    · rfl
    · exfalso
      rw [Nat.pow_succ, Nat.pow_succ] at hw
      have : 0 < 2 ^ w := Nat.two_pow_pos w
      omega
  cases c with
  | pam3 => exact absurd rfl hc
  | nrz =>
    obtain rfl := hw1 rfl
    obtain ⟨T, h1, h2, h3⟩ := two .nrz rfl (fun r => rfl)
    exact ⟨T, h1, fun r hr _ => h2 r hr, fun a b ha hb _ => h3 a b ha hb⟩
  | ook =>
    obtain rfl := hw1 rfl
    obtain ⟨T, h1, h2, h3⟩ := two .ook rfl (fun r => rfl)
    exact ⟨T, h1, fun r hr _ => h2 r hr, fun a b ha hb _ => h3 a b ha hb⟩
  | pam4 =>
    have h4 : numLevels .pam4 = 4 := rfl
    have hw2 : w = 2 := by
      rw [h4] at hw
      exact (Nat.pow_right_injective (le_refl 2) (show 2 ^ 2 = 2 ^ w from hw)).symm
    subst hw2
    rw [h4]
    refine ⟨fun s => rxRow f (symBits 2 (gray4b s)), fun s => by rw [rxRow_length, symBits_length], fun r hr hs => ?_,
      fun a b ha hb hab => ?_⟩
    · have hd : decodingGray r .pam4 = .ok (r.map gray4b) :=
        npTake_ok [(0:Int), 1, 3, 2] r gray4b (fun x hx => by
          obtain ⟨h1, h2⟩ := hr x hx
          push_cast at h2
          interval_cases x <;> rfl)
      rw [hd]
      show symbol2bin (r.map gray4b) (2 ^ 2) f = _
      rw [symbol2bin_multi _ 2 (le_refl 2) f (by
        rw [List.length_map]
        rcases hs with h | h
        · omega
        · exact h), List.map_map]
      rfl
    · obtain ⟨a0, a1⟩ := ha
      obtain ⟨b0, b1⟩ := hb
      push_cast at a1 b1
      obtain ⟨n, rfl⟩ := Int.eq_ofNat_of_zero_le a0
      obtain ⟨m, rfl⟩ := Int.eq_ofNat_of_zero_le b0
      rw [abs_le] at hab
      exact gray_bits_table f.bitOrderInv f.invMsb f.invLsb f.pnInv ⟨n, by omega⟩ ⟨m, by omega⟩ ⟨by show n ≤ m + 1; omega, by show m ≤ n + 1; omega⟩

end Verif
