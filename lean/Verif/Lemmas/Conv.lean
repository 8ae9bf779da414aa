import Verif.Model.Conv
import Verif.Spec.Conv
import Verif.Lemmas.LinearCode
import Verif.Lemmas.Filter
import Mathlib.Data.ZMod.Basic
import Mathlib.Algebra.CharP.Two
import Mathlib.Tactic.Push

/-! Lemmas: recursive filtering over the integers taken modulo 2 is the GF(2) feedback register. -/

namespace Verif
open Spec

theorem sum_range_eq_of_zero {M : Type*} [AddCommMonoid M] (F : ℕ → M) (A B : ℕ) (hA : ∀ d, A ≤ d → F d = 0)
    (hB : ∀ d, B ≤ d → F d = 0) : ∑ d ∈ Finset.range A, F d = ∑ d ∈ Finset.range B, F d := by
  have h : ∀ C, (∀ d, C ≤ d → F d = 0) → ∑ d ∈ Finset.range C, F d = ∑ d ∈ Finset.range (max A B), F d ∨ max A B < C := by
    intro C hC
    rcases Nat.lt_or_ge (max A B) C with h | h
    · exact Or.inr h
    · left
      apply Finset.sum_subset
      · intro d hd
        rw [Finset.mem_range] at *
        omega
      · intro d _ hd
        rw [Finset.mem_range] at hd
        exact hC d (by omega)
  rcases h A hA with h1 | h1
  · rcases h B hB with h2 | h2
    · rw [h1, h2]
    · omega
  · omega

/-- a tap sum over a history that vanishes before time 0 -/
theorem tapSum_eq (g : List Int) (v : ℤ → Int) (hv : ∀ t < 0, v t = 0) (n : ℕ) :
    tapSum g v n = ∑ d ∈ Finset.range (n + 1), g.getD d 0 * v ((n - d : ℕ) : ℤ) := by
  unfold tapSum
  rw [sum_range_eq_of_zero (fun d => g.getD d 0 * v ((n : ℤ) - d)) g.length (n + 1)]
  · refine Finset.sum_congr rfl (fun d hd => ?_)
    rw [Finset.mem_range] at hd
    rw [show ((n - d : ℕ) : ℤ) = (n : ℤ) - d by omega]
  · intro d hd
    rw [getD_of_le 0 g hd, zero_mul]
  · intro d hd
    rw [hv _ (by omega), mul_zero]

theorem tapSum_neg (g : List Int) (v : ℤ → Int) (hv : ∀ t < 0, v t = 0) (t : ℤ) (ht : t < 0) :
    tapSum g v t = 0 := by
  unfold tapSum
  apply Finset.sum_eq_zero
  intro d _
  rw [hv _ (by omega), mul_zero]

theorem cast_mod2 (a : Int) : ((a % 2 : Int) : ZMod 2) = (a : ZMod 2) := by
  rw [ZMod.intCast_eq_intCast_iff]
  exact Int.mod_modEq a 2

theorem mod2_of_cast {a b : Int} (h : (a : ZMod 2) = (b : ZMod 2)) : a % 2 = b % 2 := by
  rw [ZMod.intCast_eq_intCast_iff] at h
  exact h

/-- the register output satisfies the recursion of the filter, over GF(2) -/
theorem register_recursion (g f : List Int) (x w : ℤ → Int) (hx : ∀ t < 0, x t = 0) (hw : ∀ t < 0, w t = 0)
    (h : IsRegister f x w) (t : ℤ) :
    (tapSum g w t : ZMod 2) = (tapSum g x t : ZMod 2)
      + ∑ e ∈ Finset.range (f.length - 1), (f.getD (e + 1) 0 : ZMod 2) * (tapSum g w (t - (e + 1)) : ZMod 2) := by
  have hall : ∀ s : ℤ, (w s : ZMod 2) = (x s : ZMod 2)
      + ∑ e ∈ Finset.range (f.length - 1), (f.getD (e + 1) 0 : ZMod 2) * (w (s - (e + 1)) : ZMod 2) := by
    intro s
    rcases lt_or_ge s 0 with hs | hs
    · rw [hw s hs, hx s hs]
      rw [Finset.sum_eq_zero]
      · simp
      · intro e _
        rw [hw _ (by omega)]
        simp
    · rw [h s hs, cast_mod2]
      push_cast
      rfl
  unfold tapSum
  push_cast
  have e1 : ∀ d ∈ Finset.range g.length, (g.getD d 0 : ZMod 2) * (w (t - d) : ZMod 2)
      = (g.getD d 0 : ZMod 2) * (x (t - d) : ZMod 2)
        + ∑ e ∈ Finset.range (f.length - 1), (f.getD (e + 1) 0 : ZMod 2) * ((g.getD d 0 : ZMod 2) * (w (t - (e + 1) - d) : ZMod 2)) := by
    intro d _
    rw [hall (t - d), mul_add, Finset.mul_sum]
    congr 1
    refine Finset.sum_congr rfl (fun e _ => ?_)
    rw [show t - (d : ℤ) - (e + 1) = t - (e + 1) - d by ring]
    ring
  rw [Finset.sum_congr rfl e1, Finset.sum_add_distrib, Finset.sum_comm]
  congr 1
  refine Finset.sum_congr rfl (fun e _ => ?_)
  rw [Finset.mul_sum]

/-- the filter output modulo 2 is the register output -/
theorem iir_parity (g f x : List Int) (xs w : ℤ → Int) (hxs : ∀ n : ℕ, xs n = x.getD n 0)
    (hxn : ∀ t < 0, xs t = 0) (hw : ∀ t < 0, w t = 0) (h : IsRegister f xs w) (m : ℕ)
    (hg : g.length ≤ m + 1) (hf : f.length ≤ m + 1) (n : ℕ) (hn : n < x.length) :
    (lfRun id g f (List.replicate m 0) x).1.getD n 0 % 2 = tapSum g w n % 2 := by
  apply mod2_of_cast
  induction n using Nat.strong_induction_on with
  | _ n ih =>
    rw [lfRun_spec g f _ x (by simpa using hg) (by simpa using hf) n hn, register_recursion g f xs w hxn hw h]
    have hz : (List.replicate m (0:Int)).getD n 0 = 0 := by
      rw [List.getD_eq_getElem?_getD, List.getElem?_replicate]
      split <;> rfl
    rw [hz, tapSum_eq g xs hxn n]
    push_cast
    rw [add_zero, sub_eq_add_neg, CharTwo.neg_eq]
    congr 1
    · refine Finset.sum_congr rfl (fun d _ => ?_)
      rw [hxs]
    · rw [sum_range_eq_of_zero (fun e => (f.getD (e + 1) 0 : ZMod 2) * (tapSum g w ((n : ℤ) - (e + 1)) : ZMod 2))
        (f.length - 1) n]
      · refine Finset.sum_congr rfl (fun e he => ?_)
        rw [Finset.mem_range] at he
        rw [ih (n - 1 - e) (by omega) (by omega), show ((n - 1 - e : ℕ) : ℤ) = (n : ℤ) - (e + 1) by omega]
      · intro d hd
        rw [getD_of_le 0 f (by omega)]
        simp
      · intro d hd
        rw [tapSum_neg g w hw _ (by omega)]
        simp

end Verif
