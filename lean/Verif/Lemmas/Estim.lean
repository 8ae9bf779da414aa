import Verif.Model.Estim
import Verif.Spec.Estim
import Verif.Lemmas.Ffe
import Verif.Lemmas.Delay
import Mathlib.Tactic.Ring
import Mathlib.Tactic.Linarith
import Mathlib.Algebra.BigOperators.Field

/-! Lemmas on equalizer and channel estimation. -/

set_option linter.unusedSectionVars false

open Finset

namespace Verif

open Spec (eqOutput mirrored)

variable {K : Type} [Field K] [LinearOrder K] [IsStrictOrderedRing K]

theorem pyTake_nat {α : Type} (l : List α) (n : ℕ) : pyTake l (n : ℤ) = l.take n := by
  rw [pyTake, if_pos (by omega), Int.toNat_natCast]

theorem hankel_take (c r : List K) (R : ℕ) (hR : R ≤ c.length) :
    (hankel c r).take R
      = (List.range R).map (fun i => (List.range r.length).map (fun j => (c ++ r.drop 1).getD (i + j) 0)) := by
  rw [hankel, ← List.map_take, List.take_range, Nat.min_eq_left hR]

/-- entries of a list followed by the reflection of its end -/
theorem reflect_getD (c : List K) (F m : ℕ) (hF : F ≤ c.length) (hm : m + 1 < c.length + F) :
    (c ++ (c.reverse.take F).drop 1).getD m 0 = mirrored c m := by
  rw [mirrored]
  split_ifs with h
  · rw [List.getD_append _ _ _ _ h]
  · rw [List.getD_append_right _ _ _ _ (by omega), drop_getD, take_getD _ _ _ _ (by omega),
      reverse_getD _ _ _ (by omega)]
    congr 1
    omega

theorem mirrored_drop (s : List K) (d m : ℕ) (hd : d < s.length) (hm : d + m + 2 ≤ 2 * s.length - d) :
    mirrored (s.drop d) m = mirrored s (d + m) := by
  rw [mirrored, mirrored, List.length_drop]
  by_cases h : m < s.length - d
  · rw [if_pos h, if_pos (by omega), drop_getD]
  · rw [if_neg h, if_neg (by omega), drop_getD]
    congr 1
    omega

/-- row `i` of the matrix of the equalizer estimation -/
def eqRow (reference signal : List K) (F dfe i : ℕ) : List K :=
  (List.range F).map (fun j => mirrored signal (dfe + i + j)) ++ (List.range dfe).map (fun j => -reference.getD (i + j) 0)

theorem eqMatrix_eq (reference signal : List K) (post pre dfe R : ℕ) (hl : reference.length = signal.length)
    (hc : dfe + post + pre + 1 ≤ signal.length) (hR : R + (max post dfe + pre + 1) = signal.length) :
    eqMatrix reference signal post pre dfe
      = .ok ((List.range R).map (eqRow reference signal (post + pre + 1) dfe)) := by
  have hRz : (signal.length : ℤ) - ((max post dfe + pre + 1 : ℕ) : ℤ) = (R : ℕ) := by omega
  have hstl : (signal.drop dfe).length = signal.length - dfe := List.length_drop
  have hffe : pyTake (hankel (signal.drop dfe) ((signal.drop dfe).reverse.take (post + pre + 1))) (R : ℤ)
      = (List.range R).map (fun i => (List.range (post + pre + 1)).map (fun j => mirrored signal (dfe + i + j))) := by
    rw [pyTake_nat, hankel_take _ _ _ (by omega), List.length_take, List.length_reverse, hstl,
      Nat.min_eq_left (by omega)]
    refine List.map_congr_left (fun i hi => List.map_congr_left (fun j hj => ?_))
    rw [List.mem_range] at hi hj
    rw [reflect_getD _ _ _ (by omega) (by omega), mirrored_drop _ _ _ (by omega) (by omega), Nat.add_assoc]
  rw [eqMatrix]
  simp only []
  rw [hRz, hffe]
  by_cases hd : dfe > 0
  · rw [if_pos hd]
    have hdfe : pyTake (hankel reference (reference.reverse.take dfe)) (R : ℤ)
        = (List.range R).map (fun i => (List.range dfe).map (fun j => reference.getD (i + j) 0)) := by
      rw [pyTake_nat, hankel_take _ _ _ (by omega), List.length_take, List.length_reverse,
        Nat.min_eq_left (by omega)]
      refine List.map_congr_left (fun i hi => List.map_congr_left (fun j hj => ?_))
      rw [List.mem_range] at hi hj
      rw [List.getD_append _ _ _ _ (by omega)]
    rw [hdfe, if_neg (by simp)]
    congr 1
    refine List.ext_getElem (by simp) (fun i h1 h2 => ?_)
    simp [eqRow]
  · rw [if_neg hd]
    obtain rfl : dfe = 0 := by omega
    congr 1
    refine List.map_congr_left (fun i _ => ?_)
    simp [eqRow]

theorem eqTarget_eq (reference signal : List K) (post pre dfe R : ℕ)
    (hR : R + (max post dfe + pre + 1) = signal.length) :
    eqTarget reference signal post pre dfe = (reference.drop dfe).take R := by
  have hRz : (dfe : ℤ) + ((signal.length : ℤ) - ((max post dfe + pre + 1 : ℕ) : ℤ)) = ((dfe + R : ℕ) : ℤ) := by
    push_cast; omega
  rw [eqTarget, hRz, pyTake_nat, List.drop_take, Nat.add_sub_cancel_left]

theorem eqRow_length (reference signal : List K) (F dfe i : ℕ) : (eqRow reference signal F dfe i).length = F + dfe := by
  simp [eqRow]

/-- the product of a row with the coefficients is the equalizer output of the reversed coefficients -/
theorem eqRow_dot (reference signal x : List K) (F dfe i : ℕ) (hF : 0 < F) (hx : x.length = F + dfe) :
    dotL (eqRow reference signal F dfe i) x
      = eqOutput ((x.take F).reverse) ((x.drop F).reverse) (mirrored signal) (fun t => reference.getD t 0) (dfe + i) := by
  rw [dotL_eq _ _ (by rw [eqRow_length, hx]), eqRow_length, sum_range_add, eqOutput, sub_eq_add_neg]
  have hl1 : (x.take F).reverse.length = F := by simp; omega
  have hl2 : (x.drop F).reverse.length = dfe := by simp; omega
  rw [hl1, hl2]
  congr 1
  · rw [← sum_range_reflect]
    refine sum_congr rfl (fun k hk => ?_)
    rw [mem_range] at hk
    rw [reverse_getD _ _ _ (by simp; omega), take_getD _ _ _ _ (by simp; omega), eqRow,
      List.getD_append _ _ _ _ (by simp; omega), map_range_getD _ _ _ _ (by omega)]
    rw [show (x.take F).length = F by simp; omega, mul_comm]
    congr 2
    omega
  · rw [← sum_neg_distrib, ← sum_range_reflect]
    refine sum_congr rfl (fun k hk => ?_)
    rw [mem_range] at hk
    rw [reverse_getD _ _ _ (by simp; omega), drop_getD, eqRow,
      List.getD_append_right _ _ _ _ (by simp), map_range_getD _ _ _ _ (by simp; omega)]
    rw [show (x.drop F).length = dfe by simp; omega, List.length_map, List.length_range]
    rw [show F + (dfe - 1 - k) - F = dfe - 1 - k by omega, show i + (dfe - 1 - k) = dfe + i - 1 - k by omega]
    ring

/-- the least squares system and the result of the equalizer estimation -/
theorem estimation_ok (ls : Solver K) (reference signal : List K) (post pre dfe R : ℕ) (reg : Reg) (lam : K)
    (hl : reference.length = signal.length) (hc : dfe + post + pre + 1 ≤ signal.length)
    (hR : R + (max post dfe + pre + 1) = signal.length) (x e : List K)
    (hx : x.length = post + pre + 1 + dfe)
    (hs : eqSolve ls reg lam ((List.range R).map (eqRow reference signal (post + pre + 1) dfe)) ((reference.drop dfe).take R)
      = .ok (x, e)) :
    let y := (List.range R).map (fun i => eqOutput ((x.take (post + pre + 1)).reverse) ((x.drop (post + pre + 1)).reverse)
      (mirrored signal) (fun t => reference.getD t 0) (dfe + i))
    let d := if dfe > 0 then some (x.drop (post + pre + 1)).reverse else none
    let p := (powerL (List.zipWith (· - ·) y ((reference.drop dfe).take R)), powerL y)
    equalizationEstimation ls reference signal post pre dfe false reg lam
      = .ok ⟨(x.take (post + pre + 1)).reverse, d, 1, e, p⟩ ∧
    equalizationEstimation ls reference signal post pre dfe true reg lam = (match d with
      | none => .error .typeError
      | some d => .ok ⟨((x.take (post + pre + 1)).reverse).map (· / maxL ((x.take (post + pre + 1)).reverse)),
          some (d.map (· / maxL ((x.take (post + pre + 1)).reverse))), maxL ((x.take (post + pre + 1)).reverse), e, p⟩) := by
  intro y d p
  have hffe : x.reverse.drop dfe = (x.take (post + pre + 1)).reverse := by
    rw [List.drop_reverse, hx, Nat.add_sub_cancel]
  have hd : (if dfe > 0 then some (lastN dfe x).reverse else none) = d := by
    simp only [d]
    split_ifs with h
    · rw [lastN, hx, Nat.add_sub_cancel]
    · rfl
  have hy : ((List.range R).map (eqRow reference signal (post + pre + 1) dfe)).map (fun row => dotL row x) = y := by
    rw [List.map_map]
    exact List.map_congr_left (fun i _ => eqRow_dot reference signal x (post + pre + 1) dfe i (by omega) hx)
  have hlen : (x.take (post + pre + 1)).reverse.length ≠ 0 := by
    rw [List.length_reverse, List.length_take]; omega
  have hyl : y.length = ((reference.drop dfe).take R).length := by
    simp only [y, List.length_map, List.length_range, List.length_take, List.length_drop]; omega
  constructor
  · unfold equalizationEstimation
    rw [eqMatrix_eq reference signal post pre dfe R hl hc hR]
    simp only [eqTarget_eq reference signal post pre dfe R hR]
    show (eqSolve ls reg lam _ _).bind _ = _
    rw [hs]
    show (if (x.reverse.drop dfe).length = 0 then _ else _) = _
    rw [hffe, if_neg hlen, hy, hd, if_neg (by rw [hyl]; simp)]
    rfl
  · unfold equalizationEstimation
    rw [eqMatrix_eq reference signal post pre dfe R hl hc hR]
    simp only [eqTarget_eq reference signal post pre dfe R hR]
    show (eqSolve ls reg lam _ _).bind _ = _
    rw [hs]
    show (if (x.reverse.drop dfe).length = 0 then _ else _) = _
    rw [hffe, if_neg hlen, hy, hd, if_neg (by rw [hyl]; simp)]
    simp only [if_true]
    cases d <;> rfl

theorem eqOutput_congr (f d : List K) (s s' a : ℕ → K) (n : ℕ) (h : ∀ t ≤ n + (f.length - 1), s t = s' t) :
    eqOutput f d s a n = eqOutput f d s' a n := by
  rw [eqOutput, eqOutput]
  congr 1
  exact sum_congr rfl (fun k _ => by rw [h _ (by omega)])

theorem eqOutput_div (f d : List K) (g : K) (s a : ℕ → K) (n : ℕ) :
    eqOutput (f.map (· / g)) (d.map (· / g)) s a n = eqOutput f d s a n / g := by
  simp only [eqOutput, map_div_getD, List.length_map, sub_div, sum_div]
  congr 1
  · exact sum_congr rfl (fun k _ => by ring)
  · exact sum_congr rfl (fun k _ => by ring)

theorem foldl_max_ge (l : List K) (a : K) : a ≤ l.foldl max a ∧ ∀ v ∈ l, v ≤ l.foldl max a := by
  induction l generalizing a with
  | nil => simp
  | cons x xs ih =>
    obtain ⟨h1, h2⟩ := ih (max a x)
    refine ⟨(le_max_left a x).trans h1, fun v hv => ?_⟩
    rcases List.mem_cons.1 hv with rfl | hv
    · exact (le_max_right a v).trans h1
    · exact h2 v hv

theorem foldl_max_mem (l : List K) (a : K) : l.foldl max a = a ∨ l.foldl max a ∈ l := by
  induction l generalizing a with
  | nil => simp
  | cons x xs ih =>
    rw [List.foldl_cons]
    rcases ih (max a x) with h | h
    · rcases max_choice a x with h' | h'
      · left; rw [h, h']
      · right; rw [h, h']; simp
    · right; simp [h]

theorem maxL_le (l : List K) (v : K) (hv : v ∈ l) : v ≤ maxL l := (foldl_max_ge l _).2 v hv

theorem maxL_mem (l : List K) (h : l ≠ []) : maxL l ∈ l := by
  rcases foldl_max_mem l (l.headD 0) with h' | h'
  · rw [maxL, h']
    cases l with
    | nil => exact absurd rfl h
    | cons x xs => simp
  · exact h'

end Verif
