import Verif.Model.Symbol
import Verif.Spec.Symbol
import Verif.Lemmas.ListAux
import Mathlib.Algebra.Order.Ring.Int
import Mathlib.Tactic.Ring
import Mathlib.Tactic.Linarith
import Mathlib.Data.List.Chain

/-! Lemmas for bit/symbol conversion and Gray numbering. -/

namespace Verif
open Spec

/-! ### rows -/

theorem rows_length {α : Type*} (w : Nat) (l : List α) : (rows w l).length = l.length / w := by
  simp [rows]

theorem rows_nil {α : Type*} (w : Nat) : rows w ([] : List α) = [] := by simp [rows]

theorem rows_append {α : Type*} (w : Nat) (hw : 0 < w) (r l : List α) (hr : r.length = w) :
    rows w (r ++ l) = r :: rows w l := by
  unfold rows
  have : (r ++ l).length / w = l.length / w + 1 := by
    rw [List.length_append, hr, Nat.add_comm, Nat.add_div_right _ hw]
  rw [this, List.range_succ_eq_map, List.map_cons, List.map_map]
  congr 1
  · simp [← hr]
  · apply List.map_congr_left
    intro i _
    simp only [Function.comp, Nat.succ_mul]
    rw [List.drop_append, hr]
    have : r.drop (i * w + w) = [] := by simp [hr]
    rw [this, List.nil_append]
    congr 2; omega

/-- rows of a concatenation of width-`w` rows -/
theorem rows_flatten {α : Type*} (w : Nat) (hw : 0 < w) (m : List (List α))
    (h : ∀ r ∈ m, r.length = w) : rows w m.flatten = m := by
  induction m with
  | nil => simp [rows]
  | cons r m ih =>
    rw [List.flatten_cons, rows_append w hw _ _ (h r (by simp)), ih (fun r hr => h r (by simp [hr]))]

theorem mem_rows_length {α : Type*} (w : Nat) (l : List α) : ∀ r ∈ rows w l, r.length = w := by
  intro r hr
  simp only [rows, List.mem_map, List.mem_range] at hr
  obtain ⟨i, hi, rfl⟩ := hr
  rw [List.length_take, List.length_drop]
  have h1 : (i + 1) * w ≤ l.length / w * w := Nat.mul_le_mul_right _ hi
  have h2 := Nat.div_mul_le_self l.length w
  rw [Nat.succ_mul] at h1
  omega

theorem mem_rows_mem {α : Type*} (w : Nat) (l : List α) : ∀ r ∈ rows w l, ∀ x ∈ r, x ∈ l := by
  intro r hr x hx
  simp only [rows, List.mem_map, List.mem_range] at hr
  obtain ⟨i, hi, rfl⟩ := hr
  exact List.mem_of_mem_drop (List.mem_of_mem_take hx)

theorem flatten_rows_aux {α : Type*} (w : Nat) (hw : 0 < w) (k : Nat) (l : List α)
    (h : l.length = k * w) : (rows w l).flatten = l := by
  induction k generalizing l with
  | zero => simp at h; simp [h, rows]
  | succ k ih =>
    have e : l = l.take w ++ l.drop w := (List.take_append_drop w l).symm
    rw [Nat.succ_mul] at h
    rw [e, rows_append w hw _ _ (by simp; omega), List.flatten_cons, ih (l.drop w) (by simp; omega)]

theorem flatten_rows {α : Type*} (w : Nat) (hw : 0 < w) (l : List α) (h : l.length % w = 0) :
    (rows w l).flatten = l :=
  flatten_rows_aux w hw (l.length / w) l (by rw [Nat.div_mul_cancel (Nat.dvd_of_mod_eq_zero h)])

/-! ### per-row facts -/

theorem leVal_append (a : List Int) (x : Int) : leVal (a ++ [x]) = leVal a + x * 2 ^ a.length := by
  induction a with
  | nil => simp [leVal]
  | cons y a ih => simp only [List.cons_append, leVal, ih, List.length_cons, pow_succ]; ring

theorem dotPow2_aux (r : List Int) (k : Nat) :
    (List.zipWith (· * ·) r ((List.range r.length).map (fun i => (2 : Int) ^ (i + k)))).sum
      = 2 ^ k * leVal r := by
  induction r generalizing k with
  | nil => simp [leVal]
  | cons x r ih =>
    rw [List.length_cons, List.range_succ_eq_map, List.map_cons, List.map_map, List.zipWith_cons_cons,
      List.sum_cons, leVal]
    have := ih (k + 1)
    have e : ((List.range r.length).map ((fun i => (2:Int) ^ (i + k)) ∘ Nat.succ))
        = (List.range r.length).map (fun i => (2:Int) ^ (i + (k + 1))) := by
      apply List.map_congr_left; intro i _; simp only [Function.comp]; congr 1; omega
    rw [e, this, Nat.zero_add, pow_succ]; ring

theorem dotPow2_eq (r : List Int) : dotPow2 r = leVal r := by
  have := dotPow2_aux r 0
  simpa [dotPow2] using this

theorem leVal_range (r : List Int) (h : IsBinary r) : 0 ≤ leVal r ∧ leVal r < 2 ^ r.length := by
  induction r with
  | nil => simp [leVal]
  | cons x r ih =>
    have h1 := ih (fun y hy => h y (by simp [hy]))
    rcases h x (by simp) with rfl | rfl <;> simp only [leVal, List.length_cons, pow_succ] <;>
      constructor <;> linarith

theorem symBits_succ (b : Nat) (s : Int) : symBits (b + 1) s = s % 2 :: symBits b (s / 2) := by
  unfold symBits
  rw [List.range_succ_eq_map, List.map_cons, List.map_map]
  congr 1
  · simp
  · apply List.map_congr_left
    intro i _
    simp only [Function.comp, Nat.succ_eq_add_one, pow_succ']
    rw [Int.ediv_ediv_of_nonneg (by norm_num)]

theorem symBits_leVal (r : List Int) (h : IsBinary r) : symBits r.length (leVal r) = r := by
  induction r with
  | nil => rfl
  | cons x r ih =>
    have h1 := ih (fun y hy => h y (by simp [hy]))
    rw [List.length_cons, symBits_succ]
    have hx := h x (by simp)
    have e1 : leVal (x :: r) % 2 = x := by simp only [leVal]; rcases hx with rfl | rfl <;> omega
    have e2 : leVal (x :: r) / 2 = leVal r := by simp only [leVal]; rcases hx with rfl | rfl <;> omega
    rw [e1, e2, h1]

theorem leVal_symBits (b : Nat) (s : Int) (h0 : 0 ≤ s) (h : s < 2 ^ b) : leVal (symBits b s) = s := by
  induction b generalizing s with
  | zero => simp at h; have : s = 0 := by omega
            subst this; rfl
  | succ b ih =>
    rw [symBits_succ, leVal, ih (s / 2) (by omega) (by rw [pow_succ] at h; omega)]
    omega

theorem symBits_length (b : Nat) (s : Int) : (symBits b s).length = b := by simp [symBits]

theorem symBits_binary (b : Nat) (s : Int) : IsBinary (symBits b s) := by
  intro x hx
  simp only [symBits, List.mem_map] at hx
  obtain ⟨i, -, rfl⟩ := hx
  exact Int.emod_two_eq_zero_or_one _

theorem flipLast_length (r : List Int) : (flipLast r).length = r.length := by simp [flipLast]
theorem flipFirst_length (r : List Int) : (flipFirst r).length = r.length := by simp [flipFirst]

theorem flipLast_flipLast (r : List Int) : flipLast (flipLast r) = r := by
  apply List.ext_getElem (by simp [flipLast])
  intro i h1 h2
  simp only [flipLast, List.getElem_map, List.getElem_range, List.length_map, List.length_range]
  have h3 : i < r.length := h2
  simp [h3, List.getD_eq_getElem?_getD]
  split <;> omega

theorem flipFirst_flipFirst (r : List Int) : flipFirst (flipFirst r) = r := by
  apply List.ext_getElem (by simp [flipFirst])
  intro i h1 h2
  have h3 : i < r.length := h2
  simp [flipFirst, h3, List.getD_eq_getElem?_getD]
  split <;> omega

theorem neg_neg_row (r : List Int) : (r.map (fun x => 1 - x)).map (fun x => 1 - x) = r := by
  simp [List.map_map]

/-- first/last flips commute with each other -/
theorem flip_comm (r : List Int) : flipFirst (flipLast r) = flipLast (flipFirst r) := by
  apply List.ext_getElem (by simp [flipFirst, flipLast])
  intro i h1 h2
  simp only [flipFirst_length, flipLast_length] at h1
  simp [flipFirst, flipLast, h1, List.getD_eq_getElem?_getD]
  split <;> split <;> omega

theorem rx_tx (f : SymFlags) (r : List Int) : rxRow f (txRow f r) = r := by
  unfold rxRow txRow
  obtain ⟨b1, b2, b3, b4⟩ := f
  cases b1 <;> cases b2 <;> cases b3 <;> cases b4 <;>
    simp [flipLast_flipLast, flipFirst_flipFirst, flip_comm]

theorem tx_rx (f : SymFlags) (r : List Int) : txRow f (rxRow f r) = r := by
  unfold rxRow txRow
  obtain ⟨b1, b2, b3, b4⟩ := f
  cases b1 <;> cases b2 <;> cases b3 <;> cases b4 <;>
    simp [flipLast_flipLast, flipFirst_flipFirst, flip_comm]

theorem txRow_length (f : SymFlags) (r : List Int) : (txRow f r).length = r.length := by
  unfold txRow
  obtain ⟨b1, b2, b3, b4⟩ := f
  cases b1 <;> cases b2 <;> cases b3 <;> cases b4 <;> simp [flipFirst_length, flipLast_length]

theorem rxRow_length (f : SymFlags) (r : List Int) : (rxRow f r).length = r.length := by
  unfold rxRow
  obtain ⟨b1, b2, b3, b4⟩ := f
  cases b1 <;> cases b2 <;> cases b3 <;> cases b4 <;> simp [flipFirst_length, flipLast_length]

theorem binary_neg {r : List Int} (h : IsBinary r) : IsBinary (r.map (fun x => 1 - x)) := by
  intro x hx
  rw [List.mem_map] at hx
  obtain ⟨y, hy, rfl⟩ := hx
  rcases h y hy with rfl | rfl <;> simp

theorem binary_getD {r : List Int} (h : IsBinary r) (i : Nat) : r.getD i 0 = 0 ∨ r.getD i 0 = 1 := by
  by_cases hi : i < r.length
  · simp only [List.getD_eq_getElem?_getD, List.getElem?_eq_getElem hi, Option.getD_some]
    exact h _ (List.getElem_mem _)
  · left; simp [List.getD_eq_getElem?_getD, List.getElem?_eq_none (Nat.le_of_not_lt hi)]

theorem binary_flipLast {r : List Int} (h : IsBinary r) : IsBinary (flipLast r) := by
  intro x hx
  simp only [flipLast, List.mem_map] at hx
  obtain ⟨i, -, rfl⟩ := hx
  rcases binary_getD h i with h | h <;> split <;> rw [h] <;> decide

theorem binary_flipFirst {r : List Int} (h : IsBinary r) : IsBinary (flipFirst r) := by
  intro x hx
  simp only [flipFirst, List.mem_map] at hx
  obtain ⟨i, -, rfl⟩ := hx
  rcases binary_getD h i with h | h <;> split <;> rw [h] <;> decide

theorem binary_reverse {r : List Int} (h : IsBinary r) : IsBinary r.reverse := by
  intro x hx; exact h x (List.mem_reverse.1 hx)

theorem binary_txRow (f : SymFlags) {r : List Int} (h : IsBinary r) : IsBinary (txRow f r) := by
  unfold txRow
  simp only
  have h1 : IsBinary (if f.bitOrderInv then r.reverse else r) := by
    split
    · exact binary_reverse h
    · exact h
  generalize (if f.bitOrderInv then r.reverse else r) = r1 at *
  have h2 : IsBinary (if f.invMsb then flipLast r1 else r1) := by
    split
    · exact binary_flipLast h1
    · exact h1
  generalize (if f.invMsb then flipLast r1 else r1) = r2 at *
  have h3 : IsBinary (if f.invLsb then flipFirst r2 else r2) := by
    split
    · exact binary_flipFirst h2
    · exact h2
  generalize (if f.invLsb then flipFirst r2 else r2) = r3 at *
  split
  · exact binary_neg h3
  · exact h3

theorem binary_rxRow (f : SymFlags) {r : List Int} (h : IsBinary r) : IsBinary (rxRow f r) := by
  unfold rxRow
  simp only
  have h1 : IsBinary (if f.pnInv then r.map (fun x => 1 - x) else r) := by
    split
    · exact binary_neg h
    · exact h
  generalize (if f.pnInv then r.map (fun x => 1 - x) else r) = r1 at *
  have h2 : IsBinary (if f.invMsb then flipLast r1 else r1) := by
    split
    · exact binary_flipLast h1
    · exact h1
  generalize (if f.invMsb then flipLast r1 else r1) = r2 at *
  have h3 : IsBinary (if f.invLsb then flipFirst r2 else r2) := by
    split
    · exact binary_flipFirst h2
    · exact h2
  generalize (if f.invLsb then flipFirst r2 else r2) = r3 at *
  split
  · exact binary_reverse h3
  · exact h3

theorem pow2Exp_pow (b : Nat) : pow2Exp (2 ^ b) = some b := by
  simp [pow2Exp, Nat.log2_two_pow]

theorem pow2Exp_none {m : Nat} (h : ∀ b, m ≠ 2 ^ b) : pow2Exp m = none := by
  unfold pow2Exp
  rw [if_neg]
  intro e; exact h _ e.symm

theorem two_lt_two_pow {b : Nat} (hb : 2 ≤ b) : 2 < 2 ^ b := by
  calc 2 < 2 ^ 2 := by norm_num
    _ ≤ 2 ^ b := Nat.pow_le_pow_right (by norm_num) hb

/-- multi-bit form of `bin2symbol` -/
theorem bin2symbol_multi (bits : List Int) (b : Nat) (hb : 2 ≤ b) (f : SymFlags) :
    bin2symbol bits (2 ^ b) f = .ok ((rows b (bits.take (bits.length - bits.length % b))).map
      (fun r => leVal (txRow f r))) := by
  have h2 := two_lt_two_pow hb
  unfold bin2symbol
  rw [if_neg (by omega), pow2Exp_pow]
  simp only [gt_iff_lt, h2, if_true, dotPow2_eq]
  congr 3
  split
  · rfl
  · rw [show bits.length % b = 0 by omega]; simp

theorem bin2symbol_two (bits : List Int) (f : SymFlags) :
    bin2symbol bits 2 f = .ok (if f.pnInv then bits.map (fun x => 1 - x) else bits) := by
  unfold bin2symbol
  rw [if_neg (by omega), show (2:Nat) = 2 ^ 1 from rfl, pow2Exp_pow]
  simp

theorem take_mod_length {α : Type*} (l : List α) (b : Nat) :
    (l.take (l.length - l.length % b)).length % b = 0 := by
  have := Nat.mod_le l.length b
  rw [List.length_take, Nat.min_eq_left (by omega)]
  have := Nat.div_add_mod l.length b
  rw [show l.length - l.length % b = b * (l.length / b) by omega]
  exact Nat.mul_mod_right _ _

theorem map_symBits_one (l : List Int) (h : IsBinary l) : (l.map (symBits 1)).flatten = l := by
  induction l with
  | nil => rfl
  | cons x l ih =>
    rw [List.map_cons, List.flatten_cons, ih (fun y hy => h y (by simp [hy]))]
    rcases h x (by simp) with rfl | rfl <;> rfl

end Verif
