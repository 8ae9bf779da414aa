import Verif.Model.SymbolTests
import Verif.Props.Symbol
import Verif.Lemmas.Delay
import Mathlib.Data.Nat.Log

/-! C87: the project's tests of the bit-to-symbol conversions. -/

namespace Verif
open Spec

theorem txRow_getD (f : SymFlags) (r : List Int) (j : ℕ) (hj : j < r.length) :
    (txRow f r).getD j 0 =
      (let x := r.getD (if f.bitOrderInv then r.length - 1 - j else j) 0
       let x := if f.invMsb ∧ j = r.length - 1 then 1 - x else x
       let x := if f.invLsb ∧ j = 0 then 1 - x else x
       if f.pnInv then 1 - x else x) := by
  have hrev : r.reverse.getD j 0 = r.getD (r.length - 1 - j) 0 := by
    rw [List.getD_eq_getElem?_getD, List.getElem?_reverse hj, ← List.getD_eq_getElem?_getD]
  have hlast : ∀ r' : List Int, r'.length = r.length → (flipLast r').getD j 0
      = if j = r.length - 1 then 1 - r'.getD j 0 else r'.getD j 0 := by
    intro r' h'
    unfold flipLast
    rw [h', map_range_getD _ _ _ _ hj]
    by_cases h : j = r.length - 1
    · rw [if_pos h, if_pos (by omega)]
    · rw [if_neg h, if_neg (by omega)]
  have hfirst : ∀ r' : List Int, r'.length = r.length → (flipFirst r').getD j 0
      = if j = 0 then 1 - r'.getD j 0 else r'.getD j 0 := by
    intro r' h'
    unfold flipFirst
    rw [h', map_range_getD _ _ _ _ hj]
  have hpn : ∀ r' : List Int, r'.length = r.length → (r'.map (fun x => 1 - x)).getD j 0 = 1 - r'.getD j 0 := by
    intro r' h'
    simp [List.getD_eq_getElem?_getD, show j < r'.length by omega]
  obtain ⟨o, m, l, pn⟩ := f
  have hr : (if o = true then r.reverse else r).getD j 0 = r.getD (if o = true then r.length - 1 - j else j) 0 := by
    cases o
    · rfl
    · exact hrev
  have hrl : (if o = true then r.reverse else r).length = r.length := by cases o <;> simp
  unfold txRow
  simp only
  generalize (if o = true then r.reverse else r) = r0 at *
  cases m <;> cases l <;> cases pn <;>
    simp [-List.getD_eq_getElem?_getD, hlast, hfirst, hpn, hrl, hr, flipLast_length, flipFirst_length]

theorem symRef_eq (bits : List Int) (b : ℕ) (hb : 1 ≤ b) (f : SymFlags) :
    bin2symbol bits (2 ^ b) f = .ok (symRef bits b f) := by
  rcases Nat.lt_or_ge 1 b with hb2 | hb1
  · rw [bin2symbol_multi bits b hb2 f]
    congr 1
    unfold symRef
    rw [if_neg (by omega)]
    have hd := Nat.div_add_mod bits.length b
    have hlen : (bits.take (bits.length - bits.length % b)).length = bits.length / b * b := by
      rw [List.length_take, Nat.min_eq_left (by omega), Nat.mul_comm]
      omega
    unfold rows
    rw [hlen, Nat.mul_div_cancel _ (by omega), List.map_map]
    apply List.map_congr_left
    intro i hi
    rw [List.mem_range] at hi
    have hib : b * i + b ≤ bits.length := by
      have : b * (i + 1) ≤ b * (bits.length / b) := Nat.mul_le_mul_left _ hi
      rw [Nat.mul_add, Nat.mul_one] at this
      omega
    have hib2 : b * i + b ≤ bits.length - bits.length % b := by
      have : b * (i + 1) ≤ b * (bits.length / b) := Nat.mul_le_mul_left _ hi
      rw [Nat.mul_add, Nat.mul_one] at this
      omega
    have hcomm : i * b = b * i := Nat.mul_comm _ _
    simp only [Function.comp]
    generalize hr : List.take b (List.drop (i * b) (bits.take (bits.length - bits.length % b))) = r
    have hrl : r.length = b := by
      rw [← hr, List.length_take, List.length_drop, hlen]
      have : bits.length - bits.length % b = bits.length / b * b := by rw [Nat.mul_comm]; omega
      omega
    have hrv : ∀ j < b, r.getD j 0 = bits.getD (b * i + j) 0 := by
      intro j hj
      rw [← hr]
      simp only [List.getD_eq_getElem?_getD]
      rw [List.getElem?_take, if_pos hj, List.getElem?_drop, List.getElem?_take, if_pos (by omega), hcomm]
    rw [← dotPow2_eq]
    unfold dotPow2
    congr 1
    have htl : (txRow f r).length = b := by rw [txRow_length, hrl]
    rw [htl]
    apply ext_getD 0 (by simp [htl])
    intro j hj
    have hj' : j < b := by simpa [htl] using hj
    rw [map_range_getD _ _ _ _ hj']
    have h1 : (List.zipWith (· * ·) (txRow f r) ((List.range b).map (fun i => (2 : Int) ^ i))).getD j 0
        = (txRow f r).getD j 0 * 2 ^ j := by
      simp [List.getD_eq_getElem?_getD, List.getElem?_zipWith, hj', htl]
    rw [h1, txRow_getD f r j (by omega), hrl]
    unfold symRefBit
    simp only
    rw [hrv]
    split <;> omega
  · have : b = 1 := by omega
    subst this
    unfold symRef
    rw [if_pos rfl]
    unfold bin2symbol
    simp [pow2Exp]

/-- **C87**, `bin2symbol_test` succeeds for every draw of two bits or more (no bound on the length, any exponent). -/
theorem C87_bin2symbol_test (bits : List Int) (hl : 2 ≤ bits.length) (b : ℕ) (hb : 1 ≤ b) (f : SymFlags) :
    bin2symbolTest bits b f = .ok true := by
  have hlog : ¬ Nat.log2 bits.length < 1 := by
    rw [Nat.log2_lt (by omega)]
    omega
  unfold bin2symbolTest bin2symbolTestOf
  rw [if_neg hlog, symRef_eq bits b hb f]
  simp [bind, Except.bind, pure, Except.pure]

example : bin2symbolTest [1, 0, 1, 1, 0, 0, 1] 2 ⟨true, true, false, true⟩ = .ok true := by decide +kernel

/-- **C87**, `symbol2bin_test` succeeds for every draw: 2 bits or more and an exponent that is at most the logarithm of
the length. -/
theorem C87_symbol2bin_test (bits : List Int) (hbin : IsBinary bits) (b : ℕ) (hb : 1 ≤ b)
    (hl : b ≤ Nat.log2 bits.length) (f : SymFlags) : symbol2binTest bits b f = .ok true := by
  have h0 : bits.length ≠ 0 := by
    rintro h
    rw [h] at hl
    simp at hl
    omega
  have hpow : 2 ^ b ≤ bits.length := (Nat.le_log2 h0).1 hl
  unfold symbol2binTest symbol2binTestOf
  rw [if_neg (by omega)]
  have hrt := C12_bits_roundtrip_partial bits hbin b hb f (by
    rcases Nat.lt_or_ge 1 b with hb2 | hb1
    · right
      left
      have : 2 * b ≤ 2 ^ b := by
        clear hl hpow
        induction b, hb2 using Nat.le_induction with
        | base => norm_num
        | succ n hn ih =>
          have := ih (by omega)
          rw [pow_succ]
          omega
      have h2 : 2 ≤ bits.length / b := (Nat.le_div_iff_mul_le (by omega)).2 (by omega)
      omega
    · left
      omega)
  simp only [bind, Except.bind, pure, Except.pure] at hrt ⊢
  cases hs : bin2symbol bits (2 ^ b) f with
  | error e =>
    rw [hs] at hrt
    simp at hrt
  | ok s =>
    rw [hs] at hrt
    simp only at hrt ⊢
    rw [hrt]
    simp only
    congr 1
    rw [beq_iff_eq]
    have hd := Nat.div_add_mod bits.length b
    have e : bits.length / b * b = bits.length - bits.length % b := by rw [Nat.mul_comm]; omega
    split
    · rw [e]
    · have : b = 1 := by omega
      subst this
      rw [Nat.mod_one, Nat.sub_zero, List.take_length]

example : symbol2binTest [1, 0, 1, 1, 0, 0, 1] 2 ⟨true, true, false, true⟩ = .ok true := by decide +kernel

/-- **C87**, negative: `bin2symbol_test` draws lengths from 1, and for one bit it raises ValueError before it calls the
code under test, whatever that code does. -/
theorem C87_negative_one_bit (x : Int) (b : ℕ) (f : SymFlags) : bin2symbolTest [x] b f = .error .valueError := by
  unfold bin2symbolTest bin2symbolTestOf
  rfl

/-- **C87**, blind spot: no draw of `symbol2bin_test` converts exactly one symbol of two or more bits, the case in which
symbol2bin raises (`C12_negative_single_symbol`). -/
theorem C87_blind_single_symbol (bits : List Int) (b : ℕ) (hb : 2 ≤ b) (hl : b ≤ Nat.log2 bits.length) :
    2 ≤ bits.length / b := by
  have h0 : bits.length ≠ 0 := by
    rintro h
    rw [h] at hl
    simp at hl
    omega
  have hpow : 2 ^ b ≤ bits.length := (Nat.le_log2 h0).1 hl
  have : 2 * b ≤ 2 ^ b := by
    clear hl hpow
    induction b, hb using Nat.le_induction with
    | base => norm_num
    | succ n hn ih =>
      rw [pow_succ]
      omega
  exact (Nat.le_div_iff_mul_le (by omega)).2 (by omega)

example : (2 : ℕ) ≤ Nat.log2 [1, 0, 1, 1, 0].length := by decide

end Verif
