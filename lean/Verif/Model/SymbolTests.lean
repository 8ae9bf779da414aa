import Verif.Model.Symbol
import Mathlib.Data.Nat.Notation

/-! Model of the project's tests of the bit-to-symbol conversions as functions of what they draw. -/

namespace Verif

/-- One entry of the matrix `bit_vec_ref` of test/test_bin_to_symbol.py 36-44: row `i`, column `j` after the optional
mirroring (38), inversion of the last and of the first column (40, 42) and inversion of everything (44). -/
def symRefBit (bits : List Int) (b : ℕ) (f : SymFlags) (i j : ℕ) : Int :=
  let x := bits.getD (b * i + (if f.bitOrderInv then b - 1 - j else j)) 0
  let x := if f.invMsb ∧ j = b - 1 then 1 - x else x
  let x := if f.invLsb ∧ j = 0 then 1 - x else x
  if f.pnInv then 1 - x else x

/-- The reference of test/test_bin_to_symbol.py 31-45. -/
def symRef (bits : List Int) (b : ℕ) (f : SymFlags) : List Int :=
  if b = 1 then (if f.pnInv then bits.map (fun x => 1 - x) else bits)
  else (List.range (bits.length / b)).map (fun i => ((List.range b).map (fun j => symRefBit bits b f i j * 2 ^ j)).sum)

/-- test/test_bin_to_symbol.py 5-46 `bin2symbol_test` as a function of the drawn bits (1 to 100 of them), the drawn
exponent `b` (line 11: between 1 and the rounded down logarithm of the length) and the drawn flags. For one bit the
interval is empty and `random.randint(1, 0)` raises ValueError. `b2s` is the tested function. -/
def bin2symbolTestOf (b2s : List Int → Nat → SymFlags → Py (List Int)) (bits : List Int) (b : ℕ) (f : SymFlags) : Py Bool := do
  if Nat.log2 bits.length < 1 then .error .valueError
  let dut ← b2s bits (2 ^ b) f
  return symRef bits b f == dut

/-- test/test_bin_to_symbol.py 5-46 `bin2symbol_test`. -/
def bin2symbolTest (bits : List Int) (b : ℕ) (f : SymFlags) : Py Bool := bin2symbolTestOf bin2symbol bits b f

/-- test/test_bin_to_symbol.py 48-80 `symbol2bin_test`, same draws (2 to 100 bits), for arbitrary conversions. -/
def symbol2binTestOf (b2s s2b : List Int → Nat → SymFlags → Py (List Int)) (bits : List Int) (b : ℕ) (f : SymFlags) : Py Bool := do
  if Nat.log2 bits.length < 1 then .error .valueError
  let s ← b2s bits (2 ^ b) f
  let dut ← s2b s (2 ^ b) f
  return (if b > 1 then bits.take (bits.length / b * b) else bits) == dut

/-- test/test_bin_to_symbol.py 48-80 `symbol2bin_test`. -/
def symbol2binTest (bits : List Int) (b : ℕ) (f : SymFlags) : Py Bool := symbol2binTestOf bin2symbol symbol2bin bits b f

end Verif
