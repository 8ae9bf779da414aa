import Verif.Model.Symbol
import Mathlib.Analysis.SpecialFunctions.Log.Base

/-! `bin2symbol` with the real logarithm and the tolerance of `np.isclose`, without the shortcut
"is a power of two" of `Model/Symbol.lean`. -/

namespace Verif

/-- `np.isclose(a, b)` with the default tolerances, in exact arithmetic. -/
def npIsclose (a b : ℝ) : Prop := |a - b| ≤ 1 / 100000000 + 1 / 100000 * |b|

/-- Python `x % y` for floats, `y > 0`, in exact arithmetic. -/
noncomputable def floatMod (x y : ℝ) : ℝ := x - y * ⌊x / y⌋

open Classical in
/-- CommDspy/tx/bin2symbol.py 23-49 `bin2symbol` on the flattened bit vector, statement by statement:
`bits_per_symbol = np.log2(num_of_symbols)` (24), `trim = int(len % bits_per_symbol)` (25), the test
of line 29, the slice of line 31 and the reshape of line 32 (ValueError if the length is not a
multiple). Simplified: real arithmetic for the floats. `m = 0`: `len % -inf` is `-inf` and
`int(-inf)` raises OverflowError for non-empty data, ValueError of line 48 otherwise; `m = 1`:
`int(nan)` raises ValueError in line 25. -/
noncomputable def bin2symbolReal (bits : List Int) (m : Nat) (f : SymFlags) : Py (List Int) :=
  if m = 0 then (if bits.length > 0 then .error .overflow else .error .valueError)
  else if m = 1 then .error .valueError
  else
    let l := Real.logb 2 m
    let trim := ⌊floatMod bits.length l⌋₊
    if m > 2 ∧ npIsclose l ⌊l⌋₊ then
      let b := ⌊l⌋₊
      let trimmed := if trim > 0 then bits.take (bits.length - trim) else bits
      if trimmed.length % b = 0 then .ok ((rows b trimmed).map (fun r => dotPow2 (txRow f r)))
      else .error .valueError
    else if m = 2 then .ok (if f.pnInv then bits.map (fun x => 1 - x) else bits)
    else .error .valueError

end Verif
