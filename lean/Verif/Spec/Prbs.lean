import Mathlib.Algebra.BigOperators.Group.Finset.Basic
import Mathlib.Data.Int.ModEq

/-! Independent specification of a linear feedback shift register stream. -/

namespace Verif.Spec

/-- `b` is the output stream of the LFSR with tap vector `poly` and start register `seed`:
each bit is the parity of the tapped previous `n` bits, where the bits before time 0 are read from
the register (`seed[0]` is the most recent one). -/
def LfsrStream (poly seed : List Int) (b : ℕ → Int) : Prop :=
  ∀ t, b t = (∑ i ∈ Finset.range poly.length,
    poly.getD i 0 * (if i < t then b (t - 1 - i) else seed.getD (i - t) 0)) % 2

end Verif.Spec
