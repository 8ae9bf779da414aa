import Mathlib.Data.Int.Basic

/-! Independent specification of framing: a signal as a function of an integer time, zero outside. -/

namespace Verif.Spec

/-- sample `t` of a signal, zero before its start and after its end -/
def sample {α : Type*} [Zero α] (x : List α) (t : ℤ) : α := if 0 ≤ t then x.getD t.toNat 0 else 0

end Verif.Spec
