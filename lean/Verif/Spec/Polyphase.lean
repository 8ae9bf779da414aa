import Mathlib.Algebra.Field.Basic

/-! Independent specification of sampling a signal once per symbol. -/

namespace Verif.Spec

variable {F : Type*} [Zero F]

/-- The samples of `x` at `φ`, `φ + osr`, `φ + 2 osr`, ... (Python `x[φ::osr]`). -/
def everyNth (osr φ : ℕ) (x : List F) : List F :=
  (List.range ((x.length + osr - 1 - φ) / osr)).map fun k => x.getD (k * osr + φ) 0

end Verif.Spec
