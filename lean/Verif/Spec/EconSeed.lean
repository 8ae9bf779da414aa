import Verif.Spec.Checker

/-! Independent specification for a checker that seeds its reference from the received bits themselves. -/

namespace Verif.Spec

/-- the `n` received bits from position `s` on are error free -/
def cleanWindow (n : ℕ) (data ref : ℕ → Int) (s : ℕ) : Prop := ∀ i < n, data (s + i) = ref (s + i)

/-- the first `D` bits of the stream `ref`, inverted where the mask is set -/
def received (ref : ℕ → Int) (mask : List Bool) : List Int :=
  (List.range mask.length).map fun i => if mask.getD i false then 1 - ref i else ref i

end Verif.Spec
