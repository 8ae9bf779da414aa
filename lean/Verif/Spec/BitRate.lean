import Mathlib.Data.Nat.Notation

/-! Bit labels of the levels of a constellation with at most four levels. -/

namespace Verif.Spec

/-- label of level `a`: its binary number, or its Gray code word `a xor a/2` -/
def bitLabel (gray : Bool) (a : ℕ) : ℕ := if gray then a ^^^ (a / 2) else a

/-- number of positions in which the two-bit labels of levels `a` and `b` differ -/
def bitDist (gray : Bool) (a b : ℕ) : ℕ :=
  let x := bitLabel gray a ^^^ bitLabel gray b
  x % 2 + x / 2 % 2

end Verif.Spec
