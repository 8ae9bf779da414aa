import Mathlib.Algebra.BigOperators.Group.Finset.Basic
import Mathlib.Data.Real.Basic

/-! Independent specification of the interference that wrong decisions leave in a decision feedback equalizer. -/

open Finset

namespace Verif.Spec

/-- what the feedback taps `h` leave of the past at symbol `n` if `d` was decided where `a` was sent -/
noncomputable def wrongPast (h : List ℝ) (a d : ℕ → ℝ) (n : ℕ) : ℝ :=
  ∑ j ∈ range h.length, if j < n then h.getD j 0 * (a (n - 1 - j) - d (n - 1 - j)) else 0

/-- how many decisions just before symbol `n` are right, counted up to `L`; before the record all are -/
noncomputable def rightRun (L : ℕ) (a d : ℕ → ℝ) : ℕ → ℕ
  | 0 => L
  | n + 1 => if d n = a n then min L (rightRun L a d n + 1) else 0

end Verif.Spec
