import Verif.Model.Symbol
import Mathlib.Data.Real.Basic
import Mathlib.Algebra.BigOperators.Group.List.Basic
import Mathlib.Algebra.BigOperators.Group.Finset.Basic

/-! Independent specification of the condition under which the test of the equalization estimation is proved to succeed. -/

open Finset

namespace Verif.Spec

/-- a filter applied to a signal -/
def firAt (a : List ℝ) (y : ℤ → ℝ) (n : ℤ) : ℝ := ∑ k ∈ range a.length, a.getD k 0 * y (n - k)

/-- bound on the sum of the magnitudes of the impulse response of the all-pole channel with these poles -/
noncomputable def poleGain (roots : List ℝ) : ℝ := (roots.map fun r => 1 / (1 - |r|)).prod

/-- the poles cannot close the eye: the interference `(gain - 1) * largest level` stays below half the distance of the levels -/
def OpenEye (c : Constellation) (roots : List ℝ) : Prop :=
  match c with
  | .nrz => poleGain roots < 2
  | .ook => poleGain roots < 3 / 2
  | .pam3 => False
  | .pam4 => poleGain roots < 4 / 3

end Verif.Spec
