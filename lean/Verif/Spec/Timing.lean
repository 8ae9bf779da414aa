import Verif.Spec.EstimPrbs
import Verif.Spec.Lms
import Verif.Model.Prbs

/-! Independent specification of what a timing error detector measures: the cursors of a channel and the contrast of a
reference. -/

open Finset

namespace Verif.Spec

/-- the tap `j` places after the main tap `pre` of the channel `h` (before it for negative `j`); zero outside -/
def cursor (h : List ℝ) (pre : ℕ) (j : ℤ) : ℝ := if 0 ≤ pre + j then h.getD (pre + j).toNat 0 else 0

/-- sum of the magnitudes of all taps but the main one -/
def isiSum (h : List ℝ) (pre : ℕ) : ℝ := ∑ k ∈ (range h.length).erase pre, |h.getD k 0|

/-- largest magnitude of a level -/
noncomputable def peakLevel (c : Constellation) (fullScale : Bool) : ℝ :=
  unitScale c fullScale * (if c = .pam4 then 3 else 1)

/-- variance of the equiprobable levels -/
noncomputable def levelVariance (c : Constellation) (fullScale : Bool) : ℝ :=
  unitScale c fullScale ^ 2 * (match c with
    | .nrz => 1
    | .ook => 1 / 4
    | .pam3 => 2 / 3
    | .pam4 => 5)

/-- the distance at which the sum modulo 2 of two neighbouring bits of a supported PRBS reappears in the sequence -/
def sumShift : PrbsEnum → ℕ
  | .prbs7 => 7
  | .prbs9 => 130
  | .prbs11 => 1029
  | .prbs13 => 7287
  | .prbs15 => 15
  | .prbs31 => 262143

/-- the distance, in symbols, at which the four-level symbols of a supported PRBS (two bits each, `bi`: most significant bit
first in time) are correlated besides the distance 0; at all others they are not, up to a constant -/
def echo (p : PrbsEnum) (bi gray : Bool) : ℕ :=
  match gray, bi, p with
  | false, _, p => 2 ^ (p.value - 1) - 1
  | true, false, .prbs7 => 3
  | true, false, .prbs9 => 191
  | true, false, .prbs11 => 514
  | true, false, .prbs13 => 3643
  | true, false, .prbs15 => 7
  | true, false, .prbs31 => 131071
  | true, true, .prbs7 => 60
  | true, true, .prbs9 => 65
  | true, true, .prbs11 => 509
  | true, true, .prbs13 => 452
  | true, true, .prbs15 => 16376
  | true, true, .prbs31 => 1073610752

/-- sign of this correlation: the inversion of the bits before Gray coding turns it around -/
def echoSign (pnPre gray : Bool) : ℝ := if gray && pnPre then -1 else 1

/-- distance of the phase `φ` from the symbol centre on the circle of `osr` phases -/
def phaseDist (osr φ : ℕ) : ℕ := min φ (osr - φ)

/-- response of the timing error to an offset of `σ` symbols for the pulse `g` -/
noncomputable def sCurve (g : ℝ → ℝ) (σ : ℝ) : ℝ := g (1 - σ) - g (1 + σ)

end Verif.Spec
