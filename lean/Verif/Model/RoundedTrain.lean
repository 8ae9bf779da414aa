import Verif.Model.RoundedRx
import Verif.Model.RoundedStats
import Verif.Model.LmsTrain

/-! The FFE training loop of test/test_equalization_estimation.py with every arithmetic operation on floats rounded. -/

namespace Verif

/-- test/test_equalization_estimation.py 81-100 in rounded arithmetic, see `lmsFfePass`: one pass of the FFE training loop. `conv` is
`scipy.signal.convolve`, `sumR` is the sum of an array, every other operation is rounded by `r`. Simplified as `lmsFfePass`. -/
noncomputable def lmsFfePassR (r : ℝ → ℝ) (conv : List ℝ → List ℝ → List ℝ) (sumR : List ℝ → ℝ) (skip : Nat) (y d levels : List ℝ)
    (mu : ℝ) (taps : List ℝ) : Py (Option ℝ × List ℝ) := do
  let o ← ffeR r conv y taps none
  let out ← ddlmsGradR r sumR (y.drop skip) (o.signal.drop skip) levels ((List.range taps.length).map (fun i : Nat => (i : Int))) []
    (some d)
  return (out.value, List.zipWith (fun t g => r (t - r (g.getD 0 * mu))) taps out.ffeGrads)

/-- test/test_equalization_estimation.py 77-103 in rounded arithmetic, see `lmsFfeTrain`: `k` passes, without the stopping rules -/
noncomputable def lmsFfeTrainR (r : ℝ → ℝ) (conv : List ℝ → List ℝ → List ℝ) (sumR : List ℝ → ℝ) (skip : Nat) (y d levels : List ℝ)
    (mu : ℝ) (taps : List ℝ) : Nat → Py (List ℝ)
  | 0 => .ok taps
  | k + 1 => do
    let t ← lmsFfeTrainR r conv sumR skip y d levels mu taps k
    let o ← lmsFfePassR r conv sumR skip y d levels mu t
    return o.2

end Verif
