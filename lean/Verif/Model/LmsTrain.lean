import Verif.Model.Lms
import Verif.Model.Ffe

/-! The training loop of test/test_equalization_estimation.py around `ddlms_grad`. -/

namespace Verif

/-- test/test_equalization_estimation.py 81-100: one pass of the FFE training loop. The received signal `y` is
equalized with the present taps, the first `skip` samples of input and output are dropped (line 82 and the argument of
line 90; the test drops as many samples as taps), the gradients of the taps `0 .. len(taps)-1` are taken against the
reference `d` and subtracted times the learning rate `mu`. Returned are the loss and the new taps.
Simplified: the reference is a parameter (the test aligns it by `lock_pattern_to_signal`, C11), a gradient that is NaN
(a tap that sees no sample) is read as 0; the theorems are about taps that see samples. -/
def lmsFfePass {K : Type} [Field K] [LinearOrder K] (skip : Nat) (y d levels : List K) (mu : K) (taps : List K) :
    Py (Option K × List K) := do
  let o ← ffeDfe y taps none none 1 0 none none
  let out ← ddlmsGrad (y.drop skip) (o.signal.drop skip) levels ((List.range taps.length).map (fun i : Nat => (i : Int))) []
    (some d)
  return (out.value, List.zipWith (fun t g => t - g.getD 0 * mu) taps out.ffeGrads)

/-- test/test_equalization_estimation.py 77-103: `k` passes of the FFE training loop, without its stopping rules -/
def lmsFfeTrain {K : Type} [Field K] [LinearOrder K] (skip : Nat) (y d levels : List K) (mu : K) (taps : List K) :
    Nat → Py (List K)
  | 0 => .ok taps
  | k + 1 => do
    let t ← lmsFfeTrain skip y d levels mu taps k
    let r ← lmsFfePass skip y d levels mu t
    return r.2

end Verif
