import Verif.Model.LmsTrain

/-! The FFE training loop of test/test_equalization_estimation.py with its stopping rules and its assertion. -/

namespace Verif

/-- how the training loop ended: by its number of passes, since the last loss was small, or since the loss changed little -/
inductive LmsExit where
  | count
  | loss
  | step
deriving DecidableEq

/-- test/test_equalization_estimation.py 77-103: the FFE training loop with at most `n` more passes, `last` the last entry of `loss_vec`.
It ends when `last` is not above `tolLoss` (line 77), or after a pass whose loss differs from `last` by less than `tolStep` (lines 98-99).
A loss that is NaN is not above `tolLoss`. Simplified as `lmsFfePass`; the histograms (lines 101-102) are not modelled. -/
def lmsFfeLoop {K : Type} [Field K] [LinearOrder K] (skip : Nat) (y d levels : List K) (mu tolLoss tolStep : K) :
    Nat → K → List K → Py (LmsExit × List K)
  | 0, _, t => .ok (.count, t)
  | n + 1, last, t =>
    if last ≤ tolLoss then .ok (.loss, t)
    else do
      let r ← lmsFfePass skip y d levels mu t
      match r.1 with
      | none => .ok (.loss, r.2)
      | some l => if |l - last| < tolStep then .ok (.step, r.2) else lmsFfeLoop skip y d levels mu tolLoss tolStep n l r.2

/-- test/test_equalization_estimation.py 62, 72, 77-106: the loop with the constants of the test and its assertion that every tap is within
1/100 of the reference -/
def lmsFfeStopTest {K : Type} [Field K] [LinearOrder K] (skip : Nat) (y d levels ref taps : List K) : Py Bool := do
  let r ← lmsFfeLoop skip y d levels (1 / 10 ^ 3) (1 / 10 ^ 6) (2 / 10 ^ 9) 100000 (10 ^ 3) taps
  return (List.zipWith (fun a b => decide (|a - b| < 1 / 10 ^ 2)) ref r.2).all id

end Verif
