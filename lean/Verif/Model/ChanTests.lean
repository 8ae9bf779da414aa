import Verif.Model.EstimPrbs
import Verif.Model.PrbsData
import Verif.Model.Filter
import Verif.Model.SymbolReal

/-! Model of the project's test of the channel estimation as a function of what it draws, in exact arithmetic. -/

namespace Verif

/-- test/test_channel_estimation.py 37-53 and test/auxiliary.py 34-60 `generate_pattern` (without Gray coding, which both
switch off): the bits of the reference file, as symbols of the constellation, repeated `reps` times without the last
`cutoff` symbols (`cutoff` is drawn from 1 on). -/
noncomputable def genPattern (c : Constellation) (bits : List Int) (reps cutoff : ℕ) : Py (List ℝ) := do
  let sym ← (if c = .pam4 then bin2symbol (tile bits 2) (2 ^ 2) {} else .ok bits)
  let pattern ← mapping sym c false none false
  let all := tile pattern reps
  return all.take (all.length - cutoff)

open Classical in
/-- test/test_channel_estimation.py 8-72 `channel_estimation_prbs_test`, with everything the test draws as an argument: the
constellation, precursors and postcursors (after rounding and subtraction of one half), repetitions and cutoff. `bits` is
the content of the reference file. The result is `false` when an assertion fails; values that are not finite fail both
assertions. -/
noncomputable def channelEstimationTest (ls : Solver ℝ) (p : PrbsEnum) (bits : List Int) (c : Constellation)
    (precursors postcursors : List ℝ) (reps cutoff : ℕ) : Py Bool := do
  let pattern ← genPattern c bits reps cutoff
  let ref := precursors ++ [1] ++ postcursors
  let (out, _) ← awgnChannel pattern ref (.vec [1]) none
  let r ← channelEstimationPrbs ls p (out.drop (ref.length + 1)) c false postcursors.length precursors.length true
    false false false false
  match r with
  | none => return false
  | some (est, _) =>
    if est.length = ref.length then
      return decide (∀ i < ref.length, |est.getD i 0 - ref.getD i 0| < 1 / 10 ^ 10) &&
        decide (∀ i < ref.length, npIsclose (est.getD i 0) (ref.getD i 0))
    else throw .valueError

end Verif
