import Verif.Model.ChanTests
import Verif.Model.Ffe

/-! Model of the project's test of the equalization estimation as a function of what it draws, in exact arithmetic. -/

namespace Verif

/-- `np.poly(roots)` for a vector of roots: `[1]` convolved with `[1, -r]` for every root -/
def npPoly {K : Type} [Ring K] (roots : List K) : List K :=
  roots.foldl (fun a r => List.zipWith (· + ·) (a ++ [0]) (0 :: a.map (-r * ·))) [1]

/-- test/auxiliary.py 75-79: the condition which ends the loop that draws the roots -/
def arAccepted (roots : List ℝ) : Prop :=
  maxL ((npPoly roots).map fun v => |v|) = (npPoly roots).getD 0 0

open Classical in
/-- test/test_equalization_estimation.py 10-47 `equalization_prbs_test`, with `_get_test_parameters_ar` (166-170) and
test/auxiliary.py 55-86 `generate_and_pass_channel_ar`. Everything the test draws is an argument: the constellation, the
accepted roots (after rounding and subtraction of one half), repetitions and cutoff. `bits` is the content of the reference
file. `signal.lfilter` (46) is the filter that `awgn_channel` applies from rest. The result is `false` when an assertion
fails. -/
noncomputable def equalizationPrbsTest (ls : Solver ℝ) (p : PrbsEnum) (bits : List Int) (c : Constellation)
    (roots : List ℝ) (reps cutoff : ℕ) : Py Bool := do
  let pattern ← genPattern c bits reps cutoff
  let ref := npPoly roots
  let (out, _) ← awgnChannel pattern [1] (.vec ref) none
  let out := out.drop (ref.length + 1)
  let precursors := argmax (ref.map fun v => |v|)
  let pnInv := decide (ref.getD precursors 0 ≠ maxL ref)
  let postcursors := ref.length - precursors - 1
  let r ← equalizationEstimationPrbs ls p out c postcursors precursors 0 false .none 0 false false false false pnInv
  if r.ffe.length ≠ ref.length then throw .valueError
  if ∀ i < ref.length, |ref.getD i 0 - r.ffe.getD i 0| < 5 / 1000 then
    let dut ← ffeDfe out r.ffe (some [0]) (some [-1, 1]) 1 0 none none
    let (y, _) ← awgnChannel out r.ffe (.vec [1]) none
    let a := y.drop r.ffe.length
    let b := dut.signal.drop r.ffe.length
    if a.length ≠ b.length then throw .valueError
    return decide (∀ i < a.length, npIsclose (a.getD i 0) (b.getD i 0))
  else return false

end Verif
