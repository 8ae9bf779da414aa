import Verif.Model.EqTests
import Verif.Model.Lms

/-! Model of the project's tests of the least mean squares gradients (test/test_equalization_estimation.py 48-164) as functions
of what they draw, in exact arithmetic over the real numbers. -/

namespace Verif

/-- test/test_equalization_estimation.py 77-101 and 133-160, the training loop of both tests: at most `fuel` passes while the
last loss exceeds 1e-6, ended after the update when the loss changed by less than `tol`. `pass` returns loss and updated taps.
`none` is a NaN, which is not larger than 1e-6 and not close to anything. Simplified: the record of all losses is reduced to its
last entry, the histogram (100-101, 159-160) is not computed. -/
noncomputable def trainLoop (pass : List ℝ → Py (Option ℝ × List ℝ)) (tol : ℝ) : ℕ → Option ℝ → List ℝ → Py (List ℝ)
  | 0, _, t => .ok t
  | _ + 1, none, t => .ok t
  | k + 1, some l, t =>
    open Classical in
    if 1 / 10 ^ 6 < l then do
      let (loss, t') ← pass t
      if ∃ v, loss = some v ∧ |v - l| < tol then return t'
      else trainLoop pass tol k loss t'
    else .ok t

/-- test/test_equalization_estimation.py 86-88 and 143-144: one period of the pattern aligned with the slicer inputs, repeated
`ceil(len(ref_pattern) / prbs_len)` times and cut to their length -/
noncomputable def alignedReference (pattern : List ℝ) (prbsLen : ℕ) (slicerIn : List ℝ) : Py (List ℝ) := do
  let (aligned, _) ← lockPattern (pattern.take prbsLen) slicerIn
  return (tile aligned ((pattern.length + prbsLen - 1) / prbsLen)).take slicerIn.length

/-- the subtraction of the gradients times the learning rate, lines 96 and 155; a NaN gradient (of a tap that sees no sample) is
read as 0 -/
noncomputable def lmsUpdate (taps : List ℝ) (g : List (Option ℝ)) (mu : ℝ) : List ℝ :=
  List.zipWith (fun t v => t - v.getD 0 * mu) taps g

/-- test/test_equalization_estimation.py 138-155: one pass of the DFE training on the received record `y`, with `algo='soft'` if
`soft`. Simplified: the mean squared error that is only recorded (152) is not computed. -/
noncomputable def lmsDfeTestPass (soft : Bool) (pattern : List ℝ) (prbsLen : ℕ) (y levels : List ℝ) (mu : ℝ) (taps : List ℝ) :
    Py (Option ℝ × List ℝ) := do
  let o ← ffeDfe y [1] (some taps) (some levels) 1 0 none none
  let slicerIn := o.signal.drop taps.length
  let rep ← alignedReference pattern prbsLen slicerIn
  let idx := (List.range taps.length).map (fun i : ℕ => (i : ℤ) + 1)
  let out ← (if soft then softDdlmsGrad (y.drop taps.length) slicerIn levels (1 / 4) [] idx none
    else ddlmsGrad (y.drop taps.length) slicerIn levels [] idx (some rep))
  return (out.value, lmsUpdate taps out.dfeGrads mu)

/-- test/test_equalization_estimation.py 82-96: one pass of the FFE training with `pre` precursor taps -/
noncomputable def lmsFfeTestPass (soft : Bool) (pre : ℕ) (pattern : List ℝ) (prbsLen : ℕ) (y levels : List ℝ) (mu : ℝ)
    (taps : List ℝ) : Py (Option ℝ × List ℝ) := do
  let o ← ffeDfe y taps none none 1 0 none none
  let slicerIn := o.signal.drop taps.length
  let rep ← alignedReference pattern prbsLen slicerIn
  let idx := (List.range taps.length).map (fun i : ℕ => (i : ℤ) - pre)
  let out ← (if soft then softDdlmsGrad (y.drop taps.length) slicerIn levels (1 / 4) idx [] none
    else ddlmsGrad (y.drop taps.length) slicerIn levels idx [] (some rep))
  return (out.value, lmsUpdate taps out.ffeGrads mu)

open Classical in
/-- test/test_equalization_estimation.py 107-164 `equalization_lms_dfe_test`, with `_get_test_parameters_ma` (172-176) and
test/auxiliary.py 88-121 `generate_and_pass_channel_ma`. Everything the test draws is an argument: the accepted roots (after
rounding and subtraction of one half), repetitions and cutoff; the constellation is redrawn until it is OOK. `bits` is the content
of the reference file. The result is `false` when the assertion fails. -/
noncomputable def lmsDfeTest (soft : Bool) (p : PrbsEnum) (bits : List Int) (roots : List ℝ) (reps cutoff : ℕ) : Py Bool := do
  let pattern ← genPattern .ook bits reps cutoff
  let ref := (npPoly roots).map (· / (npPoly roots).getD 0 0)
  let (out, _) ← awgnChannel pattern ref (.vec [1]) none
  let y := out.drop (ref.length + 1)
  let taps ← trainLoop (lmsDfeTestPass soft pattern (2 ^ p.value - 1) y (getLevels .ook false) (5 / 1000)) (5 / 10 ^ 9) 100000
    (some 1) (List.replicate (ref.length - 1) 0)
  return decide (∀ i < ref.length - 1, |ref.getD (i + 1) 0 - taps.getD i 0| < 1 / 100)

open Classical in
/-- test/test_equalization_estimation.py 48-105 `equalization_lms_ffe_test`, with `_get_test_parameters_ar` (166-170) and
test/auxiliary.py 55-86 `generate_and_pass_channel_ar`. Arguments as for `lmsDfeTest`. -/
noncomputable def lmsFfeTest (soft : Bool) (p : PrbsEnum) (bits : List Int) (roots : List ℝ) (reps cutoff : ℕ) : Py Bool := do
  let pattern ← genPattern .ook bits reps cutoff
  let ref := npPoly roots
  let (out, _) ← awgnChannel pattern [1] (.vec ref) none
  let y := out.drop (ref.length + 1)
  let pre := argmax (ref.map fun v => |v|)
  let taps ← trainLoop (lmsFfeTestPass soft pre pattern (2 ^ p.value - 1) y (getLevels .ook false) (1 / 1000)) (2 / 10 ^ 9) 100000
    (some 1000) ((List.replicate ref.length 0).set pre 1)
  return decide (∀ i < ref.length, |ref.getD i 0 - taps.getD i 0| < 1 / 100)

end Verif
