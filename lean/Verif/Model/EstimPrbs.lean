import Verif.Model.Estim
import Verif.Model.Checker
import Verif.Model.Mapping
import Mathlib.Data.Real.Basic

/-!
Model of `channel_estimation_prbs` (CommDspy/channel_estimation.py) and `equalization_estimation_prbs`
(CommDspy/equalization_estimation.py) over the reals (exact arithmetic). The least squares solver is a parameter.
-/

namespace Verif

/-- channel_estimation.py 60, equalization_estimation.py 72: optional Gray coding, then mapping -/
noncomputable def mapSymbols (c : Constellation) (fullScale gray pnPost : Bool) (sym : List Int) : Py (List ℝ) :=
  if gray then
    match codingGray sym c with
    | .error e => .error e
    | .ok s => mapping s c fullScale none pnPost
  else mapping sym c fullScale none pnPost

/-- channel_estimation.py 50-60, equalization_estimation.py 60-72: the reference pattern, `2 * prbs_len` PRBS bits
converted to symbols and mapped to levels. The unsupported-type branches (56-57 and 68-69) are unreachable for
members of the enumeration (see `getPolynomial`). -/
noncomputable def prbsReference (p : PrbsEnum) (c : Constellation)
    (fullScale bitOrderInv pnPre gray pnPost : Bool) : Py (List ℝ) := do
  let initSeed : List Int := List.replicate p.value 1
  let prbsLen : Nat := 2 ^ initSeed.length - 1
  let r ← prbsGenerator (getPolynomial p) initSeed (2 * prbsLen : Nat)
  let prbsq ← bin2symbol r.1 (intLevels c).length { bitOrderInv := bitOrderInv, pnInv := pnPre }
  mapSymbols c fullScale gray pnPost prbsq

/-- channel_estimation.py 69, equalization_estimation.py 77: `concatenate([arange(k, n, 1), arange(0, k, 1)])` -/
def shiftIdx (k n : Nat) : List Int := arangeZ k n ++ arangeZ 0 k

/-- channel_estimation.py 70-71, equalization_estimation.py 82, 88:
`np.mean(np.reshape(signal[:n*reps], [-1, n]), axis=0)` for `reps > 0` repetitions -/
noncomputable def periodMean (signal : List ℝ) (n reps : Nat) : List ℝ :=
  (List.range n).map (fun j => ((rows n (signal.take (n * reps))).map (fun r => r.getD j 0)).sum / (reps : ℝ))

/-- `np.var` of a non-empty list (population variance) -/
noncomputable def varL (l : List ℝ) : ℝ :=
  let mean := l.sum / (l.length : ℝ)
  (l.map (fun v => (v - mean) ^ 2)).sum / (l.length : ℝ)

/-- channel_estimation.py 79-80: the matrix of the least squares system -/
def chMatrix {K : Type} [Zero K] [DecidableEq K] (alignedExt : List K) (cols n : Nat) : List (List K) :=
  (hankel alignedExt (alignedExt.reverse.take cols)).take n

/-- channel_estimation.py 72-88 from the averaged signal on. `none`: the variance is zero, so that line 72 divides by
zero and the right-hand side is not finite. The normalisation by a largest value of zero divides by zero as well
(field convention here; the theorems exclude it). -/
noncomputable def chSolve (ls : Solver ℝ) (alignedExt mean : List ℝ) (post pre n : Nat) (normalize : Bool) :
    Py (Option (List ℝ × List ℝ)) := do
  let shifted ← npTake mean (shiftIdx post n)
  let var := varL mean
  if var = 0 then return none
  let r ← ls .none 0 (chMatrix alignedExt (post + pre + 1) n) (shifted.map (· / var))
  if normalize then return some (r.1.reverse.map (· / maxL r.1), r.2)
  else return some (r.1.reverse, r.2)

/-- CommDspy/channel_estimation.py 11-89 `channel_estimation_prbs(prbs_type, signal, constellation, prbs_full_scale,
channel_postcursor, channel_precursor, normalize, bit_order_inv, pn_inv_precoding, gray_coding, pn_inv_postcoding)`
for tap counts that are not negative. `pn_inv_postcoding` is never used by the code. The result `none` stands for
values that are not finite: a signal of less than one period has no average (NaN), see also `chSolve`. -/
noncomputable def channelEstimationPrbs (ls : Solver ℝ) (p : PrbsEnum) (signal : List ℝ) (c : Constellation)
    (fullScale : Bool) (post pre : Nat) (normalize bitOrderInv pnPre gray _pnPost : Bool) :
    Py (Option (List ℝ × List ℝ)) := do
  let prbsLen : Nat := 2 ^ p.value - 1
  let prbsCoded ← prbsReference p c fullScale bitOrderInv pnPre gray false
  let lock ← lockPattern prbsCoded signal
  let aligned := lock.1 ++ lock.1.take (post + pre + 1)
  let reps := signal.length / prbsLen
  if reps = 0 then
    if post > prbsLen then throw .indexError else return none
  chSolve ls aligned (periodMean signal prbsLen reps) post pre prbsLen normalize

/-- CommDspy/equalization_estimation.py 11-93 `equalization_estimation_prbs(prbs_type, signal, constellation,
ffe_postcursor, ffe_precursor, dfe_taps, normalize, regularization, reg_lambda, prbs_full_scale, bit_order_inv,
pn_inv_precoding, gray_coded, pn_inv_postmapping)` for tap counts that are not negative. -/
noncomputable def equalizationEstimationPrbs (ls : Solver ℝ) (p : PrbsEnum) (signal : List ℝ) (c : Constellation)
    (post pre dfe : Nat) (normalize : Bool) (reg : Reg) (lam : ℝ)
    (fullScale bitOrderInv pnPre gray pnPost : Bool) : Py (EqEst ℝ) := do
  let prbsLen : Nat := 2 ^ p.value - 1
  let prbsCoded ← prbsReference p c fullScale bitOrderInv pnPre gray pnPost
  let lock ← lockPattern prbsCoded signal
  let shifted ← npTake lock.1 (shiftIdx (max post dfe) prbsLen)
  let reps := signal.length / prbsLen
  if reps = 0 then
    equalizationEstimation ls (shifted.take signal.length) signal post pre dfe normalize reg lam
  else equalizationEstimation ls shifted (periodMean signal prbsLen reps) post pre dfe normalize reg lam

end Verif
