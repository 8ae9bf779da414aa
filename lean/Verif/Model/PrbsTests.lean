import Verif.Model.PrbsData
import Verif.Model.Checker

/-! Model of the project's tests of the PRBS generator and checker as functions of what they draw. The result is `true`
when every assertion holds, `false` when an assertion fails and its message can be formed. -/

namespace Verif

/-- test/test_prbs_generator.py 8-58 `prbs_gen_test` for a generator `gen` (polynomial, seed, length) on the contents `ref` of the
reference file. The assertion on line 21 compares a boolean with None and never fails. -/
def prbsGenTestOf (gen : List Int → List Int → Int → Py (List Int × List Int)) (p : PrbsEnum) (ref : List Int)
    (patternLength : ℕ) : Py Bool := do
  let initSeed : List Int := List.replicate p.value 1
  let prbsLen := 2 ^ initSeed.length - 1
  let (prbsSeq, seedDut) ← gen (getPolynomial p) initSeed patternLength
  let repNumber := (patternLength + prbsLen - 1) / prbsLen
  let mult := if repNumber > 1 then tile ref repNumber else ref
  let refPattern := mult.take patternLength
  let refSeed := if patternLength ≥ p.value then (lastN p.value refPattern).reverse
    else (refPattern.reverse ++ List.replicate p.value 1).take p.value
  return refPattern == prbsSeq && refSeed == seedDut

/-- test/test_prbs_generator.py 8-58 `prbs_gen_test`. -/
def prbsGenTest (p : PrbsEnum) (ref : List Int) (patternLength : ℕ) : Py Bool := prbsGenTestOf prbsGenerator p ref patternLength

/-- `x[mask] = 1 - x[mask]` -/
def flipBits (mask : List Bool) (x : List Int) : List Int := List.zipWith (fun m a => if m then 1 - a else a) mask x

/-- test/test_prbs_analysis.py 7-55 `prbs_analysis_test` with `econ=False`, for a checker `chk` (type, data, `init_lock`,
`loss_th`; the seed is not passed), on the file contents `ref`, the drawn shift
(0 to the length, both included) and the drawn error positions `prob < p_err`. The messages of the first three
assertions (43-45) add an integer to a string, so that a failing assertion raises TypeError instead of
AssertionError. -/
def prbsAnalysisTestOf (chk : PrbsEnum → List Int → Bool → Int → Py CheckResult) (p : PrbsEnum) (ref : List Int) (shift : ℕ)
    (errs : List Bool) (lossTh : Int) : Py Bool := do
  let prbsLen := ref.length
  let shifted := flipBits errs (ref.drop shift ++ ref.take shift)
  let refErr := flipBits errs ref
  let lostRef := decide ((errs.count true : Int) ≥ lossTh)
  let countRef := (prbsLen : Int) - errs.count true
  let r ← chk p shifted false lossTh
  if lostRef == r.lostLock && countRef == r.correctBitCount && errs == r.errorBit then
    let r' ← chk p refErr true lossTh
    return lostRef == r'.lostLock && countRef == r'.correctBitCount && errs == r'.errorBit
  else .error .typeError

/-- test/test_prbs_analysis.py 7-55 `prbs_analysis_test` with `econ=False`. -/
def prbsAnalysisTest (p : PrbsEnum) (ref : List Int) (shift : ℕ) (errs : List Bool) (lossTh : Int) : Py Bool :=
  prbsAnalysisTestOf (fun p d i th => prbsChecker p d i th none) p ref shift errs lossTh

end Verif
