import Verif.Model.Ffe
import Verif.Model.Delay
import Verif.Model.Slicer
import Verif.Model.Mapping
import Verif.Model.Symbol
import Verif.Model.Checker

/-!
The receivers of test/example_scripts/example_runs.py behind the CTLE: the search over the sampling phases and the
equalization at the sample rate and at the symbol rate. Not modelled here: the plots.
-/

namespace Verif

/-- test/example_scripts/example_runs.py 181-197 and 302-319: the loop over the sampling phases; `errs` are the errors
`cand[-1]` reported for the phases (`none` for NaN, which compares false with everything), the result is the smallest
error with its phase, `none` if `err` and `phase` keep the values `inf` and -1.
Simplified: the error of a phase is not `+inf`; `-inf`, the dB value of a vanishing error, is any least element. -/
def phaseSearch {E : Type} [LT E] [DecidableLT E] : ℕ → Option (E × ℕ) → List (Option E) → Option (E × ℕ)
  | _, best, [] => best
  | ii, best, none :: t => phaseSearch (ii + 1) best t
  | ii, none, some e :: t => phaseSearch (ii + 1) (some (e, ii)) t
  | ii, some b, some e :: t => phaseSearch (ii + 1) (if e < b.1 then some (e, ii) else some b) t

variable {K : Type} [Field K] [LinearOrder K]

/-- column `phase` of `buffer(signal, osr, 0)`: test/example_scripts/example_runs.py 179 and 299, `ctle_out_mat.T[phase]`.
Simplified: `phase < osr` (NumPy raises IndexError otherwise). -/
def phaseColumn {α : Type} [Zero α] [DecidableEq α] (signal : List α) (osr phase : ℕ) : Py (List α) := do
  let mat ← buffer signal osr 0 0
  return mat.map fun row => row.getD phase 0

/-- test/example_scripts/example_runs.py 201-202, 212, 215: what `rx_example` returns; the equalizer runs at the sample rate
and its output is sampled. `ffe_len` is `len(rx_ffe)`. -/
def rxExampleReturned (osr phase : ℕ) (ffe ctleOut : List K) : Py (List K) := do
  let ups ← upsample ffe osr
  let out ← firFilter ups ctleOut
  phaseColumn (out.drop (ffe.length * osr)) osr phase

/-- test/example_scripts/example_runs.py 213-214: the alternative that is commented out; the samples of the phase are
equalized at the symbol rate. -/
def rxExampleAlternative (osr phase : ℕ) (ffe ctleOut : List K) : Py (List K) := do
  let samples ← phaseColumn ctleOut osr phase
  let out ← firFilter ffe samples
  return out.drop ffe.length

/-- `y, _, _ = ffe_dfe(...)`: ValueError unless three values are returned -/
def unpackThree : EqOut K → Py (List K)
  | .both y _ _ => .ok y
  | _ => .error .valueError

/-- test/example_scripts/example_runs.py 324-327: the slicer input of `rx_example2` at the sample rate (of which the eye is
plotted) -/
def rxExample2Plotted (osr phase : ℕ) (ffe dfe levels ctleOut : List K) : Py (List K) := do
  let ups ← upsample ffe osr
  let r ← ffeDfe ctleOut ups (some dfe) (some levels) osr phase none none
  let out ← unpackThree r
  let out := out.drop (osr * ups.length)
  return if out.length % osr ≠ 0 then out.take (out.length - out.length % osr) else out

/-- test/example_scripts/example_runs.py 299, 329, 339: the slicer input of `rx_example2` at the symbol rate (which is
returned) -/
def rxExample2Returned (osr phase : ℕ) (ffe dfe levels adcOut : List K) : Py (List K) := do
  let samples ← phaseColumn adcOut osr phase
  let r ← ffeDfe samples ffe (some dfe) (some levels) 1 0 none none
  let out ← unpackThree r
  return out.drop ffe.length

/-- test/example_scripts/example_runs.py 341-373 `rx_genie_checker` for the slicer input `rx` (of `rx_example2`): slicing,
demapping, conversion to bits (all options off), error checker that has to find the phase of the pattern itself.
`loss_th` has the default value 100 in the script; the printed `sum(error_bit)` is the number of flags. -/
noncomputable def genieChecker (p : PrbsEnum) (fullScale : Bool) (lossTh : Int) (rx : List ℝ) : Py CheckResult := do
  match ← slicer (.vec rx) (some (getLevels .pam4 fullScale)) with
  | .vec out =>
    let sym ← (demapping out .pam4 fullScale false).1
    let bits ← symbol2bin sym 4 {}
    prbsChecker p bits false lossTh none
  | _ => .error .valueError

end Verif
