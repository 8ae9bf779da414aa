import Mathlib.Algebra.Order.Field.Basic
import Mathlib.Algebra.Order.Group.Abs
import Mathlib.Analysis.SpecialFunctions.Pow.Real
import Mathlib.Data.Nat.Choose.Basic
import Verif.Model.Filter

/-!
CommDspy/rx/ctle_model.py in exact arithmetic, with the NumPy and SciPy functions it calls.
-/

namespace Verif

section
variable {K : Type} [Field K] [LinearOrder K]

/-- coefficients (constant term first) of `(x - r) * p` -/
def mulRoot (p : List K) (r : K) : List K := List.zipWith (· - ·) (0 :: p) (p.map (r * ·) ++ [0])

/-- `numpy.polynomial.Polynomial.fromroots(roots).coef`: the coefficients of the product of `x - r`, constant term
first. An empty list raises ValueError ("Coefficient array is empty"). NumPy multiplies the factors pairwise in
another order, which is the same in exact arithmetic. -/
def polyFromRoots (roots : List K) : Py (List K) :=
  if roots.length = 0 then .error .valueError else .ok (roots.foldl mulRoot [1])

/-- `np.sign` -/
def npSign (x : K) : K := if 0 < x then 1 else if x < 0 then -1 else 0

/-- the `val` loops of `scipy.signal.bilinear`: coefficient `j` of the numerator or denominator (`c` has the highest
power first) with `M` the larger of the two degrees -/
def bilinearCoef (c : List K) (M : ℕ) (fs : K) (j : ℕ) : K :=
  ((List.range c.length).map (fun i => ((List.range (i + 1)).map (fun k => ((List.range (M - i + 1)).map (fun l =>
    if k + l = j then (i.choose k : K) * ((M - i).choose l : K) * c.getD (c.length - 1 - i) 0 * (2 * fs) ^ i * (-1) ^ k
    else 0)).sum)).sum)).sum

/-- `scipy.signal.normalize`: a vanishing denominator raises ValueError, leading zeros of the denominator are dropped,
everything is divided by its first coefficient and leading numerator coefficients of magnitude at most 1e-14 are
dropped, keeping at least one. -/
def sciNormalize (num den : List K) : Py (List K × List K) :=
  match den.dropWhile (fun v => decide (v = 0)) with
  | [] => .error .valueError
  | d :: ds =>
    let n := num.map (· / d)
    let lead := (n.takeWhile (fun v => decide (|v| ≤ 1 / 10 ^ 14))).length
    .ok (n.drop (min lead (n.length - 1)), (d :: ds).map (· / d))

/-- `scipy.signal.bilinear(b, a, fs)`, highest power first -/
def bilinear (b a : List K) (fs : K) : Py (List K × List K) :=
  let M := max (b.length - 1) (a.length - 1)
  sciNormalize ((List.range (M + 1)).map (bilinearCoef b M fs)) ((List.range (M + 1)).map (bilinearCoef a M fs))

/-- CommDspy/rx/ctle_model.py 20-32, with the linear gain `10**(dc_gain/20)` as argument. A zero or pole at frequency 0
makes the constant coefficient vanish; the division by it makes all results NaN (`none`). -/
def ctleCoeffs (zeros poles : List K) (gain fs osr : K) : Py (Option (List K × List K)) := do
  let num ← polyFromRoots (zeros.map (fun z => -1 * npSign z * z))
  let den ← polyFromRoots (poles.map (fun p => -1 * npSign p * p))
  if num.getD 0 0 = 0 ∨ den.getD 0 0 = 0 then return none
  else
    let n := num.map (· / num.getD 0 0)
    let d := den.map (· / den.getD 0 0)
    let r ← bilinear (n.reverse.map (gain * ·)) d.reverse (fs * osr)
    return some r

/-- CommDspy/rx/ctle_model.py 50-54, with the linear gain: the filtered signal and, when an initial condition was given,
the final one. NaN coefficients give `none`. -/
def ctleWith (signal zeros poles : List K) (gain fs osr : K) (zi : Option (List K)) :
    Py (Option (List K × Option (List K))) := do
  match ← ctleCoeffs zeros poles gain fs osr with
  | none => return none
  | some (b, a) =>
    let r ← lfilter b a signal (zi.getD (List.replicate (max b.length a.length - 1) 0))
    return some (r.1, zi.map (fun _ => r.2))

end

/-- CommDspy/rx/ctle_model.py 5-32 `get_ctle_filter` over the real numbers -/
noncomputable def getCtleFilter (zeros poles : List ℝ) (dcGain fs osr : ℝ) : Py (Option (List ℝ × List ℝ)) :=
  ctleCoeffs zeros poles ((10 : ℝ) ^ (dcGain / 20)) fs osr

/-- CommDspy/rx/ctle_model.py 34-54 `ctle` over the real numbers -/
noncomputable def ctle (signal zeros poles : List ℝ) (dcGain fs osr : ℝ) (zi : Option (List ℝ)) :
    Py (Option (List ℝ × Option (List ℝ))) :=
  ctleWith signal zeros poles ((10 : ℝ) ^ (dcGain / 20)) fs osr zi

end Verif
