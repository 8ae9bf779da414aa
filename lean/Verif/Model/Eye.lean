import Mathlib.Algebra.Order.Floor.Ring
import Mathlib.Analysis.SpecialFunctions.Log.Base
import Verif.Model.Delay

/-!
CommDspy/eye_diagram.py with `np.histogram`. The matrix is represented by the list of its columns.
-/

namespace Verif

section
variable {K : Type} [Field K] [LinearOrder K]

/-- `np.histogram` for equal bins: the bin of a value inside the range. `edges` are the computed bin edges
(`np.linspace`), `est` is the computed index `int((a - first) / (last - first) * n)`; NumPy then corrects it by
comparing with the edges. -/
def histIndex (edges : List K) (est : K → Nat) (a : K) : Nat :=
  let n := edges.length - 1
  let i := if est a = n then n - 1 else est a
  let i := if a < edges.getD i 0 then i - 1 else i
  if edges.getD (i + 1) 0 ≤ a ∧ i ≠ n - 1 then i + 1 else i

/-- `np.histogram` for equal bins: values outside of the first and last edge are ignored, the others counted
(`np.bincount`) -/
def histCounts (edges : List K) (est : K → Nat) (vals : List K) : List Nat :=
  let kept := vals.filter (fun a => decide (edges.getD 0 0 ≤ a ∧ a ≤ edges.getD (edges.length - 1) 0))
  (List.range (edges.length - 1)).map (fun k => (kept.filter (fun a => histIndex edges est a = k)).length)

/-- `np.linspace(lo, hi, n)` in exact arithmetic -/
def linspace (lo hi : K) (n : Nat) : List K :=
  if n = 1 then [lo] else (List.range n).map (fun k : Nat => lo + (k : K) * ((hi - lo) / ((n : K) - 1)))

/-- `np.histogram(vals, bins=q, range=[lo, hi])` in exact arithmetic: ValueError for `q = 0` and for `hi < lo`, the range
is widened by 1/2 on both sides when `lo = hi` -/
def histogram [FloorRing K] (vals : List K) (q : Nat) (lo hi : K) : Py (List Nat) :=
  if q = 0 ∨ hi < lo then .error .valueError
  else
    let lo' := if lo = hi then lo - 1 / 2 else lo
    let hi' := if lo = hi then hi + 1 / 2 else hi
    .ok (histCounts (linspace lo' hi' (q + 1)) (fun a => ⌊(a - lo') / (hi' - lo') * (q : K)⌋.toNat) vals)

/-- CommDspy/eye_diagram.py 31-36: division into unit intervals and one histogram per phase; the columns of the matrix.
`np.reshape(..., [-1, osr])` raises ValueError when `osr` is 0 or does not divide the number of samples. -/
def eyeColumns [FloorRing K] (sig : List K) (osr q : Nat) (fs : K) : Py (List (List Nat)) :=
  if osr = 0 ∨ sig.length % osr ≠ 0 then .error .valueError
  else (List.range osr).mapM (fun ii => histogram ((rows osr sig).map (fun r => r.getD ii 0)) q (-1 * fs) fs)

/-- CommDspy/eye_diagram.py 40: the entries of the final matrix, counts or logarithms -/
noncomputable def eyeEntry (logscale : Bool) (c : Nat) : ℝ := if logscale then Real.logb 10 ((c : ℝ) + 1 / 10) else (c : ℝ)

end

/-- CommDspy/eye_diagram.py 23-27: interpolation if needed, for natural oversampling ratios. `osr_diag // osr_in` raises
ZeroDivisionError for `osr_in = 0`. -/
noncomputable def eyeSignal (signal : List ℝ) (osrIn osrDiag : Nat) : Py (List ℝ) :=
  if osrIn < osrDiag then
    if osrIn = 0 then .error .zeroDivision
    else (digitalOversample (fun a => getDdCoeffs "sinc" osrIn a true) signal (osrDiag / osrIn) osrIn).map (·.1)
  else .ok signal

/-- CommDspy/eye_diagram.py 4-42 `eye_diagram` over the real numbers, for oversampling ratios and quantization that
are natural numbers: the columns of the diagram and the amplitude axis. -/
noncomputable def eyeDiagram (signal : List ℝ) (osrIn osrDiag : Nat) (fs : ℝ) (q : Nat) (logscale : Bool) :
    Py (List (List ℝ) × List ℝ) := do
  let sig ← eyeSignal signal osrIn osrDiag
  let cols ← eyeColumns sig osrDiag q fs
  return ((cols ++ cols).map (fun c => c.map (eyeEntry logscale)), linspace (-1 * fs) fs q)

end Verif
