import Verif.Model.Symbol
import Mathlib.Analysis.Real.Sqrt
import Mathlib.Algebra.Order.Floor.Ring
import Mathlib.Algebra.Order.Archimedean.Real.Basic

/-! Model of get_levels, CommDspy/tx/mapping.py and rx/demapping.py over the reals
(exact arithmetic; float rounding is not modelled). -/

namespace Verif

/-- CommDspy/auxiliary.py 29-49 `get_levels(constellation, full_scale)`: the levels, divided by the
root of the mean of their squares if `full_scale`. -/
noncomputable def getLevels (c : Constellation) (fullScale : Bool) : List ℝ :=
  let levels : List ℝ := (intLevels c).map (fun (z : Int) => (z : ℝ))
  if fullScale then
    levels.map (fun l => l / Real.sqrt ((levels.map (fun l => l ^ 2)).sum / levels.length))
  else levels

/-- CommDspy/tx/mapping.py 3-28 `mapping(signal, constellation, full_scale, levels, pn_inv)`.
`levels[signal]` is NumPy indexing (negative symbols count from the end, too large ones raise). -/
noncomputable def mapping (signal : List Int) (c : Constellation) (fullScale : Bool)
    (levels : Option (List ℝ)) (pnInv : Bool) : Py (List ℝ) :=
  let dflt := getLevels c fullScale
  match levels with
  | some l =>
    if l.length ≠ dflt.length then .error .valueError
    else npTake (if pnInv then l.map (fun x => -1 * x) else l) signal
  | none => npTake (if pnInv then dflt.map (fun x => -1 * x) else dflt) signal

/-- `np.round` : nearest integer, halves to the even neighbour. -/
noncomputable def roundHalfEven (x : ℝ) : Int :=
  let f := ⌊x⌋
  let r := x - f
  if r < 1 / 2 then f else if 1 / 2 < r then f + 1 else if f % 2 = 0 then f else f + 1

/-- CommDspy/rx/demapping.py 30: index of one sample. `np.min` of the level vector and the first
level difference. -/
noncomputable def demapIdx (levels : List ℝ) (s : ℝ) : Int :=
  roundHalfEven ((s - levels.foldl min (levels.getD 0 0)) / (levels.getD 1 0 - levels.getD 0 0))

/-- CommDspy/rx/demapping.py 4-34 `demapping(signal, constellation, full_scale, pn_inv)`. Returns the
result and the content of the caller's array after the call: line 27 (`signal *= -1`) works in
place. Indexing `demapped_levels[idx]` wraps negative indices. -/
noncomputable def demapping (signal : List ℝ) (c : Constellation) (fullScale pnInv : Bool) :
    Py (List Int) × List ℝ :=
  let levels := getLevels c fullScale
  let signal' := if pnInv then signal.map (fun x => x * -1) else signal
  (npTake ((List.range levels.length).map (fun (i : Nat) => (i : Int))) (signal'.map (demapIdx levels)),
    signal')

end Verif
