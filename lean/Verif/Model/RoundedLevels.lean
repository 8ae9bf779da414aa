import Verif.Model.Mapping
import Verif.Model.Slicer

/-! Levels, mapping, demapping, slicer and quantizer with every arithmetic operation followed by a rounding
`r` (the identity gives the exact models). Comparisons, negation, absolute values and conversions of
integers are exact in floating point and are not rounded. -/

namespace Verif

/-- CommDspy/auxiliary.py 29-49 `get_levels` in rounded arithmetic, see `getLevels`: the mean of the squared
integer levels is one division, followed by a square root and one division per level. -/
noncomputable def getLevelsR (r : ℝ → ℝ) (c : Constellation) (fullScale : Bool) : List ℝ :=
  let levels : List ℝ := (intLevels c).map (fun (z : Int) => (z : ℝ))
  if fullScale then
    levels.map (fun l => r (l / r (Real.sqrt (r ((levels.map (fun l => l ^ 2)).sum / levels.length)))))
  else levels

/-- CommDspy/tx/mapping.py 3-28 `mapping` with the default levels in rounded arithmetic, see `mapping`. -/
noncomputable def mappingR (r : ℝ → ℝ) (signal : List Int) (c : Constellation) (fullScale pnInv : Bool) :
    Py (List ℝ) :=
  let dflt := getLevelsR r c fullScale
  npTake (if pnInv then dflt.map (fun x => -1 * x) else dflt) signal

/-- CommDspy/rx/demapping.py 30 for one sample in rounded arithmetic, see `demapIdx`: two subtractions and a
division; `np.round` to integers is exact. -/
noncomputable def demapIdxR (r : ℝ → ℝ) (levels : List ℝ) (s : ℝ) : Int :=
  roundHalfEven (r (r (s - levels.foldl min (levels.getD 0 0)) / r (levels.getD 1 0 - levels.getD 0 0)))

/-- CommDspy/rx/demapping.py 4-34 `demapping` in rounded arithmetic, see `demapping`. -/
noncomputable def demappingR (r : ℝ → ℝ) (signal : List ℝ) (c : Constellation) (fullScale pnInv : Bool) :
    Py (List Int) × List ℝ :=
  let levels := getLevelsR r c fullScale
  let signal' := if pnInv then signal.map (fun x => x * -1) else signal
  (npTake ((List.range levels.length).map (fun (i : Nat) => (i : Int))) (signal'.map (demapIdxR r levels)),
    signal')

/-- CommDspy/rx/slicer.py 30-34 for one sample in rounded arithmetic, see `sliceOne`. -/
noncomputable def sliceOneR (r : ℝ → ℝ) (levels : List ℝ) (x : ℝ) : ℝ :=
  levels.getD (argmin (levels.map (fun l => |r (x - l)|))) 0

/-- CommDspy/rx/slicer.py 3-37 `slicer` on a 1-D array in rounded arithmetic, see `slicer`. -/
noncomputable def slicerR (r : ℝ → ℝ) (l : List ℝ) (levels : Option (List ℝ)) : Py (List ℝ) :=
  let lv := levels.getD [-3, -1, 1, 3]
  if lv.length = 0 then .error .valueError else .ok (l.map (sliceOneR r lv))

/-- CommDspy/rx/quantiztion.py 35-47 in rounded arithmetic, see `quantLevels`: the integer levels are exact
(integer arrays), the division by `2**frac_bits` is rounded. -/
noncomputable def quantLevelsR (r : ℝ → ℝ) (totalBits : Nat) (fracBits : Int) (t : FixType) : Py (List ℝ) :=
  (quantLevels totalBits 0 t).map
    (fun l => if fracBits > 0 then l.map (fun x => r (x / 2 ^ fracBits.toNat)) else l)

/-- CommDspy/rx/quantiztion.py 4-51 `quantize` on a 1-D array in rounded arithmetic, see `quantize`. -/
noncomputable def quantizeR (r : ℝ → ℝ) (signal : List ℝ) (totalBits : Nat) (fracBits : Int) (t : FixType) :
    Py (List ℝ) := do
  let levels ← quantLevelsR r totalBits fracBits t
  if levels.length = 0 then .error .valueError
  else return signal.map (sliceOneR r levels)

end Verif
