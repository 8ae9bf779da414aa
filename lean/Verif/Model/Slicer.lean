import Verif.Model.Symbol
import Mathlib.Algebra.Order.Field.Basic
import Mathlib.Algebra.Order.Floor.Ring
import Mathlib.Algebra.Order.Group.Abs

/-! Model of CommDspy/rx/slicer.py and rx/quantiztion.py over an arbitrary ordered field
(exact arithmetic; float rounding is not modelled). -/

namespace Verif

variable {K : Type} [Field K] [LinearOrder K]

/-- `np.reshape(l, [y, x])` for `len(l) = y*x`. -/
def reshape2 {α : Type} (y x : Nat) (l : List α) : List (List α) :=
  (List.range y).map (fun r => (l.drop (r * x)).take x)

/-- CommDspy/rx/slicer.py 30-34 for one sample: nearest level, first one on ties
(`np.argmin` of `abs(x - levels)`). -/
def sliceOne (levels : List K) (x : K) : K :=
  levels.getD (argmin (levels.map (fun l => |x - l|))) 0

/-- The accepted arguments of `slicer`: a 1-D array, a 2-D array (with its row width; all rows have
that width), or a plain 1-D Python list. (3-D arrays are flattened by the code; not modelled.) -/
inductive SlicerArg (K : Type) where
  | vec (l : List K)
  | mat (x : Nat) (r : List (List K))
  | pyList (l : List K)

/-- CommDspy/rx/slicer.py 3-37 `slicer(slicer_in_mat, levels)`; `none` stands for `levels=None`.
* 1-D Python list: line 19 evaluates `.shape` of the list itself and raises AttributeError;
* empty `levels`: `np.argmin` over an empty axis raises ValueError;
* result kind follows the argument kind: vectors give vectors, matrices matrices (line 35: reshaped to
  `[y, x]` if `y > 0`, else flattened to a vector). -/
def slicer (a : SlicerArg K) (levels : Option (List K)) : Py (SlicerArg K) :=
  let lv := levels.getD [-3, -1, 1, 3]
  match a with
  | .pyList _ => .error .attributeError
  | .vec l => if lv.length = 0 then .error .valueError else .ok (.vec (l.map (sliceOne lv)))
  | .mat x r =>
    if lv.length = 0 then .error .valueError
    else
      let flat := r.flatten.map (sliceOne lv)
      if r.length > 0 then .ok (.mat x (reshape2 r.length x flat)) else .ok (.vec flat)

/-- `fix_point_type` of `quantize`: 'u', 's', 'ss' or anything else (e.g. the default 'unsigned'). -/
inductive FixType where
  | u | s | ss | other
deriving DecidableEq, Repr

/-- CommDspy/rx/quantiztion.py 35-47: the level vector. `total_bits = 0` with 's' fails because
`levels -= 0.5` cannot be cast to an integer array (TypeError); with 'ss' it gives an empty vector. -/
def quantLevels (totalBits : Nat) (fracBits : Int) (t : FixType) : Py (List K) :=
  let levels : List K := (List.range (2 ^ totalBits)).map (fun (i : Nat) => (i : K))
  let lv : Py (List K) := match t with
    | .u => .ok levels
    | .s => if totalBits = 0 then .error .typeError
            else .ok (levels.map (fun l => l - 2 ^ (totalBits - 1)))
    | .ss => .ok ((levels.drop 1).map (fun l => l - 2 ^ (totalBits - 1)))
    | .other => .error .valueError
  lv.map (fun l => if fracBits > 0 then l.map (fun x => x / 2 ^ fracBits.toNat) else l)

/-- CommDspy/rx/quantiztion.py 4-51 `quantize(signal, total_bits, frac_bits, fix_point_type)` on a
1-D array. -/
def quantize (signal : List K) (totalBits : Nat) (fracBits : Int) (t : FixType) : Py (List K) := do
  let levels ← quantLevels totalBits fracBits t
  if levels.length = 0 then .error .valueError
  else return signal.map (sliceOne levels)

end Verif
