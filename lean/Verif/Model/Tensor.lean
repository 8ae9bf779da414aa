import Verif.Model.Linear
import Verif.Model.Mapping
import Verif.Model.Slicer

/-! Model of the functions which accept NumPy arrays of any rank. An array is its shape together with its entries in C
order (last index fastest), which is the order in which `np.reshape` reads and writes. Arrays that are not C contiguous
have the same entries in that order, strides are not modelled. Integer overflow beyond 64 bits is not modelled. -/

namespace Verif

/-- A NumPy array: shape and entries in C order. -/
structure Arr (α : Type) where
  shape : List ℕ
  data : List α
deriving DecidableEq, Repr

/-- CommDspy/auxiliary.py 160-162 `bin2uint` on an array of any rank: the weights follow `bin_tensor.shape[-1]` (IndexError
for a 0-d array), `bin_tensor.dot(weights)` sums over the last axis, which disappears. -/
def bin2uintArr (a : Arr Int) : Py (Arr Int) :=
  match a.shape.getLast? with
  | none => .error .indexError
  | some n => .ok ⟨a.shape.dropLast, (reshape2 a.shape.dropLast.prod n a.data).map bin2uint⟩

/-- CommDspy/auxiliary.py 164-169 `uint2bin` on an array of any rank: flattened, one row of bits per integer, reshaped to the
old shape with one more axis. -/
def uint2binArr (a : Arr Int) (nBits : ℕ) : Arr Int :=
  ⟨a.shape ++ [nBits], (a.data.map (fun x => uint2bin x nBits)).flatten⟩

/-- CommDspy/rx/slicer.py 3-37 `slicer` on an array of any rank; `none` stands for `levels=None`. Line 12 unpacks the shape
in two; any other rank raises ValueError, and line 22 takes the first dimension (IndexError for a 0-d array) and leaves
`y = 0`. Line 35 reshapes to `[y, x]` only if `y > 0`, everything else is flattened. -/
def slicerArr {K : Type} [Field K] [LinearOrder K] (a : Arr K) (levels : Option (List K)) : Py (Arr K) :=
  let lv := levels.getD [-3, -1, 1, 3]
  let out := a.data.map (sliceOne lv)
  match a.shape with
  | [] => .error .indexError
  | [y, x] =>
    if lv.length = 0 then .error .valueError
    else if y > 0 then .ok ⟨[y, x], out⟩ else .ok ⟨[out.length], out⟩
  | _ => if lv.length = 0 then .error .valueError else .ok ⟨[out.length], out⟩

/-- CommDspy/rx/quantiztion.py 4-51 `quantize` on an array of any rank: line 51 hands the array to `slicer`. -/
def quantizeArr {K : Type} [Field K] [LinearOrder K] (a : Arr K) (totalBits : ℕ) (fracBits : Int) (t : FixType) :
    Py (Arr K) := do
  let levels ← quantLevels totalBits fracBits t
  slicerArr a (some levels)

/-- CommDspy/tx/mapping.py 3-28 `mapping` on an array of any rank: indexing with an array keeps the shape of the index. -/
noncomputable def mappingArr (a : Arr Int) (c : Constellation) (fullScale : Bool) (levels : Option (List ℝ))
    (pnInv : Bool) : Py (Arr ℝ) := do
  return ⟨a.shape, ← mapping a.data c fullScale levels pnInv⟩

/-- CommDspy/rx/demapping.py 4-34 `demapping` on an array of any rank: lines 31-34 flatten and reshape to `signal.shape`. The
second component is the caller's array after the call. -/
noncomputable def demappingArr (a : Arr ℝ) (c : Constellation) (fullScale pnInv : Bool) : Py (Arr Int) × Arr ℝ :=
  ((demapping a.data c fullScale pnInv).1.map (fun l => ⟨a.shape, l⟩), ⟨a.shape, (demapping a.data c fullScale pnInv).2⟩)

/-- CommDspy/tx/coding.py 7-29 `coding_gray` on an array of any rank: indexing keeps the shape. -/
def codingGrayArr (a : Arr Int) (c : Constellation) : Py (Arr Int) := do return ⟨a.shape, ← codingGray a.data c⟩

/-- CommDspy/rx/decoding.py 9-32 `decoding_gray` on an array of any rank. -/
def decodingGrayArr (a : Arr Int) (c : Constellation) : Py (Arr Int) := do return ⟨a.shape, ← decodingGray a.data c⟩

end Verif
