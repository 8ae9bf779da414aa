import Verif.Model.Tensor
import Verif.Model.Coding2

/-! Model of the line codes on NumPy arrays of any rank (shape and entries in C order, see `Model/Tensor.lean`). -/

namespace Verif

/-- `new_shape = list(shape); new_shape[-1] = f(new_shape[-1])`: IndexError for a 0-d array. -/
def newLastAxis (shape : List ℕ) (f : ℕ → ℕ) : Py (List ℕ) :=
  match shape.getLast? with
  | none => .error .indexError
  | some n => .ok (shape.dropLast ++ [f n])

/-- CommDspy/tx/coding.py 31-46 `coding_differential` on an array of any rank: flattened, coded as one stream, reshaped. -/
def codingDifferentialArr (a : Arr Int) (c : Constellation) : Arr Int := ⟨a.shape, codingDifferential a.data c⟩

/-- CommDspy/rx/decoding.py 34-47 `decoding_differential` on an array of any rank: `lfilter` runs along the last axis. A 0-d
array raises AxisError (a ValueError), an array without entries ValueError (`np.apply_along_axis`, `np.convolve`). -/
def decodingDifferentialArr (a : Arr Int) (c : Constellation) : Py (Arr Int) :=
  match a.shape.getLast? with
  | none => .error .valueError
  | some n =>
    if a.shape.prod = 0 then .error .valueError
    else do
      let d ← decodingDifferential2 (reshape2 a.shape.dropLast.prod n a.data) c
      return ⟨a.shape, d.flatten⟩

/-- CommDspy/tx/coding.py 48-75 `coding_manchester` on an array of any rank: the last axis is doubled. -/
def codingManchesterArr (a : Arr Int) : Py (Arr Int) := do
  checkBinary a.data
  let shape ← newLastAxis a.shape (· * 2)
  return ⟨shape, ← codingManchester a.data⟩

/-- CommDspy/rx/decoding.py 49-82 `decoding_manchester` on an array of any rank: pairs over the flattened array, the last axis
is halved; ValueError if the result does not fit. -/
def decodingManchesterArr (a : Arr Int) : Py (Arr ℚ) := do
  checkBinary a.data
  let shape ← newLastAxis a.shape (· / 2)
  let d ← decodingManchester a.data
  if d.length = shape.prod then return ⟨shape, d⟩ else .error .valueError

/-- CommDspy/tx/coding.py 77-97 `coding_bipolar` on an array of any rank. -/
def codingBipolarArr (a : Arr Int) : Py (Arr Int) := do
  checkBinary a.data
  let signVec := codingDifferentialArr a .ook
  return ⟨a.shape, List.zipWith (fun x s => 1 + x * (-1) ^ (Int.toNat s)) a.data signVec.data⟩

/-- CommDspy/rx/decoding.py 97-98 `decoding_bipolar` without error detection on an array of any rank. -/
def decodingBipolarArr (a : Arr Int) : Arr Int := ⟨a.shape, decodingBipolar a.data⟩

/-- CommDspy/rx/decoding.py 99-114 `decoding_bipolar(..., error_detection=True)` on an array of any rank. `len` of a 0-d array
raises TypeError. The index vector has as many entries as the first axis, the mask of the marks as many as the array: IndexError
unless they agree. If they do, the other axes have length 1 (or the array is empty) and the loop is the one of the 1-D case. -/
def decodingBipolarDetectArr (a : Arr Int) : Py (Arr ℚ) :=
  match a.shape with
  | [] => .error .typeError
  | n :: _ => if a.data.length ≠ n then .error .indexError else .ok ⟨a.shape, decodingBipolarDetect a.data⟩

/-- CommDspy/tx/coding.py 99-124 `coding_mlt3` on an array of any rank. -/
def codingMlt3Arr (a : Arr Int) : Py (Arr Int) := do
  checkBinary a.data
  return ⟨a.shape, (codingDifferentialArr a .pam4).data.map (fun x => if x = 3 then 1 else x)⟩

/-- CommDspy/rx/decoding.py 116-125 `decoding_mlt3` on an array of any rank. `pattern[0]` raises IndexError for a 0-d array and
for an empty first axis. The truth value of `pattern[0] == 1` raises ValueError unless it has one entry; without entries it is
false or rejected, depending on the NumPy version, and the reshape of line 125 raises ValueError then. -/
def decodingMlt3Arr (a : Arr Int) : Py (Arr Int) :=
  match a.shape with
  | [] => .error .indexError
  | 0 :: _ => .error .indexError
  | (_ + 1) :: rest => if rest.prod = 1 then do return ⟨a.shape, ← decodingMlt3 a.data⟩ else .error .valueError

/-- CommDspy/tx/coding.py 126-155 `coding_differential_manchester` on an array of any rank. -/
def codingDiffManchesterArr (a : Arr Int) : Py (Arr Int) := do
  checkBinary a.data
  let shape ← newLastAxis a.shape (· * 2)
  return ⟨shape, ← codingDiffManchester a.data⟩

/-- CommDspy/rx/decoding.py 127-143 `decoding_differential_manchester` on an array of any rank. -/
def decodingDiffManchesterArr (a : Arr Int) : Py (Arr Int) := do
  checkBinary a.data
  let shape ← newLastAxis a.shape (· / 2)
  let d ← decodingDiffManchester a.data
  if d.length = shape.prod then return ⟨shape, d⟩ else .error .valueError

end Verif
