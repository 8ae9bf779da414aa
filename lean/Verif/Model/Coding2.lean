import Verif.Model.Coding
import Verif.Model.Slicer

/-! Model of the line codes on 2-D arrays. A 2-D array is the list of its rows together with the common row
width `w`. -/

namespace Verif

/-- CommDspy/tx/coding.py 7-29 `coding_gray` on a 2-D array: indexing works element by element. -/
def codingGray2 (m : List (List Int)) (c : Constellation) : Py (List (List Int)) := m.mapM (fun r => codingGray r c)

/-- CommDspy/rx/decoding.py 9-32 `decoding_gray` on a 2-D array. -/
def decodingGray2 (m : List (List Int)) (c : Constellation) : Py (List (List Int)) := m.mapM (fun r => decodingGray r c)

/-- CommDspy/tx/coding.py 48-75 `coding_manchester` on a 2-D array: the indexed array has one axis more, is
flattened and reshaped with the last axis doubled. -/
def codingManchester2 (w : ℕ) (m : List (List Int)) : Py (List (List Int)) := do
  let c ← codingManchester m.flatten
  return reshape2 m.length (w * 2) c

/-- CommDspy/rx/decoding.py 49-82 `decoding_manchester` on a 2-D array: pairs over the flattened array, result
reshaped with the last axis halved (rounded down, so that the reshape of an odd width raises ValueError). -/
def decodingManchester2 (w : ℕ) (m : List (List Int)) : Py (List (List ℚ)) := do
  let d ← decodingManchester m.flatten
  if d.length = m.length * (w / 2) then return reshape2 m.length (w / 2) d else .error .valueError

/-- CommDspy/tx/coding.py 77-97 `coding_bipolar` on a 2-D array; signs from `coding_differential` 44-46, which
flattens. -/
def codingBipolar2 (w : ℕ) (m : List (List Int)) : Py (List (List Int)) := do
  checkBinary m.flatten
  let signs := codingDifferential2 w m .ook
  return List.zipWith (List.zipWith (fun x s => 1 + x * (-1) ^ (Int.toNat s))) m signs

/-- CommDspy/rx/decoding.py 97-98 `decoding_bipolar` without error detection on a 2-D array. -/
def decodingBipolar2 (m : List (List Int)) : List (List Int) := m.map decodingBipolar

/-- CommDspy/rx/decoding.py 99-114 `decoding_bipolar(..., error_detection=True)` on a 2-D array. The index
vector has one entry per row, the mask of marks one per element: unless both counts agree the boolean index
raises IndexError. For a single column every row is one element and the loop is that of the 1-D case. -/
def decodingBipolarDetect2 (w : ℕ) (m : List (List Int)) : Py (List (List ℚ)) :=
  if m.flatten.length ≠ m.length then .error .indexError
  else .ok (reshape2 m.length w (decodingBipolarDetect m.flatten))

/-- CommDspy/tx/coding.py 99-124 `coding_mlt3` on a 2-D array. -/
def codingMlt3_2 (w : ℕ) (m : List (List Int)) : Py (List (List Int)) := do
  checkBinary m.flatten
  return (codingDifferential2 w m .pam4).map (fun r => r.map (fun x => if x = 3 then 1 else x))

/-- CommDspy/rx/decoding.py 116-125 `decoding_mlt3` on a 2-D array. `pattern[0] == 1` is a row: its truth value
raises ValueError unless the row has one element (an empty row is taken as false or rejected, depending on the
NumPy version; then the reshape in line 125 raises ValueError as well). -/
def decodingMlt3_2 (w : ℕ) (m : List (List Int)) : Py (List (List Int)) :=
  match m with
  | [] => .error .indexError
  | _ :: _ =>
    if w = 1 then do
      let d ← decodingMlt3 m.flatten
      return reshape2 m.length w d
    else .error .valueError

/-- CommDspy/tx/coding.py 126-155 `coding_differential_manchester` on a 2-D array. -/
def codingDiffManchester2 (w : ℕ) (m : List (List Int)) : Py (List (List Int)) := do
  let c ← codingDiffManchester m.flatten
  return reshape2 m.length (w * 2) c

/-- CommDspy/rx/decoding.py 127-143 `decoding_differential_manchester` on a 2-D array. -/
def decodingDiffManchester2 (w : ℕ) (m : List (List Int)) : Py (List (List Int)) := do
  let d ← decodingDiffManchester m.flatten
  if d.length = m.length * (w / 2) then return reshape2 m.length (w / 2) d else .error .valueError

end Verif
