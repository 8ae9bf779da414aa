import Verif.Model.Symbol
import Mathlib.Data.List.Dedup
import Mathlib.Data.Rat.Defs
import Mathlib.Algebra.Order.Field.Rat

/-!
Model of the line codes in CommDspy/tx/coding.py and CommDspy/rx/decoding.py (differential,
Manchester, bipolar, MLT-3, differential Manchester) and of `check_binary`.

Arrays are 1-D (lists) except where a definition says otherwise; the code flattens or reshapes
higher-dimensional arrays. `scipy.signal.lfilter` on floats is modelled with exact integers (float
sums of integers are exact below 2^53).
-/

namespace Verif

/-- CommDspy/misc/help_functions.py 3-10 `check_binary`. `np.unique` is modelled by the list of
distinct values. -/
def checkBinary (p : List Int) : Py Unit :=
  let d := p.dedup
  if d.length = 1 ∧ (0 ∉ d ∧ 1 ∉ d) then .error .valueError
  else if d.length = 2 ∧ (0 ∉ d ∧ 1 ∉ d) then .error .valueError
  else if d.length > 2 then .error .valueError
  else .ok ()

/-- `lfilter([1], [1, -1], l)` started from accumulator `a`: running sum. -/
def cumsumFrom (a : Int) : List Int → List Int
  | [] => []
  | x :: t => (a + x) :: cumsumFrom (a + x) t

/-- CommDspy/tx/coding.py 31-46 `coding_differential` on a 1-D array. -/
def codingDifferential (p : List Int) (c : Constellation) : List Int :=
  (cumsumFrom 0 p).map (· % ((intLevels c).length : Int))

/-- CommDspy/tx/coding.py 44-46 on a 2-D array with rows of width `w`: the array is flattened, coded
as one stream and reshaped. -/
def codingDifferential2 (w : Nat) (p : List (List Int)) (c : Constellation) : List (List Int) :=
  let flat := codingDifferential p.flatten c
  (List.range p.length).map (fun r => (flat.drop (r * w)).take w)

/-- `lfilter([1, -1], [1], l)` on a 1-D array: first difference with zero initial state. -/
def firstDiff (l : List Int) : List Int := List.zipWith (· - ·) l (0 :: l)

/-- CommDspy/rx/decoding.py 34-47 `decoding_differential` on a 1-D array. An empty array raises
ValueError (`np.convolve` inside `lfilter`). -/
def decodingDifferential (p : List Int) (c : Constellation) : Py (List Int) :=
  if p = [] then .error .valueError
  else .ok ((firstDiff p).map (· % ((intLevels c).length : Int)))

/-- CommDspy/rx/decoding.py 47 on a 2-D array: `lfilter` works along the last axis, so every row is
decoded on its own. An array without rows raises ValueError (`np.apply_along_axis`). -/
def decodingDifferential2 (p : List (List Int)) (c : Constellation) : Py (List (List Int)) :=
  if p = [] then .error .valueError else p.mapM (fun r => decodingDifferential r c)

/-- CommDspy/tx/coding.py 48-75 `coding_manchester`. `coding_list[pattern]` is NumPy row indexing. -/
def codingManchester (p : List Int) : Py (List Int) := do
  checkBinary p
  let cells ← npTake [[0, 1], [1, 0]] p
  return cells.flatten

/-- CommDspy/rx/decoding.py 49-82 `decoding_manchester`; an odd length cannot be reshaped to pairs
(ValueError). Results are multiples of one half. -/
def decodingManchester (p : List Int) : Py (List ℚ) := do
  checkBinary p
  if p.length % 2 ≠ 0 then .error .valueError
  else return (rows 2 p).map (fun r =>
    let transition : Int := -1 * (r.getD 1 0 - r.getD 0 0)
    ((transition : ℚ) + 1) / 2)

/-- CommDspy/tx/coding.py 77-97 `coding_bipolar`. -/
def codingBipolar (p : List Int) : Py (List Int) := do
  checkBinary p
  let signVec := codingDifferential p .ook
  return List.zipWith (fun x s => 1 + x * (-1) ^ (Int.toNat s)) p signVec

/-- CommDspy/rx/decoding.py 97-98 `decoding_bipolar` without error detection. -/
def decodingBipolar (p : List Int) : List Int := p.map (fun x => |x - 1|)

/-- CommDspy/rx/decoding.py 106: indices of the marks. -/
def markLocation (p : List Int) : List Nat :=
  (List.range p.length).filter (fun i => p.getD i 0 - 1 ≠ 0)

/-- CommDspy/rx/decoding.py 107: `1` followed by the differences of successive marks. -/
def markChange (p : List Int) : List Int :=
  let marks := (markLocation p).map (fun i => p.getD i 0 - 1)
  1 :: List.zipWith (· - ·) marks.tail marks

/-- CommDspy/rx/decoding.py 109-113: the loop over the marks; state is (index, running sign, decoded). -/
def detectLoop (loc : List Nat) : List Int → Nat → Int → List ℚ → List ℚ
  | [], _, _, dec => dec
  | mark :: t, ii, sign, dec =>
    if mark = 0 then
      let v : ℚ := 1 / 2 * (Int.sign sign : ℚ)
      detectLoop loc t (ii + 1) sign ((dec.set (loc.getD (ii - 1) 0) v).set (loc.getD ii 0) v)
    else detectLoop loc t (ii + 1) (Int.sign mark) dec

/-- CommDspy/rx/decoding.py 99-114 `decoding_bipolar(..., error_detection=True)` on a 1-D array. -/
def decodingBipolarDetect (p : List Int) : List ℚ :=
  detectLoop (markLocation p) (markChange p) 0 1 (p.map (fun x => ((|x - 1| : Int) : ℚ)))

/-- CommDspy/tx/coding.py 99-124 `coding_mlt3`. -/
def codingMlt3 (p : List Int) : Py (List Int) := do
  checkBinary p
  return (codingDifferential p .pam4).map (fun x => if x = 3 then 1 else x)

/-- CommDspy/rx/decoding.py 116-125 `decoding_mlt3`; `pattern[0]` of an empty array raises. -/
def decodingMlt3 (p : List Int) : Py (List Int) :=
  match p with
  | [] => .error .indexError
  | x :: t => .ok ((if x = 1 then 1 else 0) :: (List.zipWith (· - ·) t (x :: t)).map (fun d => |d|))

/-- CommDspy/tx/coding.py 126-155 `coding_differential_manchester`. For an empty pattern
`[0] ++ pattern_flat[:-1]` has length one and broadcasts against the empty index vector; the result
is empty, as with the truncating `zipWith` here. -/
def codingDiffManchester (p : List Int) : Py (List Int) := do
  checkBinary p
  let flat := p.map (fun x => 1 - x)
  let idxShift := cumsumFrom 0 (0 :: flat.dropLast)
  let idxVec := List.zipWith (fun (i : Nat) s => ((i : Int) + s) % 2) (List.range flat.length) idxShift
  let cells ← (List.zip idxVec flat).mapM (fun q => do
    let r ← npGet [[[0, 0], [0, 1]], [[1, 1], [1, 0]]] q.1
    npGet r q.2)
  return cells.flatten

/-- CommDspy/rx/decoding.py 127-143 `decoding_differential_manchester`. -/
def decodingDiffManchester (p : List Int) : Py (List Int) := do
  checkBinary p
  if p.length % 2 ≠ 0 then .error .valueError
  else return (rows 2 p).map (fun r => 1 - |r.getD 1 0 - r.getD 0 0|)

end Verif
