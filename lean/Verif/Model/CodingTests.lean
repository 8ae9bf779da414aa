import Verif.Model.Coding2
import Verif.Model.Linear
import Mathlib.Data.Nat.Log

/-! Model of the tests of the Gray, differential, line and block codes in test/test_pattern_coding.py as functions
of the arrays they draw. `.ok true` means that every assertion holds, `.ok false` that one fails; exceptions of the
tested functions are passed on. `np.allclose` of vectors of bits and halves is modelled by equality. Each test is first written
for arbitrary implementations of the functions it calls (`...TestOf`) and then for those of the library. -/

namespace Verif

/-- test/test_pattern_coding.py 18, 47, 68, 96: `int(np.log2(len(levels)))`; symbols are drawn below `2 ** bits`. -/
def testBits (c : Constellation) : ℕ := Nat.log 2 (intLevels c).length

/-- test/test_pattern_coding.py 28-33: reference of the Gray coder. -/
def grayRef (c : Constellation) (pattern : List Int) : List Int :=
  if testBits c = 2 then pattern.map (fun x => if x = 2 then 3 else if x = 3 then 2 else x) else pattern

/-- test/test_pattern_coding.py 7-34 `coding_gray_test` for a coder `enc`. -/
def codingGrayTestOf (enc : List Int → Py (List Int)) (c : Constellation) (pattern : List Int) : Py Bool := do
  let dut ← enc pattern
  return grayRef c pattern == dut

/-- test/test_pattern_coding.py 7-34 `coding_gray_test`. -/
def codingGrayTest (c : Constellation) (pattern : List Int) : Py Bool := codingGrayTestOf (fun p => codingGray p c) c pattern

/-- Lines 49-54, 98-103, 202-206, 241-245 of test/test_pattern_coding.py: code, decode and compare with the pattern, for a
coder `enc` and a decoder `dec`. -/
def roundtripTestOf (enc dec : List Int → Py (List Int)) (pattern : List Int) : Py Bool := do
  let dut ← enc pattern
  let dec ← dec dut
  return pattern == dec

/-- test/test_pattern_coding.py 36-55 `decoding_gray_test`. -/
def decodingGrayTest (c : Constellation) (pattern : List Int) : Py Bool :=
  roundtripTestOf (fun p => codingGray p c) (fun p => decodingGray p c) pattern

/-- test/test_pattern_coding.py 78-82: reference of the differential coder, from the previous symbol. -/
def diffRef (m : Int) : Int → List Int → List Int
  | _, [] => []
  | prev, s :: t => ((prev + s) % m) :: diffRef m ((prev + s) % m) t

/-- test/test_pattern_coding.py 57-83 `coding_differential_test` for a coder `enc`. -/
def codingDifferentialTestOf (enc : List Int → Py (List Int)) (c : Constellation) (pattern : List Int) : Py Bool := do
  let dut ← enc pattern
  return diffRef ((intLevels c).length : Int) 0 pattern == dut

/-- test/test_pattern_coding.py 57-83 `coding_differential_test`. -/
def codingDifferentialTest (c : Constellation) (pattern : List Int) : Py Bool :=
  codingDifferentialTestOf (fun p => .ok (codingDifferential p c)) c pattern

/-- test/test_pattern_coding.py 85-104 `decoding_differential_test`. -/
def decodingDifferentialTest (c : Constellation) (pattern : List Int) : Py Bool :=
  roundtripTestOf (fun p => .ok (codingDifferential p c)) (fun p => decodingDifferential p c) pattern

/-- test/test_pattern_coding.py 118-122: reference of the Manchester coder. -/
def manchesterRef : List Int → List Int
  | [] => []
  | s :: t => s :: (1 - s) :: manchesterRef t

/-- test/test_pattern_coding.py 106-123, 137-159, 175-195, 209-234: the tests of the line coders, on the drawn array of shape
[100, 3], for a coder `enc`; `ref` is the reference for the flattened array, `w` the width of the coded array. -/
def lineCoderTestOf (ref : List Int → List Int) (w : ℕ) (enc : List (List Int) → Py (List (List Int))) (m : List (List Int)) :
    Py Bool := do
  let dut ← enc m
  return reshape2 100 w (ref m.flatten) == dut

/-- test/test_pattern_coding.py 106-123 `coding_manchester_test`. -/
def codingManchesterTest (m : List (List Int)) : Py Bool := lineCoderTestOf manchesterRef 6 (codingManchester2 3) m

/-- test/test_pattern_coding.py 125-135 `decoding_manchester_test` for a coder and a decoder. -/
def decodingManchesterTestOf (enc : List Int → Py (List Int)) (dec : List Int → Py (List ℚ)) (p : List Int) : Py Bool := do
  let dut ← enc p
  let dec ← dec dut
  return p.map (fun (x : Int) => (x : ℚ)) == dec

/-- test/test_pattern_coding.py 125-135 `decoding_manchester_test`. -/
def decodingManchesterTest (p : List Int) : Py Bool := decodingManchesterTestOf codingManchester decodingManchester p

/-- test/test_pattern_coding.py 149-157: reference of the bipolar coder, from the running sign. -/
def bipolarRef : Int → List Int → List Int
  | _, [] => []
  | sign, s :: t => if s = 1 then (1 + sign) :: bipolarRef (sign * -1) t else 1 :: bipolarRef sign t

/-- test/test_pattern_coding.py 137-159 `coding_bipolar_test`. -/
def codingBipolarTest (m : List (List Int)) : Py Bool := lineCoderTestOf (bipolarRef (-1)) 3 (codingBipolar2 3) m

/-- test/test_pattern_coding.py 161-173 `decoding_bipolar_test` for a coder and the two decoders, without and with error
detection. -/
def decodingBipolarTestOf (enc : List Int → Py (List Int)) (dec : List Int → List Int) (det : List Int → List ℚ) (p : List Int) :
    Py Bool := do
  let dut ← enc p
  if p == dec dut then return p.map (fun (x : Int) => (x : ℚ)) == det dut
  else return false

/-- test/test_pattern_coding.py 161-173 `decoding_bipolar_test`. -/
def decodingBipolarTest (p : List Int) : Py Bool := decodingBipolarTestOf codingBipolar decodingBipolar decodingBipolarDetect p

/-- test/test_pattern_coding.py 187-194: reference of the MLT-3 coder, from the running index. -/
def mlt3Ref : ℕ → List Int → List Int
  | _, [] => []
  | i, s :: t =>
    let j := if s = 1 then (i + 1) % 4 else i
    [0, 1, 2, 1].getD j 0 :: mlt3Ref j t

/-- test/test_pattern_coding.py 175-195 `coding_mlt3_test`. -/
def codingMlt3Test (m : List (List Int)) : Py Bool := lineCoderTestOf (mlt3Ref 0) 3 (codingMlt3_2 3) m

/-- test/test_pattern_coding.py 197-207 `decoding_mlt3_test`. -/
def decodingMlt3Test (p : List Int) : Py Bool := roundtripTestOf codingMlt3 decodingMlt3 p

/-- test/test_pattern_coding.py 221-233: reference of the differential Manchester coder, from the running index. -/
def diffManchesterRef : ℕ → List Int → List Int
  | _, [] => []
  | i, s :: t =>
    let table : List (List Int) := [[0, 0], [0, 1], [1, 1], [1, 0]]
    if s = 1 then table.getD (2 * i) [] ++ diffManchesterRef ((i + 1) % 2) t
    else table.getD (2 * i + 1) [] ++ diffManchesterRef ((i + 1 + 1) % 2) t

/-- test/test_pattern_coding.py 209-234 `coding_differential_manchester_test`. -/
def codingDiffManchesterTest (m : List (List Int)) : Py Bool := lineCoderTestOf (diffManchesterRef 0) 6 (codingDiffManchester2 3) m

/-- test/test_pattern_coding.py 236-246 `decoding_differential_manchester_test`. -/
def decodingDiffManchesterTest (p : List Int) : Py Bool := roundtripTestOf codingDiffManchester decodingDiffManchester p

/-- test/test_pattern_coding.py 255, 279: identity matrix with a column of ones. -/
def parityG (k : ℕ) : List (List Int) :=
  (List.range k).map (fun i => (List.range k).map (fun j => if i = j then 1 else 0) ++ [1])

/-- test/test_pattern_coding.py 262-268: the blocks of the padded pattern, each with its parity. -/
def parityRef (k : ℕ) (p : List Int) : List Int :=
  let padding := if p.length % k > 0 then k - p.length % k else 0
  ((rows k (p ++ List.replicate padding 0)).map (fun b => b ++ [b.sum % 2])).flatten

/-- test/test_pattern_coding.py 248-270 `coding_linear_block_test`, on the drawn pattern and `k`, for a coder `enc` of patterns with
a generator matrix. -/
def codingLinearTestOf (enc : List Int → List (List Int) → Py (List Int)) (k : ℕ) (p : List Int) : Py Bool := do
  let dut ← enc p (parityG k)
  return parityRef k p == dut

/-- test/test_pattern_coding.py 248-270 `coding_linear_block_test`. -/
def codingLinearTest (k : ℕ) (p : List Int) : Py Bool := codingLinearTestOf codingLinear k p

/-- test/test_pattern_coding.py 272-288 `decoding_linear_block_test` for a coder and the decoder without and with error
probabilities (of the latter only the decoded pattern is used). -/
def decodingLinearTestOf (enc dec : List Int → List (List Int) → Py (List Int))
    (decErr : List Int → List (List Int) → Py (List Int × List ℚ × List Int)) (k : ℕ) (p : List Int) : Py Bool := do
  let dut ← enc p (parityG k)
  let d ← dec dut (parityG k)
  if p == d.take p.length then
    let (d', _, _) ← decErr dut (parityG k)
    return p == d'.take p.length
  else return false

/-- test/test_pattern_coding.py 272-288 `decoding_linear_block_test`. -/
def decodingLinearTest (k : ℕ) (p : List Int) : Py Bool := decodingLinearTestOf codingLinear decodingLinear decodingLinearErr k p

end Verif
