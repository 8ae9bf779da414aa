import Verif.Model.Basic

/-! Model of CommDspy/tx/bin2symbol.py, rx/symbol2bin.py, auxiliary.get_gray_level_vec and the Gray
coder / decoder. -/

namespace Verif

/-- `m = 2^b` test: returns `b`. Stands for `np.isclose(np.log2(m), int(np.log2(m)))`; exact
arithmetic instead of floats. The float test additionally accepts some `m > 16384` that are not
powers of two (e.g. 16385), so the model is only claimed for `m ≤ 16384` or powers of two: `C14_real_arithmetic` proves it equal
to `bin2symbolReal` (Model/SymbolReal.lean, real logarithm and tolerance) there. -/
def pow2Exp (m : Nat) : Option Nat :=
  if 2 ^ (Nat.log2 m) = m then some (Nat.log2 m) else none

/-- The four boolean options of `bin2symbol` / `symbol2bin`. -/
structure SymFlags where
  bitOrderInv : Bool := false
  invMsb : Bool := false
  invLsb : Bool := false
  pnInv : Bool := false
deriving DecidableEq, Repr

/-- `mat[:, -1] = 1 - mat[:, -1]` on one row -/
def flipLast (r : List Int) : List Int :=
  (List.range r.length).map (fun i => if i + 1 = r.length then 1 - r.getD i 0 else r.getD i 0)

/-- `mat[:, 0] = 1 - mat[:, 0]` on one row -/
def flipFirst (r : List Int) : List Int :=
  (List.range r.length).map (fun i => if i = 0 then 1 - r.getD i 0 else r.getD i 0)

/-- CommDspy/tx/bin2symbol.py 36-43 on one row of the bit matrix. -/
def txRow (f : SymFlags) (r : List Int) : List Int :=
  let r := if f.bitOrderInv then r.reverse else r
  let r := if f.invMsb then flipLast r else r
  let r := if f.invLsb then flipFirst r else r
  if f.pnInv then r.map (fun x => 1 - x) else r

/-- `row.dot(2 ** np.arange(b))` (bin2symbol.py 44): first bit is the least significant one. -/
def dotPow2 (r : List Int) : Int :=
  (List.zipWith (· * ·) r ((List.range r.length).map (fun i => (2 : Int) ^ i))).sum

/-- CommDspy/tx/bin2symbol.py 4-49 `bin2symbol`, on the flattened bit vector. `m = 1` fails with
ValueError in `int(nan)`, `m = 0` with OverflowError in `int(-inf)` for non-empty data (25). -/
def bin2symbol (bits : List Int) (m : Nat) (f : SymFlags) : Py (List Int) :=
  if m = 0 ∧ bits.length > 0 then .error .overflow
  else match pow2Exp m with
    | some b =>
      if m > 2 then
        let trim := bits.length % b
        let trimmed := if trim > 0 then bits.take (bits.length - trim) else bits
        .ok ((rows b trimmed).map (fun r => dotPow2 (txRow f r)))
      else if m = 2 then .ok (if f.pnInv then bits.map (fun x => 1 - x) else bits)
      else .error .valueError
    | none => .error .valueError

/-- `(s & (1 << np.arange(0, b, 1))) > 0` for one symbol (symbol2bin.py 28): two's complement bits,
least significant first. -/
def symBits (b : Nat) (s : Int) : List Int :=
  (List.range b).map (fun i => (s / 2 ^ i) % 2)

/-- CommDspy/rx/symbol2bin.py 32-40 on one row (only used when there are at least two symbols). -/
def rxRow (f : SymFlags) (r : List Int) : List Int :=
  let r := if f.pnInv then r.map (fun x => 1 - x) else r
  let r := if f.invMsb then flipLast r else r
  let r := if f.invLsb then flipFirst r else r
  if f.bitOrderInv then r.reverse else r

/-- CommDspy/rx/symbol2bin.py 3-41 `symbol2bin` on the flattened symbol vector (integers). The
`np.squeeze` in line 28 turns the matrix of a *single* multi-bit symbol into a vector, on which
`[:, -1]` / `[:, 0]` raise IndexError and `np.fliplr` raises ValueError. `m = 0`: `int(-inf)`. -/
def symbol2bin (symbols : List Int) (m : Nat) (f : SymFlags) : Py (List Int) :=
  if m = 0 then .error .overflow
  else
    let b := Nat.log2 m
    if b > 1 then
      if symbols.length = 1 then
        if f.invMsb then .error .indexError
        else if f.invLsb then .error .indexError
        else if f.bitOrderInv then .error .valueError
        else .ok ((symbols.map (fun s =>
          let r := symBits b s
          if f.pnInv then r.map (fun x => 1 - x) else r)).flatten)
      else .ok ((symbols.map (fun s => rxRow f (symBits b s))).flatten)
    else .ok ((symbols.map (fun s =>
          let r := symBits b s
          if f.pnInv then r.map (fun x => 1 - x) else r)).flatten)

/-- `int(np.ceil(np.log2(m)))` for `m ≥ 1` (exact; the float result agrees for every `m < 2^48`). -/
def ceilLog2 (m : Nat) : Nat :=
  if 2 ^ (Nat.log2 m) = m then Nat.log2 m else Nat.log2 m + 1

/-- auxiliary.py 58-60, one pass of the loop of `get_gray_level_vec` with loop variable `ii`:
append the reversed list, prefix `2^ii` zeros and `2^ii` ones. -/
def grayPass (lvls : List (List Nat)) (ii : Nat) : List (List Nat) :=
  List.zipWith (fun c r => c :: r) (List.replicate (2 ^ ii) 0 ++ List.replicate (2 ^ ii) 1)
    (lvls ++ lvls.reverse)

/-- `row.dot([1 << ii for ii in np.arange(w-1, -1, -1)])`: most significant bit first. -/
def dotMsb (r : List Nat) : Nat :=
  (List.zipWith (· * ·) r ((List.range r.length).map (fun i => 2 ^ (r.length - 1 - i)))).sum

/-- CommDspy/auxiliary.py 51-61 `get_gray_level_vec(level_num)`. `level_num = 0` raises
OverflowError in `int(np.ceil(-inf))`. -/
def getGrayLevelVec (levelNum : Nat) : Py (List Nat) :=
  if levelNum = 0 then .error .overflow
  else
    let lvls := (List.range' 1 (ceilLog2 levelNum - 1)).foldl grayPass [[0], [1]]
    .ok ((lvls.map dotMsb).take levelNum)

/-- CommDspy/constants.py `ConstellationEnum`. -/
inductive Constellation where
  | nrz | ook | pam3 | pam4
deriving DecidableEq, Repr

/-- CommDspy/auxiliary.py 36-45: the unscaled levels of `get_levels`. -/
def intLevels : Constellation → List Int
  | .nrz => [-1, 1]
  | .ook => [0, 1]
  | .pam3 => [-1, 0, 1]
  | .pam4 => [-3, -1, 1, 3]

/-- CommDspy/tx/coding.py 7-29 `coding_gray`. Result as integers. -/
def codingGray (pattern : List Int) (c : Constellation) : Py (List Int) :=
  let levelNum := (intLevels c).length
  if ceilLog2 levelNum > 1 then do
    let levels ← getGrayLevelVec levelNum
    npTake (levels.map (Int.ofNat ·)) pattern
  else .ok pattern

/-- CommDspy/rx/decoding.py 9-32 `decoding_gray`. -/
def decodingGray (pattern : List Int) (c : Constellation) : Py (List Int) :=
  let levelNum := (intLevels c).length
  if ceilLog2 levelNum > 1 then do
    let levels ← getGrayLevelVec levelNum
    npTake (levels.map (Int.ofNat ·)) pattern
  else npTake [0, 1] pattern

end Verif
