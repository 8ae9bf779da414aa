import Verif.Model.Coding

/-!
Model of CommDspy/auxiliary.py 140-169 (`get_bin_perm`, `hamming`, `bin2uint`, `uint2bin`),
CommDspy/misc/ml_decoding.py 4-29 and the linear block code (tx/coding.py 157-185,
rx/decoding.py 145-190).

2-D arrays are lists of rows. Integer overflow (block sizes above 62 bits) is not modelled.
-/

namespace Verif

/-- CommDspy/auxiliary.py 140-146 `get_bin_perm(k)`: row `x` tests the bits `k-1 .. 0` of `x`. -/
def getBinPerm (k : Nat) : List (List Int) :=
  (List.range (2 ^ k)).map (fun x =>
    (List.range k).map (fun i => if x &&& (1 <<< (k - 1 - i)) > 0 then (1 : Int) else 0))

/-- one entry of the matrix in CommDspy/auxiliary.py 156: `np.sum(np.abs(a - b))` -/
def hammingDist (a b : List Int) : Int := (List.zipWith (fun x y => |x - y|) a b).sum

/-- CommDspy/auxiliary.py 148-158 `hamming(pattern_block, codebook)`: the matrix (one row per codeword)
and for each pattern the first index of the minimum. -/
def hamming (patternBlock codebook : List (List Int)) : List (List Int) × List Nat :=
  (codebook.map (fun c => patternBlock.map (hammingDist c)),
    patternBlock.map (fun b => argmin (codebook.map (fun c => hammingDist c b))))

/-- CommDspy/auxiliary.py 160-162 `bin2uint` for one vector. -/
def bin2uint (v : List Int) : Int :=
  (List.zipWith (· * ·) v ((List.range v.length).map (fun i => (2 : Int) ^ (v.length - 1 - i)))).sum

/-- CommDspy/auxiliary.py 164-169 `uint2bin` for one integer; bit `e` of the two's complement
representation is `floor(x / 2^e) mod 2`. -/
def uint2bin (x : Int) (nBits : Nat) : List Int :=
  (List.range nBits).map (fun i => if (x / 2 ^ (nBits - 1 - i)) % 2 = 1 then 1 else 0)

/-- number of columns of a matrix given by rows -/
def cols (G : List (List Int)) : Nat := (G.getD 0 []).length

/-- `u.dot(G) % 2` for one row vector `u` -/
def vecMat (G : List (List Int)) (u : List Int) : List Int :=
  (List.range (cols G)).map (fun j => (List.zipWith (fun a r => a * r.getD j 0) u G).sum % 2)

/-- CommDspy/tx/coding.py 157-185 `coding_linear(pattern, G)`. `G` with no rows raises
ZeroDivisionError at `len(pattern) % k`. -/
def codingLinear (p : List Int) (G : List (List Int)) : Py (List Int) := do
  checkBinary p
  checkBinary G.flatten
  let k := G.length
  if k = 0 then .error .zeroDivision
  else
    let padding := if p.length % k > 0 then k - p.length % k else 0
    let padded := p ++ List.replicate padding 0
    return ((rows k padded).map (vecMat G)).flatten

/-- CommDspy/misc/ml_decoding.py 4-29 with `error_prob=False`: for each block the data word at the
first index of minimal distance. -/
def mlDecoding (perms codebook blocks : List (List Int)) : List Int :=
  (blocks.map (fun b => perms.getD (argmin (codebook.map (fun c => hammingDist c b))) [])).flatten

/-- CommDspy/misc/ml_decoding.py 7-27 for one block with `error_prob=True`: decoded data, error
probability, and the block as it is left in the caller's array. -/
def mlBlockErr (perms codebook : List (List Int)) (b : List Int) : List Int × ℚ × List Int :=
  let h := codebook.map (fun c => hammingDist c b)
  let minH := h.getD (argmin h) 0
  if minH > 0 then
    let correct := argmin h
    let h' := h.set correct 0
    (perms.getD (argmin h') [], 1 / (h.count minH : ℚ), codebook.getD correct [])
  else (perms.getD (argmin h) [], 0, b)

/-- CommDspy/misc/ml_decoding.py 4-29 with `error_prob=True`. -/
def mlDecodingErr (perms codebook blocks : List (List Int)) :
    List Int × List ℚ × List (List Int) :=
  let r := blocks.map (mlBlockErr perms codebook)
  ((r.map (·.1)).flatten, r.map (·.2.1), r.map (·.2.2))

/-- CommDspy/rx/decoding.py 145-190 `decoding_linear(pattern, G)`. `rows` drops the incomplete last
block, as lines 182-186 do. -/
def decodingLinear (p : List Int) (G : List (List Int)) : Py (List Int) := do
  checkBinary p
  checkBinary G.flatten
  if cols G = 0 then .error .zeroDivision
  else
    let perm := getBinPerm G.length
    let codebook := perm.map (vecMat G)
    return mlDecoding perm codebook (rows (cols G) p)

/-- CommDspy/rx/decoding.py 145-190 `decoding_linear(pattern, G, True)`: decoded bits, error
probabilities, and the caller's pattern after the call (`np.reshape` of a contiguous array is a view,
so `pattern_block[not_codeword] = ...` writes into it). -/
def decodingLinearErr (p : List Int) (G : List (List Int)) : Py (List Int × List ℚ × List Int) := do
  checkBinary p
  checkBinary G.flatten
  if cols G = 0 then .error .zeroDivision
  else
    let perm := getBinPerm G.length
    let codebook := perm.map (vecMat G)
    let (d, pe, blocks) := mlDecodingErr perm codebook (rows (cols G) p)
    return (d, pe, blocks.flatten ++ p.drop (p.length / cols G * cols G))

end Verif
