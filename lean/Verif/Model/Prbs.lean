import Verif.Model.Basic

/-! Model of CommDspy/tx/prbs_generator.py, tx/prbs_iterator.py and get_polynomial. -/

namespace Verif

/-- CommDspy/constants.py `PrbsEnum` (members 7, 9, 11, 13, 15, 31). -/
inductive PrbsEnum where
  | prbs7 | prbs9 | prbs11 | prbs13 | prbs15 | prbs31
deriving DecidableEq, Repr

/-- `PrbsEnum.X.value`. -/
def PrbsEnum.value : PrbsEnum → Nat
  | .prbs7 => 7 | .prbs9 => 9 | .prbs11 => 11 | .prbs13 => 13 | .prbs15 => 15 | .prbs31 => 31

/-- `arr = np.array([0]*n); arr[idx] = 1` -/
def onesAt (n : Nat) (idx : List Nat) : List Int :=
  (List.range n).map (fun i => if i ∈ idx then 1 else 0)

/-- CommDspy/auxiliary.py 6-27 `get_polynomial`. The enumeration is closed, so the unsupported
branch (25-26) is unreachable for arguments of the enumeration type and not modelled. -/
def getPolynomial (p : PrbsEnum) : List Int :=
  match p with
  | .prbs7 => onesAt p.value [5, 6]
  | .prbs9 => onesAt p.value [4, 8]
  | .prbs11 => onesAt p.value [8, 10]
  | .prbs13 => onesAt p.value [0, 1, 11, 12]
  | .prbs15 => onesAt p.value [13, 14]
  | .prbs31 => onesAt p.value [27, 30]

/-- `a.dot(b)` for integer vectors of equal length. -/
def dot (a b : List Int) : Int := (List.zipWith (· * ·) a b).sum

/-- CommDspy/tx/prbs_generator.py 26-28: `k` iterations of the loop; returns the bits produced and
the register after the loop. `np.mod(_, 2)` is floor-mod, i.e. `%` on `Int`. -/
def prbsLoop (poly : List Int) : Nat → List Int → List Int × List Int
  | 0, seed => ([], seed)
  | k + 1, seed =>
    let bit := dot poly seed % 2
    let r := prbsLoop poly k (bit :: seed.dropLast)
    (bit :: r.1, r.2)

/-- CommDspy/tx/prbs_generator.py 4-38 `prbs_generator(poly_coeff, init_seed, output_length)`.
* empty `poly_coeff`: `output_length/0` raises ZeroDivisionError (21);
* `poly_coeff.dot(seed)` raises ValueError on a length mismatch, if the loop runs at all (27);
* negative `output_length` (used by `prbs_checker_economy` on short data): `range` is empty,
  `multiple_bin` is empty, hence so is `sequence`;
* `np.ceil(output_length/prbs_length)` is taken as the exact ceiling (float division is exact enough
  below 2^53, not modelled). -/
def prbsGenerator (poly seed : List Int) (outputLength : Int) : Py (List Int × List Int) :=
  let n := poly.length
  let prbsLength : Int := 2 ^ n - 1
  if n = 0 then .error .zeroDivision
  else if 0 < outputLength ∧ n ≠ seed.length then .error .valueError
  else
    let loopLength := min outputLength prbsLength
    let repNumber : Int := -((-outputLength) / prbsLength)
    let r := prbsLoop poly loopLength.toNat seed
    let multipleBin := if repNumber > 1 then tile r.1 repNumber.toNat else r.1
    let sequence := multipleBin.take outputLength.toNat
    let seed' := if outputLength ≥ r.2.length then (lastN n sequence).reverse else r.2
    .ok (sequence, seed')

/-- CommDspy/tx/prbs_iterator.py 15-18: object state of `PrbsIterator`
(`seed_prev` starts as `None`). -/
structure PrbsIter where
  poly : List Int
  seed : List Int
  seedPrev : Option (List Int)
deriving DecidableEq, Repr

/-- prbs_iterator.py 15-18 `__init__`. -/
def PrbsIter.new (poly seed : List Int) : PrbsIter := ⟨poly, seed, none⟩

/-- prbs_iterator.py 23-27 `__next__`; ValueError from `dot` on a length mismatch. -/
def PrbsIter.next (it : PrbsIter) : Py (Int × PrbsIter) :=
  if it.poly.length ≠ it.seed.length then .error .valueError
  else
    let bit := dot it.poly it.seed % 2
    .ok (bit, { it with seedPrev := some it.seed, seed := bit :: it.seed.dropLast })

/-- prbs_iterator.py 29-30 `get_seed`. -/
def PrbsIter.getSeed (it : PrbsIter) : List Int := it.seed

/-- prbs_iterator.py 32-33 `get_prev_seed`. -/
def PrbsIter.getPrevSeed (it : PrbsIter) : Option (List Int) := it.seedPrev

/-- Draw `k` values with `next(it)`. -/
def PrbsIter.draw : Nat → PrbsIter → Py (List Int × PrbsIter)
  | 0, it => .ok ([], it)
  | k + 1, it => do
    let (b, it') ← it.next
    let (bs, it'') ← PrbsIter.draw k it'
    return (b :: bs, it'')

end Verif
