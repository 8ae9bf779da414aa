import Verif.Model.Prbs

/-! Model of CommDspy/rx/lock_pattern.py and CommDspy/rx/checker.py. -/

namespace Verif

/-- `scipy.signal.correlate(a, v, mode='valid')` for 1-D real `a`, `v` with `len(a) >= len(v)`:
entry `k` is `sum_l a[k+l] * v[l]`. Exact arithmetic (SciPy may use an FFT for long inputs; for
integer inputs it rounds back to the exact value, for floats the rounding is not modelled). -/
def correlateValid {α : Type} [Add α] [Mul α] [Zero α] (a v : List α) : List α :=
  (List.range (a.length - v.length + 1)).map
    (fun k => (List.zipWith (· * ·) (a.drop k) v).sum)

/-- CommDspy/rx/lock_pattern.py 4-23 `lock_pattern_to_signal_binary(pattern, signal)`.
Empty patterns/signals make SciPy's correlate / np.argmax fail; recorded as ValueError (the exact
exception class of that corner is not modelled). -/
def lockPatternBinary (pattern signal : List Int) : Py (List Int × List Int) :=
  if pattern.length = 0 ∨ signal.length = 0 then .error .valueError
  else
    let patternLen := pattern.length
    let dataLen := signal.length
    let patternRep := tile pattern 2
    let patternNrz := patternRep.map (fun x => x * 2 - 1)
    let signalNrz := (signal.take (min patternLen dataLen)).map (fun x => x * 2 - 1)
    let xcorr := correlateValid patternNrz signalNrz
    let startIdx := argmax xcorr
    .ok ((patternRep.drop startIdx).take patternLen, xcorr)

/-- CommDspy/rx/lock_pattern.py 25-44 `lock_pattern_to_signal(pattern, signal)`. Same remark on empty
arguments; exact arithmetic instead of floats. -/
def lockPattern {α : Type} [Add α] [Mul α] [Zero α] [LE α] [DecidableLE α]
    (pattern signal : List α) : Py (List α × List α) :=
  if pattern.length = 0 ∨ signal.length = 0 then .error .valueError
  else
    let patternLen := pattern.length
    let dataLen := signal.length
    let patternRep := tile pattern 2
    let signalPart := signal.take (min patternLen dataLen)
    let xcorr := correlateValid patternRep signalPart
    let startIdx := argmax xcorr
    .ok ((patternRep.drop startIdx).take patternLen, xcorr)

/-- Result triple `(lost_lock, correct_bit_count, error_bit)` of the checkers. -/
structure CheckResult where
  lostLock : Bool
  correctBitCount : Int
  errorBit : List Bool
deriving DecidableEq, Repr

/-- checker.py 48-51: elementwise comparison, count and threshold. NumPy raises ValueError when the
operands cannot be broadcast (NumPy >= 1.25); broadcasting of a length-1 operand is not modelled. -/
def compareBits (dataIn ref : List Int) (lossTh : Int) : Py CheckResult :=
  if dataIn.length ≠ ref.length then .error .valueError
  else
    let errorBit := List.zipWith (fun a b => decide (a ≠ b)) dataIn ref
    let n : Int := errorBit.count true
    .ok ⟨decide (n ≥ lossTh), dataIn.length - n, errorBit⟩

/-- CommDspy/rx/checker.py 6-51 `prbs_checker(prbs_type, data_in, init_lock, loss_th, prbs_seq)`.
Line 31 (`poly_coeff[0] == -1`) is never true for the supported types. -/
def prbsChecker (p : PrbsEnum) (dataIn : List Int) (initLock : Bool) (lossTh : Int)
    (prbsSeq : Option (List Int)) : Py CheckResult := do
  let initSeed : List Int := List.replicate p.value 1
  let prbsLen : Nat := 2 ^ initSeed.length - 1
  let seq ← match prbsSeq with
    | some s => pure s
    | none => do
      let (s, _) ← prbsGenerator (getPolynomial p) initSeed prbsLen
      pure s
  let seq ← if initLock then pure seq else do
    let (s, _) ← lockPatternBinary seq dataIn
    pure s
  -- np.ceil(len / prbs_len)
  let prbsRep := (dataIn.length + prbsLen - 1) / prbsLen
  let seq := (tile seq prbsRep).take dataIn.length
  compareBits dataIn seq lossTh

/-- One iteration of the loop in checker.py 69-83 (`prbs_checker_economy`). -/
def econStep (p : PrbsEnum) (dataIn : List Int) (lossTh : Int) (seedStart : Nat) : Py CheckResult := do
  let seed := (dataIn.drop seedStart).take p.value
  let (prbsSeq, _) ← prbsGenerator (getPolynomial p) seed.reverse
    ((dataIn.length : Int) - seedStart - p.value)
  let ref := (dataIn.drop seedStart).take p.value ++ prbsSeq
  if (dataIn.drop seedStart).length ≠ ref.length then .error .valueError
  else
    let errorBit := List.zipWith (fun a b => decide (a ≠ b)) (dataIn.drop seedStart) ref
    let n : Int := errorBit.count true
    return ⟨decide (n ≥ lossTh), dataIn.length - n, errorBit⟩

/-- The `for seed_start in range(n)` loop with `break` (checker.py 69-85): run from `seedStart` with
`k` iterations left, `last` being the values bound by the previous iteration. Returning with no
iteration done would be an UnboundLocalError. -/
def econLoop (p : PrbsEnum) (dataIn : List Int) (lossTh : Int) :
    Nat → Nat → Option CheckResult → Py CheckResult
  | 0, _, some r => .ok r
  | 0, _, none => .error .unboundLocal
  | k + 1, seedStart, _ => do
    let r ← econStep p dataIn lossTh seedStart
    if r.lostLock then econLoop p dataIn lossTh k (seedStart + 1) (some r) else return r

/-- CommDspy/rx/checker.py 53-86 `prbs_checker_economy(prbs_type, data_in, loss_th)`. -/
def prbsCheckerEconomy (p : PrbsEnum) (dataIn : List Int) (lossTh : Int) : Py CheckResult :=
  econLoop p dataIn lossTh p.value 0 none

end Verif
