import Verif.Model.Basic

/-! Framing and rate-change helpers of CommDspy/auxiliary.py. Values are of any type with a zero; the
round trip of integer signals through float64 in `np.concatenate` (exact up to 2^53) is not modelled. -/

namespace Verif

variable {α : Type _} [Zero α] [DecidableEq α]

/-- `scipy.linalg.hankel(c, r)`: row `i`, column `j` is entry `i+j` of `c` followed by `r[1:]`. -/
def hankel (c r : List α) : List (List α) :=
  (List.range c.length).map (fun i => (List.range r.length).map (fun j => (c ++ r.drop 1).getD (i + j) 0))

/-- `np.arange(0, stop, step)` for a positive step -/
def arange (stop step : Nat) : List Nat := (List.range ((stop + step - 1) / step)).map (· * step)

/-- NumPy `row in mat` for 2-D `mat` and 1-D `row` of as many entries as `mat` has columns: some entry of
`mat` equals the entry of `row` in the same column (not: some row of `mat` equals `row`). -/
def npIn (row : List α) (mat : List (List α)) : Bool :=
  mat.any (fun m => (List.zipWith (fun a b => decide (a = b)) m row).any id)

/-- CommDspy/auxiliary.py 97-117: the frames before clipping. Simplified: `length` and `delay` are not
negative. -/
def bufferFrames (signal : List α) (length : Nat) (overlap : Int) (delay : Nat) : Py (List (List α)) :=
  let fullLen := delay + signal.length + length
  let signalFull := List.replicate delay 0 ++ signal ++ List.replicate length 0
  let hank := hankel signalFull (signalFull.reverse.take length)
  let stride : Int := length - overlap
  if stride = 0 then .error .zeroDivision
  else if signal = [] then .error .indexError
  else
    let starts := if stride < 0 then [] else arange fullLen stride.toNat
    let matrix := starts.map (fun i => hank.getD i [])
    -- lines 115-117: the starts that occur in arange(full_len - length - max(overlap, 0), full_len)
    let toRemove := starts.countP (fun (i : Nat) =>
      decide ((fullLen : Int) - length - max overlap 0 ≤ i) && decide (i < fullLen))
    .ok (matrix.take (matrix.length - toRemove))

/-- CommDspy/auxiliary.py 77-120 `buffer(signal, length, overlap, delay, clip)`.
Simplified: `clip` on a signal shorter than a frame compares arrays of different widths, which raises in
current NumPy (ValueError) and is false with a warning in old versions. -/
def buffer (signal : List α) (length : Nat) (overlap : Int) (delay : Nat) (clip : Bool := false) :
    Py (List (List α)) := do
  let matrix ← bufferFrames signal length overlap delay
  if clip then
    match matrix.getLast? with
    | none => .error .indexError
    | some row =>
      if signal.length < length ∧ signal.length ≠ 1 then .error .valueError
      else if npIn row (hankel signal (signal.reverse.take length)).dropLast then return matrix
      else return matrix.dropLast
  else return matrix

/-- CommDspy/auxiliary.py 122-130 `upsample(signal, rate)`: the columns of the `rate` times `len` matrix
with `signal` as first row and zeros below, read column by column. -/
def upsample (signal : List α) (rate : Nat) : Py (List α) :=
  if rate = 0 then .error .valueError
  else .ok (signal.map (fun x => x :: List.replicate (rate - 1) 0)).flatten

/-- CommDspy/auxiliary.py 132-138 `zoh(signal, hold_idx)` -/
def zoh (signal : List α) (hold : Nat) : List α := (signal.map (fun x => List.replicate hold x)).flatten

end Verif
