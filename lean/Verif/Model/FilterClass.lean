import Verif.Model.Filter
import Mathlib.Data.Rat.Defs

/-!
Model of the stateful filter classes of CommDspy/misc/help_classes.py and of the noise-free
`awgn_channel` of CommDspy/channel/additive_noise_functions.py, in exact arithmetic over a field.

For `a[0] = 0` the classes divide by zero, which NumPy answers by inf/nan and a warning; the model
inherits the value of `x / 0` of the field there, and every theorem assumes `a[0] ≠ 0`.
-/

namespace Verif

variable {F : Type*} [Field F]

/-- `np.dot(u, v)` of two vectors of equal length. -/
def dotL (u v : List F) : F := (List.zipWith (· * ·) u v).sum

/-- CommDspy/misc/help_classes.py 21-26: the attributes of a `Filter` object. -/
structure FilterObj (F : Type*) where
  b : List F
  a : List F
  zFir : List F
  zIir : List F

/-- CommDspy/misc/help_classes.py 28-34 `Filter.set_z_fir`: the new value of `_z_fir` -/
def setZFir (b : List F) : Option (List F) → Py (List F)
  | none => .ok (List.replicate b.length 0)
  | some z => if z.length = b.length then .ok z else .error .valueError

/-- CommDspy/misc/help_classes.py 36-42 `Filter.set_z_iir`: the new value of `_z_iir`. For an empty `a`
the deque would have the negative `maxlen = -1` (ValueError), and no given vector has length -1. -/
def setZIir (a : List F) : Option (List F) → Py (List F)
  | none => if a.length = 0 then .error .valueError else .ok (List.replicate (a.length - 1) 0)
  | some z => if z.length + 1 = a.length then .ok z else .error .valueError

/-- CommDspy/misc/help_classes.py 6-26 `Filter.__init__` -/
def filterInit (b a : List F) (zFir zIir : Option (List F)) : Py (FilterObj F) := do
  let zf ← setZFir b zFir
  let zi ← setZIir a zIir
  return ⟨b, a, zf, zi⟩

/-- CommDspy/misc/help_classes.py 44-49 `Filter._process(x)`: `appendleft` on a deque with `maxlen`
drops the rightmost element. -/
def filterProcess (f : FilterObj F) (x : F) : F × FilterObj F :=
  let zf := (x :: f.zFir).take f.b.length
  let a0y := dotL f.b zf - dotL (f.a.drop 1) f.zIir
  let y := a0y / f.a.getD 0 0
  (y, { f with zFir := zf, zIir := (y :: f.zIir).take (f.a.length - 1) })

/-- CommDspy/misc/help_classes.py 51-55 `Filter.__call__(data_chunk)`. `store` is the conversion done by
the assignment into `np.zeros_like(data_chunk)`: the identity for a float chunk, truncation towards zero
for an integer chunk. -/
def filterCall (store : F → F) : FilterObj F → List F → List F × FilterObj F
  | f, [] => ([], f)
  | f, x :: xs =>
    let s := filterProcess f x
    let r := filterCall store s.2 xs
    (store s.1 :: r.1, r.2)

/-- the `store` of an integer chunk: NumPy's conversion of a float to an integer truncates towards zero
(values are rationals here) -/
def truncQ (q : ℚ) : ℚ := ((if 0 ≤ q then q.floor else -(-q).floor : ℤ) : ℚ)

/-- a sequence of calls of the same `Filter` object -/
def filterCalls (store : F → F) : FilterObj F → List (List F) → List (List F) × FilterObj F
  | f, [] => ([], f)
  | f, c :: cs =>
    let s := filterCall store f c
    let r := filterCalls store s.2 cs
    (s.1 :: r.1, r.2)

/-- CommDspy/misc/help_classes.py 107-112: the attributes of a `FilterTII` object -/
structure TiiObj (F : Type*) where
  b : List F
  a : List F
  z : List F
  bVec : List F
  aVec : List F

/-- CommDspy/misc/help_classes.py 114-121 `FilterTII.set_z`: the new value of `_z`. (For `b` and `a` both
empty `z_len = -1`; `[0] * -1` is empty and no given vector has that length.) -/
def setZ (b a : List F) : Option (List F) → Py (List F)
  | none => .ok (List.replicate (max b.length a.length - 1) 0)
  | some z => if z.length + 1 = max b.length a.length then .ok z else .error .valueError

/-- CommDspy/misc/help_classes.py 111-112: `v[1:]` padded by `max(len(z) - len(v) + 1, 0)` zeros -/
def padTail (zlen : Nat) (v : List F) : List F := v.drop 1 ++ List.replicate (zlen + 1 - v.length) 0

/-- CommDspy/misc/help_classes.py 58-112 `FilterTII.__init__` -/
def tiiInit (b a : List F) (z : Option (List F)) : Py (TiiObj F) := do
  let z ← setZ b a z
  return ⟨b, a, z, padTail z.length b, padTail z.length a⟩

/-- element-wise sum of vectors of equal length -/
def addL (u v : List F) : List F := List.zipWith (· + ·) u v

/-- CommDspy/misc/help_classes.py 128-130: the new delay line for input `x` and fed back value `y` -/
def tiiAdvance (t : TiiObj F) (x y : F) : List F :=
  let zTemp := t.z.drop 1 ++ [0]
  List.zipWith (· - ·) (addL (t.bVec.map (x * ·)) zTemp) (t.aVec.map (y * ·))

/-- CommDspy/misc/help_classes.py 123-131 `FilterTII._process(x)`: IndexError if `b`, `_z` or `a` is
empty. -/
def tiiProcess (t : TiiObj F) (x : F) : Py (F × TiiObj F) :=
  if t.b.length = 0 ∨ t.z.length = 0 ∨ t.a.length = 0 then .error .indexError
  else
    let a0y := t.b.getD 0 0 * x + t.z.getD 0 0
    let y := a0y / t.a.getD 0 0
    .ok (y, { t with z := tiiAdvance t x y })

/-- CommDspy/misc/help_classes.py 133-137 `FilterTII.__call__(data_chunk)`; `process` is the bound method
(`FfeDfeFilterTII` overrides it), `store` as in `filterCall`. -/
def tiiCall {σ : Type*} (process : σ → F → Py (F × σ)) (store : F → F) : σ → List F → Py (List F × σ)
  | t, [] => .ok ([], t)
  | t, x :: xs => do
    let s ← process t x
    let r ← tiiCall process store s.2 xs
    return (store s.1 :: r.1, r.2)

/-- a sequence of calls of the same object -/
def tiiCalls {σ : Type*} (process : σ → F → Py (F × σ)) (store : F → F) :
    σ → List (List F) → Py (List (List F) × σ)
  | t, [] => .ok ([], t)
  | t, c :: cs => do
    let s ← tiiCall process store t c
    let r ← tiiCalls process store s.2 cs
    return (s.1 :: r.1, r.2)

/-- the argument `a` of `awgn_channel`: a list / array, or a number -/
inductive Denom (F : Type*) where
  | vec (a : List F)
  | num (a : F)

/-- the coefficients SciPy sees (`np.atleast_1d(a)`) -/
def Denom.coeffs : Denom F → List F
  | .vec a => a
  | .num a => [a]

/-- CommDspy/channel/additive_noise_functions.py 61-65: the memory used for `zi=None` -/
def channelRest (b : List F) : Denom F → List F
  | .vec a => List.replicate (max a.length b.length - 1) 0
  | .num _ => List.replicate (max 1 b.length - 1) 0

/-- CommDspy/channel/additive_noise_functions.py 35-73 `awgn_channel(signal, b, a, snr=None, zi)`: output
and final memory. With `snr` given, lines 70-71 add the noise of `awgn`. (`a` an empty list and `b` an
empty list: `np.zeros(-1)` raises ValueError, as does `lfilter`.) -/
def awgnChannel [DecidableEq F] (signal b : List F) (a : Denom F) (zi : Option (List F)) :
    Py (List F × List F) :=
  lfilter b a.coeffs signal (zi.getD (channelRest b a))

/-- A signal passed through `awgn_channel` in chunks, handing the returned memory to the next call. -/
def awgnChannelChunks [DecidableEq F] (b : List F) (a : Denom F) :
    Option (List F) → List (List F) → Py (List (List F) × Option (List F))
  | zi, [] => .ok ([], zi)
  | zi, c :: cs => do
    let s ← awgnChannel c b a zi
    let r ← awgnChannelChunks b a (some s.2) cs
    return (s.1 :: r.1, r.2)

end Verif
