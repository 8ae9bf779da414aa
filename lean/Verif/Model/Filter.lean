import Mathlib.Algebra.Ring.Defs
import Mathlib.Algebra.Field.Defs
import Verif.Model.Basic

/-!
`scipy.signal.lfilter` as used by CommDspy (tx/coding.py 46 and 318, channel/additive_noise_functions.py
66, rx/ctle_model.py 54, channel/pulse_shaping.py 40, rx/decoding.py 47, digital_delay.py 127).

SciPy is not part of /repo; this is the transposed direct form II recursion that SciPy documents and
implements in `linear_filter`. For a denominator of length one SciPy evaluates the same sums by
`np.convolve`; the model uses the same recursion (a different summation order only).

Every function takes a rounding function `rnd` that is applied after each arithmetic operation:
`id` gives exact arithmetic, other choices model floating point.
-/

namespace Verif

variable {K : Type*} [Ring K]

/-- One step of the filter: `b`, `a` normalised (`a[0] = 1`), `z` the delay line. Returns the output and
the new delay line. -/
def lfStep (rnd : K → K) (b a z : List K) (x : K) : K × List K :=
  let y := rnd (z.getD 0 0 + rnd (b.getD 0 0 * x))
  (y, (List.range z.length).map (fun i =>
    rnd (rnd (z.getD (i + 1) 0 + rnd (x * b.getD (i + 1) 0)) - rnd (y * a.getD (i + 1) 0))))

/-- The filter over a whole input: outputs and final delay line. -/
def lfRun (rnd : K → K) (b a : List K) : List K → List K → List K × List K
  | z, [] => ([], z)
  | z, x :: xs =>
    let s := lfStep rnd b a z x
    let r := lfRun rnd b a s.2 xs
    (s.1 :: r.1, r.2)

/-- `scipy.signal.lfilter(b, a, x, zi=zi)` in exact arithmetic: a vanishing `a[0]` or a `zi` of a
length other than `max(len(a), len(b)) - 1` raises ValueError, coefficients are divided by `a[0]`. For a
denominator of length one SciPy calls `np.convolve(b, x)`, which raises ValueError for an empty `x`. -/
def lfilter {F : Type*} [Field F] [DecidableEq F] (b a x zi : List F) : Py (List F × List F) :=
  if b.length = 0 ∨ a.length = 0 ∨ a.getD 0 0 = 0 then .error .valueError
  else if zi.length ≠ max b.length a.length - 1 then .error .valueError
  else if a.length = 1 ∧ x.length = 0 then .error .valueError
  else
    let a0 := a.getD 0 0
    .ok (lfRun id (b.map (· / a0)) (a.map (· / a0)) zi x)

/-- IEEE double precision rounding (to nearest, ties to even) of an integer result below the overflow
threshold: integers of at most 53 bits are kept, larger ones lose their low bits. -/
def rnd53 (n : Int) : Int :=
  if n.natAbs < 2 ^ 53 then n
  else
    let e := n.natAbs.log2 - 52
    let q := n.natAbs / 2 ^ e
    let r := n.natAbs % 2 ^ e
    let q' := if 2 * r < 2 ^ e then q else if 2 ^ e < 2 * r then q + 1 else q + q % 2
    n.sign * ((q' * 2 ^ e : Nat) : Int)

end Verif
