import Verif.Model.FilterClass
import Verif.Model.Framing
import Verif.Model.Slicer

/-! Model of CommDspy/rx/ffe_dfe_model.py and of `FfeDfeFilterTII` (CommDspy/misc/help_classes.py), in exact
arithmetic over an ordered field. -/

namespace Verif

variable {K : Type} [Field K] [LinearOrder K]

/-- `slicer(np.array([x]), levels)` for a single value: CommDspy/rx/slicer.py 3-37 (see `slicer`), entry 0. -/
def sliceScalar (levels : Option (List K)) (x : K) : Py K :=
  let lv := levels.getD [-3, -1, 1, 3]
  if lv.length = 0 then .error .valueError else .ok (sliceOne lv x)

/-- What `ffe_dfe` returns: the output alone (line 54), output and FFE memory (line 79), output and DFE
memory (line 108), or output and both memories (line 110). -/
inductive EqOut (K : Type) where
  | plain (y : List K)
  | ffe (y zFfe : List K)
  | dfe (y zDfe : List K)
  | both (y zFfe zDfe : List K)
deriving DecidableEq

/-- the returned signal -/
def EqOut.signal : EqOut K → List K
  | .plain y => y
  | .ffe y _ => y
  | .dfe y _ => y
  | .both y _ _ => y

/-- the returned memories, to be passed as `zi_ffe` / `zi_dfe` of the next call (`None` if not returned) -/
def EqOut.memories : EqOut K → Option (List K) × Option (List K)
  | .plain _ => (none, none)
  | .ffe _ z => (some z, none)
  | .dfe _ w => (none, some w)
  | .both _ z w => (some z, some w)

/-- `scipy.signal.convolve(taps, ext, mode='valid')` for `len(ext) >= len(taps)`: direct evaluation; SciPy
may choose an FFT, which differs in rounding only. -/
def convValid (taps ext : List K) : List K :=
  (List.range (ext.length + 1 - taps.length)).map (fun (n : Nat) =>
    ((List.range taps.length).map (fun i => taps.getD i 0 * ext.getD (n + taps.length - 1 - i) 0)).sum)

/-- CommDspy/rx/ffe_dfe_model.py 103-106: the DFE memory after sample `ii`. `sOut` are the decisions of the
samples up to `ii`. -/
def dfeMemory (dfeLen osr : Nat) (phase : Int) (ii : Nat) (sOut mem : List K) : List K :=
  if (ii : Int) % osr = (phase + (osr / 2 : Nat)) % osr then
    if osr / 2 ≤ ii then
      if dfeLen > 1 then sOut.getD (ii - osr / 2) 0 :: mem.dropLast else [sOut.getD (ii - osr / 2) 0]
    else mem
  else mem

/-- CommDspy/rx/ffe_dfe_model.py 89-106: the loop over the buffered signal, from sample `ii` on, with the
decisions made so far and the current DFE memory; returns the slicer inputs and the final DFE memory.
`dot` of vectors of different lengths raises ValueError, `% osr` for `osr = 0` ZeroDivisionError.
Simplified: `osr` is not negative. -/
def dfeLoop (ffe dfe : List K) (levels : Option (List K)) (osr : Nat) (phase : Int) :
    Nat → List K → List K → List (List K) → Py (List K × List K)
  | _, _, mem, [] => .ok ([], mem)
  | ii, sOut, mem, fr :: frs =>
    if fr.length ≠ ffe.length ∨ mem.length ≠ dfe.length then .error .valueError
    else do
      let s := dotL fr ffe.reverse - dotL mem dfe
      let d ← sliceScalar levels s
      if osr = 0 then .error .zeroDivision
      else
        let r ← dfeLoop ffe dfe levels osr phase (ii + 1) (sOut ++ [d])
          (dfeMemory dfe.length osr phase ii (sOut ++ [d]) mem) frs
        return (s :: r.1, r.2)

/-- CommDspy/rx/ffe_dfe_model.py 61-67: the initial DFE memory. A memory of the wrong length raises
TypeError: formatting the message of the intended ValueError with `{dfe_taps:d}` fails for an array. -/
def initDfe (dfe : List K) : Option (List K) → Py (List K)
  | none => .ok (List.replicate dfe.length 0)
  | some z => if z.length = dfe.length then .ok z else .error .typeError

/-- CommDspy/rx/ffe_dfe_model.py 68-73: the samples preceding the input. `np.zeros(-1)` raises ValueError; a
memory of any length other than `len(ffe_taps)` raises TypeError, as line 72 evaluates `len` of an
integer. -/
def initFfe (ffe : List K) : Option (List K) → Py (List K)
  | none => if ffe.length = 0 then .error .valueError else .ok (List.replicate (ffe.length - 1) 0)
  | some z => if z.length = ffe.length then .ok (z.drop 1) else .error .typeError

/-- CommDspy/rx/ffe_dfe_model.py 7-110 `ffe_dfe(input_signal, ffe_taps, dfe_taps, levels, osr, phase, zi_ffe,
zi_dfe)` on NumPy vectors; `dfe = none` stands for `dfe_taps=None`.
Simplified: an empty `input_signal` or empty `ffe_taps` that reach the convolution (line 78) are reported as
ValueError (SciPy swaps the operands of a 'valid' convolution when the signal is the shorter one). -/
def ffeDfe (x ffe : List K) (dfe : Option (List K)) (levels : Option (List K)) (osr : Nat) (phase : Int)
    (ziFfe ziDfe : Option (List K)) : Py (EqOut K) :=
  match dfe with
  | none =>
    if ffe.length = 1 then .ok (.plain (x.map (· * ffe.getD 0 0)))
    else do
      let z ← initFfe ffe ziFfe
      if ffe.length = 0 ∨ x.length = 0 then .error .valueError
      else return .ffe (convValid ffe (z ++ x)) (lastN ffe.length x)
  | some dfe => do
    let mem ← initDfe dfe ziDfe
    let z ← initFfe ffe ziFfe
    let frames ← buffer (z ++ x) ffe.length ((ffe.length : Int) - 1) 0
    let r ← dfeLoop ffe dfe levels osr phase 0 [] mem frames
    if ffe.length = 1 then return .dfe r.1 r.2
    else match frames.getLast? with
      | none => .error .indexError
      | some fr => return .both r.1 fr r.2

/-- A signal equalized in chunks, each call receiving the memories returned by the previous one: the
documented use of the returned memories (CommDspy/rx/ffe_dfe_model.py 36-48). -/
def ffeDfeChunks (ffe : List K) (dfe : Option (List K)) (levels : Option (List K)) (osr : Nat) (phase : Int) :
    Option (List K) × Option (List K) → List (List K) →
      Py (List (List K) × (Option (List K) × Option (List K)))
  | m, [] => .ok ([], m)
  | m, c :: cs => do
    let r ← ffeDfe c ffe dfe levels osr phase m.1 m.2
    let rs ← ffeDfeChunks ffe dfe levels osr phase r.memories cs
    return (r.signal :: rs.1, rs.2)

/-- CommDspy/misc/help_classes.py 191-200 `FfeDfeFilterTII._process(x)`: IndexErrors as in
`FilterTII._process`, then the slicer's ValueError for empty levels. -/
def ffeDfeTiiProcess (levels : Option (List K)) (t : TiiObj K) (x : K) : Py (K × TiiObj K) :=
  if t.b.length = 0 ∨ t.z.length = 0 ∨ t.a.length = 0 then .error .indexError
  else do
    let a0x := t.b.getD 0 0 * x + t.z.getD 0 0
    let xtilde := a0x / t.a.getD 0 0
    let xhat ← sliceScalar levels xtilde
    return (xtilde, { t with z := tiiAdvance t x xhat })

/-- CommDspy/misc/help_classes.py 139-189 and 133-137: construction of `FfeDfeFilterTII(ffe, dfe, levels, z)` and a
sequence of calls. -/
def ffeDfeTiiCalls (store : K → K) (ffe dfe : List K) (levels : Option (List K)) (z : Option (List K))
    (cs : List (List K)) : Py (List (List K)) := do
  let t ← tiiInit ffe dfe z
  let r ← tiiCalls (ffeDfeTiiProcess levels) store t cs
  return r.1

end Verif
