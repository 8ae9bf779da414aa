import Verif.Model.Coding
import Verif.Model.Linear
import Verif.Model.Conv
import Verif.Model.Prbs

/-!
Model of the coding chain and of the convergence control of example_simulation
(simulation_parts/transmitter.py, receiver.py, full_link.py, simulation.py).
-/

namespace Verif

/-- The values of `bits_per_symbol` that the branches of transmitter.py 67-81 distinguish
(constants.py 11: `np.log2(len(LEVELS))`): an integer, `log2(3)` (PAM3, above one and not an integer)
and a non-integer below one. -/
inductive BitsPerSymbol where
  | whole (b : Nat)
  | log2of3
  | belowOne
deriving DecidableEq, Repr

/-- data_objects.py 11-46 `CodingData`. The attribute `G` is a matrix for the linear code and a
dictionary for the convolutional code; the model keeps two fields, so a configuration with both codes
switched on (which would need two different `G`) is not represented faithfully. -/
structure CodingData where
  bps : BitsPerSymbol
  constellation : Constellation
  chunkSize : Nat := 64
  flags : SymFlags := {}
  gray : Bool := false
  differential : Bool := false
  binDifferential : Bool := false
  manchester : Bool := false
  bipolar : Bool := false
  mlt3 : Bool := false
  diffManchester : Bool := false
  linear : Bool := false
  conv : Bool := false
  gLinear : List (List Int) := []
  gConv : ConvG := []
  feedback : ConvFb := none
  useFeedback : ConvUf := none

/-- One optional stage `if flag: x = stage(x)`. -/
def optStage (flag : Bool) (stage : List Int → Py (List Int)) (x : List Int) : Py (List Int) :=
  if flag then stage x else .ok x

/-- transmitter.py 49-63, the binary stages of `Encoder.__call__`. `rnd` is the float rounding of the
convolutional encoder (see `codingConv`). -/
def encodeBinary (rnd : Int → Int) (d : CodingData) (p : List Int) : Py (List Int) := do
  let x ← optStage d.binDifferential (fun x => .ok (codingDifferential x .ook)) p
  let x ← optStage d.manchester codingManchester x
  let x ← optStage d.bipolar codingBipolar x
  let x ← optStage d.mlt3 codingMlt3 x
  let x ← optStage d.diffManchester codingDiffManchester x
  let x ← optStage d.linear (fun x => codingLinear x d.gLinear) x
  optStage d.conv (fun x => codingConv rnd x d.gConv d.feedback d.useFeedback) x

/-- transmitter.py 67-81, conversion of bits to symbols in `Encoder.__call__`. `2**log2(3)` is not a
power of two, so `bin2symbol` gets the number 3. -/
def encodeSymbols (d : CodingData) (x : List Int) : Py (List Int) :=
  match d.bps with
  | .whole b =>
    if b > 1 then bin2symbol x (2 ^ b) d.flags
    else .ok (if d.flags.pnInv then x.map (fun v => 1 - v) else x)
  | .log2of3 => bin2symbol x 3 d.flags
  | .belowOne => .ok (if d.flags.pnInv then x.map (fun v => 2 - v) else x)

/-- transmitter.py 85-88, the symbol stages of `Encoder.__call__`. -/
def encodeOuter (d : CodingData) (x : List Int) : Py (List Int) := do
  let x ← optStage d.differential (fun x => .ok (codingDifferential x d.constellation)) x
  optStage d.gray (fun x => codingGray x d.constellation) x

/-- transmitter.py 45-90 `Encoder.__call__`. -/
def encoder (rnd : Int → Int) (d : CodingData) (p : List Int) : Py (List Int) := do
  let x ← encodeBinary rnd d p
  let x ← encodeSymbols d x
  encodeOuter d x

/-- receiver.py 112-115, the symbol stages of `Decoder.__call__`: the flag `coding_gray` switches the
differential decoder and the flag `coding_differential` switches the Gray decoder. -/
def decodeOuter (d : CodingData) (x : List Int) : Py (List Int) := do
  let x ← optStage d.gray (fun x => decodingDifferential x d.constellation) x
  optStage d.differential (fun x => decodingGray x d.constellation) x

/-- receiver.py 119-133, conversion of symbols to bits in `Decoder.__call__`. `symbol2bin` with
`2**log2(3)` truncates `log2` to one bit per symbol, see `symbol2bin`. -/
def decodeSymbols (d : CodingData) (x : List Int) : Py (List Int) :=
  match d.bps with
  | .whole b =>
    if b > 1 then symbol2bin x (2 ^ b) d.flags
    else .ok (if d.flags.pnInv then x.map (fun v => 1 - v) else x)
  | .log2of3 => symbol2bin x 3 d.flags
  | .belowOne => .ok (if d.flags.pnInv then x.map (fun v => 2 - v) else x)

/-- receiver.py 141-153: the binary stages after the Manchester decoder. The order is that of the
encoder, not the reverse. -/
def decodeBinaryTail (d : CodingData) (x : List Int) : Py (List Int) := do
  let x ← optStage d.bipolar (fun x => .ok (decodingBipolar x)) x
  let x ← optStage d.mlt3 decodingMlt3 x
  let x ← optStage d.diffManchester decodingDiffManchester x
  let x ← optStage d.linear (fun x => decodingLinear x d.gLinear) x
  optStage d.conv (fun x => (decodingConvViterbi x d.gConv d.chunkSize d.feedback d.useFeedback).map Prod.fst) x

/-- receiver.py 137-153, the binary stages of `Decoder.__call__`. The Manchester decoder returns
halves for cells without a transition; simplified: when such a value is followed by a further stage
the outcome is not modelled and the model reports ValueError (no theorem speaks about that case). -/
def decodeBinary (d : CodingData) (x : List Int) : Py (List ℚ) := do
  let x ← optStage d.binDifferential (fun x => decodingDifferential x .ook) x
  if d.manchester then
    let y ← decodingManchester x
    if y.all (fun q => q.den = 1) then
      let z ← decodeBinaryTail d (y.map Rat.num)
      return z.map (fun (v : Int) => (v : ℚ))
    else if d.bipolar || d.mlt3 || d.diffManchester || d.linear || d.conv then .error .valueError
    else return y
  else
    let z ← decodeBinaryTail d x
    return z.map (fun (v : Int) => (v : ℚ))

/-- receiver.py 107-154 `Decoder.__call__`. -/
def decoder (d : CodingData) (s : List Int) : Py (List ℚ) := do
  let x ← decodeOuter d s
  let x ← decodeSymbols d x
  decodeBinary d x

/-! ### convergence control -/

/-- The control attributes of `Receiver` (receiver.py 180-193): mean squared error of the last chunk,
the four control bits, phase. A mean squared error that is NaN or infinite is `none`. -/
structure RxState where
  converge : Bool := false
  lms : Bool := false
  cdr : Bool := false
  done : Bool := false
  mseLast : Option ℚ := some 1000
  phase : Int
  maxPhase : Int
deriving DecidableEq, Repr

/-- receiver.py 248: `abs(mse - last) > 10 ** (-40 / 20)`. A difference with NaN is NaN, the
difference of equal infinities is NaN, and comparisons with NaN are false; the two operands are always
the same object here, so `none` stands for all of these. -/
def mseExceeds (mse last : Option ℚ) : Bool :=
  match mse, last with
  | some a, some b => decide (|a - b| > 1 / 100)
  | _, _ => false

/-- What a chunk presents to the control logic: the Mueller-Muller step (receiver.py 223), and the
mean squared error returned by the gradient function (239). -/
structure ChunkObs where
  mmStep : Int
  mse : Option ℚ
deriving DecidableEq, Repr

/-- receiver.py 222-234: CDR update. -/
def cdrStage (o : ChunkObs) (s : RxState) : RxState :=
  if s.cdr then
    { s with phase := (s.phase + o.mmStep) % s.maxPhase, cdr := if o.mmStep = 0 then false else s.cdr }
  else s

/-- receiver.py 238-249: LMS update. `haveGrad` says whether `cdsp.rx.lms_grad` exists; the package
exports only `ddlms_grad` and `soft_ddlms_grad` (CommDspy/rx/__init__.py 11), so in the code as
shipped it is false and the attribute access raises AttributeError. The stored error is overwritten
(244) before it is compared (248). The tap updates are not modelled. -/
def lmsStage (haveGrad : Bool) (o : ChunkObs) (s : RxState) : Py RxState :=
  if s.lms then
    if haveGrad then
      let s := { s with mseLast := o.mse }
      .ok (if mseExceeds o.mse s.mseLast then { s with lms := false } else s)
    else .error .attributeError
  else .ok s

/-- receiver.py 206-252: control part of `Receiver.digital_stage` (the numerical part is covered by
the models of `ffe_dfe`, `slicer` and `power`). -/
def digitalStage (haveGrad : Bool) (o : ChunkObs) (s : RxState) : Py RxState :=
  if s.converge then do
    let s ← lmsStage haveGrad o (cdrStage o s)
    return (if !s.cdr && !s.lms then { s with converge := false, done := true } else s)
  else .ok s

/-- full_link.py 22-27 `start_convergence`. -/
def startConvergence (s : RxState) : RxState := { s with converge := true, lms := true, cdr := true }

/-- simulation.py 34-39: the loop of `perform_convergence` run for at most `fuel` chunks, with the
observations of chunk `k` given by `obs k`. `ok none` means that the loop is still running. -/
def convergenceLoop (haveGrad : Bool) (obs : Nat → ChunkObs) : Nat → Nat → RxState → Py (Option (Nat × RxState))
  | 0, k, s => .ok (if s.done then some (k, s) else none)
  | fuel + 1, k, s =>
    if s.done then .ok (some (k, s))
    else do
      let s ← digitalStage haveGrad (obs k) s
      convergenceLoop haveGrad obs fuel (k + 1) s

/-- simulation.py 29-39 `perform_convergence`: one chunk before the control bits are set. -/
def performConvergence (haveGrad : Bool) (obs : Nat → ChunkObs) (fuel : Nat) (s : RxState) :
    Py (Option (Nat × RxState)) := do
  let s ← digitalStage haveGrad (obs 0) s
  convergenceLoop haveGrad obs fuel 1 (startConvergence s)

/-! ### the pattern generator of the simulation -/

end Verif
