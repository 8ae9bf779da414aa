import Verif.Model.SimLink
import Verif.Model.Sim
import Verif.Model.Ctle

/-!
Model of the whole link of the example simulation (example_simulation/simulation_parts/transmitter.py, receiver.py and
full_link.py), without convergence (`converge = False`, the state in which the objects are created): transmitter, channel and
receiver called in turn, chunk by chunk.
-/

namespace Verif

/-- The settings of a link: the data objects of example_simulation/simulation_parts/data_objects.py as they are stored in the
blocks. `txLevels` is the attribute `levels` of `MappingData` (see `mappingDataLevels`), `rnd` the rounding in the convolutional
encoder (see `codingConv`). -/
structure LinkArgs where
  prbs : PrbsEnum
  chunk : ℕ
  rnd : Int → Int
  coding : CodingData
  constellation : Constellation
  txLevels : List ℝ
  amp : ℝ
  rxFactor : ℝ
  chan : ChannelArgs
  zeros : List ℝ
  poles : List ℝ
  dcGain : ℝ
  fs : ℝ
  ctleOsr : ℝ
  totalBits : ℕ
  fracBits : ℕ
  quant : FixType
  adcOsr : ℕ
  sampleRate : ℕ
  phase : ℕ
  digGain : ℝ := 1

/-- The memory of `Receiver` (receiver.py 155-193) that later calls read: that of the CTLE and that of the equalizer. -/
structure RxMem where
  ctleZi : List ℝ
  eq : EqObj ℝ

/-- What one call of the receiver leaves in its attributes `demapped_chunk` and `decoded_chunk` (receiver.py 254-259). -/
structure RxOut where
  demapped : List Int
  decoded : List ℚ

/-- example_simulation/simulation_parts/receiver.py 11-14 (`Ctle.__init__`): the initial memory. -/
def ctleObjInit (zeros poles : List ℝ) (zi : Option (List ℝ)) : List ℝ :=
  zi.getD (List.replicate (max zeros.length poles.length) 0)

/-- example_simulation/simulation_parts/receiver.py 16-21 `Ctle.__call__`: the output and the new memory; `none` when the
coefficients are NaN. -/
noncomputable def ctleObjCall (zeros poles : List ℝ) (dcGain fs osr : ℝ) (zi chunk : List ℝ) :
    Py (Option (List ℝ × List ℝ)) := do
  match ← ctle chunk zeros poles dcGain fs osr (some zi) with
  | none => return none
  | some (y, some z) => return some (y, z)
  | some (_, none) => .error .valueError

/-- successive calls of one CTLE object -/
noncomputable def ctleObjCalls (zeros poles : List ℝ) (dcGain fs osr : ℝ) :
    List ℝ → List (List ℝ) → Py (Option (List (List ℝ) × List ℝ))
  | zi, [] => .ok (some ([], zi))
  | zi, c :: cs => do
    match ← ctleObjCall zeros poles dcGain fs osr zi c with
    | none => return none
    | some s =>
      match ← ctleObjCalls zeros poles dcGain fs osr s.2 cs with
      | none => return none
      | some r => return some (s.1 :: r.1, r.2)

/-- example_simulation/simulation_parts/transmitter.py 105-111 `Transmitter.generate`: the pattern chunk, the encoded chunk, the
mapped chunk and the new seed of the generator. -/
noncomputable def transmitterCall (a : LinkArgs) (seed : List Int) :
    Py ((List Int × List Int × List ℝ) × List Int) := do
  let s ← prbsGenerator (getPolynomial a.prbs) seed a.chunk
  let sym ← encoder a.rnd a.coding s.1
  let sent ← transmitSymbols sym a.constellation a.txLevels
  return ((s.1, sym, sent), s.2)

/-- `k` successive calls of one transmitter -/
noncomputable def transmitterCalls (a : LinkArgs) :
    ℕ → List Int → Py (List (List Int × List Int × List ℝ) × List Int)
  | 0, seed => .ok ([], seed)
  | k + 1, seed => do
    let s ← transmitterCall a seed
    let r ← transmitterCalls a k s.2
    return (s.1 :: r.1, r.2)

/-- example_simulation/simulation_parts/receiver.py 195-206 and 254-265 `Receiver.__call__` with `converge = False`: CTLE,
converter, equalizer, digital gain, slicer, demapper, decoder. Simplified: NaN coefficients of the CTLE end the model with
`none`. -/
noncomputable def receiverCall (a : LinkArgs) (st : RxMem) (chunk : List ℝ) : Py (Option (RxOut × RxMem)) := do
  match ← ctleObjCall a.zeros a.poles a.dcGain a.fs a.ctleOsr st.ctleZi chunk with
  | none => return none
  | some (w, zi) =>
    let d ← adcCall a.totalBits a.fracBits a.quant a.adcOsr a.sampleRate a.phase w
    let e ← eqCall st.eq d
    let s ← recoverSymbols (e.1.map (fun v => a.digGain * v)) a.constellation
      (receiverLevels a.txLevels a.amp a.rxFactor)
    let bits ← decoder a.coding s
    return some (⟨s, bits⟩, ⟨zi, e.2⟩)

/-- successive calls of one receiver -/
noncomputable def receiverCalls (a : LinkArgs) : RxMem → List (List ℝ) → Py (Option (List RxOut × RxMem))
  | st, [] => .ok (some ([], st))
  | st, c :: cs => do
    match ← receiverCall a st c with
    | none => return none
    | some s =>
      match ← receiverCalls a s.2 cs with
      | none => return none
      | some r => return some (s.1 :: r.1, r.2)

/-- The memory of the whole link. -/
structure LinkState where
  seed : List Int
  ch : ChannelMem
  rx : RxMem

/-- What one call of the link leaves behind: pattern, encoded symbols and the outputs of the receiver. -/
structure LinkOut where
  pattern : List Int
  symbols : List Int
  rx : RxOut

/-- example_simulation/simulation_parts/full_link.py 29-39 `FullLink.__call__`; `noise` are the standard normal samples that
the channel draws in this call. A channel output that is no signal (NaN or `None`) ends the model with `none`. -/
noncomputable def linkCall (a : LinkArgs) (noise : List ℝ) (st : LinkState) : Py (Option (LinkOut × LinkState)) := do
  let t ← transmitterCall a st.seed
  match ← channelCall a.chan st.ch noise t.1.2.2 with
  | (.signal y, ch) =>
    match ← receiverCall a st.rx y with
    | none => return none
    | some r => return some (⟨t.1.1, t.1.2.1, r.1⟩, ⟨t.2, ch, r.2⟩)
  | _ => return none

/-- successive calls of the link, `noises` are the standard normal samples drawn by the channel in each call
(example_simulation/simulation_parts/simulation.py 29-39 calls the link once per chunk). -/
noncomputable def linkCalls (a : LinkArgs) : List (List ℝ) → LinkState → Py (Option (List LinkOut × LinkState))
  | [], st => .ok (some ([], st))
  | nz :: nzs, st => do
    match ← linkCall a nz st with
    | none => return none
    | some s =>
      match ← linkCalls a nzs s.2 with
      | none => return none
      | some r => return some (s.1 :: r.1, r.2)

end Verif
