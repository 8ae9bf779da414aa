import Verif.Model.SimFull
import Verif.Model.Framing
import Verif.Model.Lms
import Verif.Model.Estim

/-!
Model of the top level of the example simulation: the shipped configuration (example_simulation/constants.py and
config_file.py), the receiver with its convergence loops switched on (simulation_parts/receiver.py 155-265) and the program
(simulation_main.py, simulation_parts/simulation.py). Plotting, printing and the history lists of `Memory` are left out.
-/

namespace Verif

/-- What `Receiver` keeps between calls (receiver.py 157-193): the memories of the CTLE and the equalizer, `adc_out`,
`dig_gain`, `phase` (always equal to `adc.phase`) and the control bits. -/
structure RxFull where
  mem : RxMem
  adcOut : List ℝ := [0]
  gain : ℝ := 1
  phase : Int
  converge : Bool := false
  lms : Bool := false
  cdr : Bool := false
  done : Bool := false

/-- example_simulation/simulation_parts/receiver.py 205: the slicer output of one chunk -/
noncomputable def sliceChunk (slicerIn levels : List ℝ) : Py (List ℝ) := do
  match ← slicer (.vec slicerIn) (some levels) with
  | .vec out => return out
  | _ => .error .typeError

/-- example_simulation/simulation_parts/receiver.py 207-211: the converter samples delayed by the precursors; `last` is the
converter output of the previous chunk. -/
def delayedSamples (pre : ℕ) (last cur : List ℝ) : List ℝ :=
  if 0 < pre then last.drop (last.length - pre) ++ cur.take (cur.length - pre) else cur

/-- example_simulation/simulation_parts/receiver.py 215-216: the digital gain after a chunk; `lms_lr` is `2**(-10)` (156).
For real signals `power` is the mean of the squares (`powerL`); empty chunks are excluded by the theorems. -/
noncomputable def nextGain (gain : ℝ) (levels slicerIn : List ℝ) : ℝ :=
  gain + 100 * (1 / 2 ^ 10) * (powerL levels - powerL slicerIn)

/-- example_simulation/simulation_parts/receiver.py 222-234: clock recovery. Simplified: a chunk of one symbol, for which the
step is an integer made from NaN, is reported as ValueError (no theorem speaks about it). -/
noncomputable def cdrUpdate (osr : ℕ) (adcVec slicerOut : List ℝ) (s : RxFull) : Py RxFull :=
  if s.cdr then do
    match ← muellerMuller adcVec slicerOut 1 1 (1 / 1000) with
    | none => .error .valueError
    | some step => return { s with phase := nextPhase s.phase step osr, cdr := if step = 0 then false else s.cdr }
  else .ok s

/-- example_simulation/simulation_parts/receiver.py 206-252: the part of `digital_stage` under `if self.converge`. The module
`cdsp.rx` has no `lms_grad` (CommDspy/rx/__init__.py), so the LMS branch (238-249) raises AttributeError. -/
noncomputable def convergeStage (pre osr : ℕ) (levels last cur slicerIn slicerOut : List ℝ) (s : RxFull) : Py RxFull :=
  if s.converge then do
    let adcVec := delayedSamples pre last cur
    let s ← cdrUpdate osr adcVec slicerOut { s with gain := nextGain s.gain levels slicerIn }
    let s ← if s.lms then .error .attributeError else .ok s
    return (if !s.cdr && !s.lms then { s with converge := false, done := true } else s)
  else .ok s

/-- example_simulation/simulation_parts/receiver.py 195-265 `Receiver.__call__` with all control bits; `pre` is
`ffe_precursors`. Simplified: NaN coefficients of the CTLE end the model with `none`. -/
noncomputable def receiverFull (a : LinkArgs) (pre : ℕ) (s : RxFull) (chunk : List ℝ) : Py (Option (RxOut × RxFull)) := do
  match ← ctleObjCall a.zeros a.poles a.dcGain a.fs a.ctleOsr s.mem.ctleZi chunk with
  | none => return none
  | some (w, zi) =>
    let levels := receiverLevels a.txLevels a.amp a.rxFactor
    let d ← adcCall a.totalBits a.fracBits a.quant a.adcOsr a.sampleRate s.phase.toNat w
    let e ← eqCall s.mem.eq d
    let sin := e.1.map (fun v => s.gain * v)
    let sout ← sliceChunk sin levels
    let s ← convergeStage pre a.chan.osr levels s.adcOut d sin sout { s with mem := ⟨zi, e.2⟩, adcOut := d }
    let sym ← (demapping sout a.constellation false false).1
    let bits ← decoder a.coding sym
    return some (⟨sym, bits⟩, s)

/-- The memory of the whole link with the full receiver -/
structure LinkFull where
  seed : List Int
  ch : ChannelMem
  rx : RxFull

/-- example_simulation/simulation_parts/full_link.py 29-39 `FullLink.__call__`, see `linkCall` -/
noncomputable def linkFullCall (a : LinkArgs) (pre : ℕ) (noise : List ℝ) (st : LinkFull) :
    Py (Option (LinkOut × LinkFull)) := do
  let t ← transmitterCall a st.seed
  match ← channelCall a.chan st.ch noise t.1.2.2 with
  | (.signal y, ch) =>
    match ← receiverFull a pre st.rx y with
    | none => return none
    | some r => return some (⟨t.1.1, t.1.2.1, r.1⟩, ⟨t.2, ch, r.2⟩)
  | _ => return none

/-- example_simulation/simulation_parts/full_link.py 22-27 `start_convergence` -/
def startFull (st : LinkFull) : LinkFull :=
  { st with rx := { st.rx with converge := true, lms := true, cdr := true } }

/-- What a run of the program ends with, apart from an exception: the loop ended (with the number of its chunks), the loop
was still running when the fuel of the model was used up, or NaN was met (outside the model). -/
inductive RunEnd where
  | finished (chunks : ℕ)
  | running
  | nan
deriving DecidableEq, Repr

/-- example_simulation/simulation_parts/simulation.py 34-39: the loop of `perform_convergence`, `noise k` are the samples
drawn by the channel for chunk `k` -/
noncomputable def mainLoop (a : LinkArgs) (pre : ℕ) (noise : ℕ → List ℝ) : ℕ → ℕ → LinkFull → Py RunEnd
  | 0, k, st => .ok (if st.rx.done then .finished k else .running)
  | fuel + 1, k, st =>
    if st.rx.done then .ok (.finished k)
    else do
      match ← linkFullCall a pre (noise (k + 1)) st with
      | none => return .nan
      | some r => mainLoop a pre noise fuel (k + 1) r.2

/-- example_simulation/simulation_parts/full_link.py 5-14 and simulation.py 6-10: construction of the objects (equalizer with
`pre` precursors, `post` postcursors and `dfe` feedback taps, all with their default values and memories, slicer levels
`eqLevels`). The pattern `Checker` is constructed but never used. -/
noncomputable def simulationStart (a : LinkArgs) (pre post dfe : ℕ) (eqLevels : List ℝ) : Py LinkFull := do
  let ch ← channelInit a.chan
  let eq ← eqInit pre post dfe none none (some eqLevels) none none
  let seed : List Int := List.replicate (getPolynomial a.prbs).length 1
  let _ ← berInit a.prbs seed
  return ⟨seed, ch, { mem := ⟨ctleObjInit a.zeros a.poles none, eq⟩, gain := a.digGain, phase := a.phase }⟩

/-- example_simulation/simulation_main.py 4-21 `main` with simulation.py 29-39: construction, one call of the link, then the
loop -/
noncomputable def simulationMain (a : LinkArgs) (pre post dfe : ℕ) (eqLevels : List ℝ) (noise : ℕ → List ℝ) (fuel : ℕ) :
    Py RunEnd := do
  let st ← simulationStart a pre post dfe eqLevels
  match ← linkFullCall a pre (noise 0) st with
  | none => return .nan
  | some r => mainLoop a pre noise fuel 0 (startFull r.2)

/-- the coding of example_simulation/config_file.py 14-19 and constants.py 20-22 -/
def shippedCoding : CodingData :=
  { bps := .whole 2, constellation := .pam4, chunkSize := 64, gray := true, conv := true, gConv := [[[1, 0], [0, 1]]],
    feedback := some [some [1, 1]], useFeedback := some [[0, 1]] }

/-- example_simulation/constants.py and config_file.py: the settings of the shipped simulation. `fir` is the vector
`channel_isi` and `tx` the attribute `levels` of `Mapping_data`. -/
noncomputable def shippedArgs (rnd : Int → Int) (fir tx : List ℝ) : LinkArgs where
  prbs := .prbs13
  chunk := 64
  rnd := rnd
  coding := shippedCoding
  constellation := .pam4
  txLevels := tx
  amp := 750
  rxFactor := 3 / 4
  chan := { pulse := "rcos", span := 8, chType := .isiAwgn, fir := some fir, rolloff := 35 / 100, osr := 64, snr := some 10 }
  zeros := [5 * 10 ^ 8, 11 * 10 ^ 9]
  poles := [10 ^ 9, 20 * 10 ^ 9, 25 * 10 ^ 9]
  dcGain := -10
  fs := 53125 * 10 ^ 6
  ctleOsr := 64
  totalBits := 8
  fracBits := 6
  quant := .ss
  adcOsr := 64
  sampleRate := 1
  phase := 32

/-- example_simulation/config_file.py 20-60: the settings with the objects built from them. `taps` is the entry
`channel_sampled` of the channel file and `rnd` the rounding in the convolutional encoder. -/
noncomputable def shippedConfig (rnd : Int → Int) (taps : List ℝ) : Py LinkArgs := do
  let tx ← mappingDataLevels .pam4 (some (getLevels .pam4 false)) 750
  let fir ← upsample taps 64
  return shippedArgs rnd fir tx

/-- The shipped program: config_file.py builds the data objects, simulation_main.py runs them. `noise k` are the samples the
channel draws for chunk `k`. -/
noncomputable def shippedMain (rnd : Int → Int) (taps : List ℝ) (noise : ℕ → List ℝ) (fuel : ℕ) : Py RunEnd := do
  let a ← shippedConfig rnd taps
  simulationMain a 4 27 1 (getLevels .pam4 false) noise fuel

end Verif
