import Verif.Model.Mapping
import Verif.Model.Slicer
import Verif.Model.Pulse
import Verif.Model.Noise
import Verif.Model.Checker
import Verif.Model.Ffe

/-!
Model of the blocks of the example simulation around the coder: levels of the mapper and the slicer, the channel object,
the pattern generator, the error checker, the analog to digital converter and the equalizer object
(example_simulation/simulation_parts/*.py and example_simulation/analyzer/analyzer_classes.py), over the real numbers
where levels are involved.
-/

namespace Verif

/-! ### Levels, slicer and demapper -/

/-- example_simulation/simulation_parts/data_objects.py 48-56 `MappingData.__init__`: the transmitter levels. `np.max` of
an empty vector raises ValueError. (All levels 0 would give NaN; the theorems exclude it.) -/
noncomputable def mappingDataLevels (c : Constellation) (levels : Option (List ℝ)) (ampPp : ℝ) : Py (List ℝ) :=
  match levels with
  | none => .ok (getLevels c false)
  | some l =>
    if l.length = 0 then .error .valueError
    else .ok (l.map (fun v => v / (l.map (fun w => |w|)).foldl max 0 * ampPp / 2))

/-- example_simulation/simulation_parts/receiver.py 162 (`Receiver.__init__`): the slicer levels, from the transmitter
levels. -/
noncomputable def receiverLevels (txLevels : List ℝ) (ampPp rxFactor : ℝ) : List ℝ :=
  txLevels.map (fun v => v * 2 / ampPp * rxFactor)

/-- example_simulation/simulation_parts/receiver.py 205 and 257: `slicer(slicer_in, self.levels)` and
`demapping(slicer_out, self.constellation)`. -/
noncomputable def recoverSymbols (slicerIn : List ℝ) (c : Constellation) (rxLevels : List ℝ) : Py (List Int) := do
  match ← slicer (.vec slicerIn) (some rxLevels) with
  | .vec out => (demapping out c false false).1
  | _ => .error .typeError

/-- example_simulation/simulation_parts/transmitter.py 108-110: the mapped chunk. -/
noncomputable def transmitSymbols (symbols : List Int) (c : Constellation) (txLevels : List ℝ) : Py (List ℝ) :=
  mapping symbols c false (some txLevels) false

/-! ### Channel -/

/-- the channel kinds of example_simulation/simulation_parts/channel.py 43-54 -/
inductive ChType where
  | pulse | awgn | isiAwgn | other
deriving DecidableEq

/-- example_simulation/simulation_parts/data_objects.py 58-70 `ChannelData`, the arguments. (`pulse_rj_sigma = 0`.) -/
structure ChannelArgs where
  pulse : String
  span : ℕ
  chType : ChType
  fir : Option (List ℝ) := none
  iir : Option (List ℝ) := none
  rolloff : ℝ
  osr : ℕ
  snr : Option ℝ
  pulseZi : Option (List ℝ) := none
  chZi : Option (List ℝ) := none

/-- example_simulation/simulation_parts/data_objects.py 64: `[1] if iir_coefs is None else fir_coefs`. -/
def ChannelArgs.iirCoefs (d : ChannelArgs) : Option (List ℝ) :=
  match d.iir with
  | none => some [1]
  | some _ => d.fir

/-- example_simulation/simulation_parts/data_objects.py 65 -/
def ChannelArgs.firCoefs (d : ChannelArgs) : List ℝ := d.fir.getD [1]

/-- the memories of example_simulation/simulation_parts/channel.py 22-34 -/
structure ChannelMem where
  ch : List ℝ
  pulse : List ℝ

/-- example_simulation/simulation_parts/channel.py 22-34 (`Channel.__init__`): the initial memories. `np.zeros` of a
negative length raises ValueError. -/
def channelInit (d : ChannelArgs) : Py ChannelMem :=
  let n : ℕ := match d.iirCoefs with
    | some a => max a.length d.firCoefs.length
    | none => max 1 d.firCoefs.length
  if d.chZi = none ∧ n = 0 then .error .valueError
  else if d.pulseZi = none ∧ d.span * d.osr = 0 then .error .valueError
  else .ok ⟨d.chZi.getD (List.replicate (n - 1) 0), d.pulseZi.getD (List.replicate (d.span * d.osr * 2 - 1) 0)⟩

/-- What a call of the channel returns: a signal, a vector of NaN, or `None`. -/
inductive ChOut where
  | signal (y : List ℝ)
  | nan
  | pyNone

/-- the output of `awgn` as a returned value -/
def ChOut.ofOption : Option (List ℝ) → ChOut
  | some y => .signal y
  | none => .nan

/-- example_simulation/simulation_parts/channel.py 35-54 `Channel.__call__`; `noise` are the standard normal samples drawn
in this call. `awgn` with `snr=None` divides None by 10 (TypeError), and so does a denominator None in `lfilter`. -/
noncomputable def channelCall (d : ChannelArgs) (m : ChannelMem) (noise chunk : List ℝ) : Py (ChOut × ChannelMem) := do
  let p ← pulseShape chunk d.osr d.span d.pulse d.rolloff (some m.pulse)
  match d.chType with
  | .pulse => return (.signal p.1, ⟨m.ch, p.2⟩)
  | .awgn =>
    match d.snr with
    | none => .error .typeError
    | some s => return (.ofOption (awgn noise p.1 s), ⟨m.ch, p.2⟩)
  | .isiAwgn =>
    match d.iirCoefs with
    | none => .error .typeError
    | some a => do
      let r ← awgnChannelSnr noise p.1 d.firCoefs (.vec a) d.snr (some m.ch)
      return (.ofOption r.1, ⟨r.2, p.2⟩)
  | .other => return (.pyNone, ⟨m.ch, p.2⟩)

/-- a sequence of calls of one channel object, without noise (`snr=None`, or the pulse alone) -/
noncomputable def channelCalls (d : ChannelArgs) : ChannelMem → List (List ℝ) → Py (List ChOut × ChannelMem)
  | m, [] => .ok ([], m)
  | m, c :: cs => do
    let s ← channelCall d m [] c
    let r ← channelCalls d s.2 cs
    return (s.1 :: r.1, r.2)

/-! ### Pattern generator and error checker -/

/-- example_simulation/simulation_parts/transmitter.py 14-16 `PrbsGen.__next__`, called `k` times: the chunks and the
seed afterwards. -/
def prbsGenDraw (poly : List Int) (chunk : ℕ) : ℕ → List Int → Py (List (List Int) × List Int)
  | 0, seed => .ok ([], seed)
  | k + 1, seed => do
    let s ← prbsGenerator poly seed chunk
    let r ← prbsGenDraw poly chunk k s.2
    return (s.1 :: r.1, r.2)

/-- example_simulation/analyzer/analyzer_classes.py 40-45: the state of `Checker` -/
structure BerState where
  prbsVec : List Int
  accErrors : ℕ
  accSymbols : ℕ

/-- example_simulation/analyzer/analyzer_classes.py 40-45 `Checker.__init__`: one period from the seed -/
def berInit (p : PrbsEnum) (seed : List Int) : Py BerState := do
  let r ← prbsGenerator (getPolynomial p) seed ((2 ^ p.value - 1 : ℕ) : Int)
  return ⟨r.1, 0, 0⟩

/-- example_simulation/analyzer/analyzer_classes.py 47-54 `Checker.check_ber`: the returned ratio and the new state. The
default loss threshold of `prbs_checker` is 100 (CommDspy/rx/checker.py 6). -/
def checkBer (p : PrbsEnum) (s : BerState) (bits : List Int) : Py (ℚ × BerState) := do
  let r ← prbsChecker p bits false 100 (some s.prbsVec)
  let n := r.errorBit.count true
  let s' := { s with accErrors := s.accErrors + n, accSymbols := s.accSymbols + r.errorBit.length }
  if r.errorBit.length = 0 then .error .zeroDivision
  else return ((n : ℚ) / r.errorBit.length, s')

/-- successive calls of `check_ber` -/
def checkBers (p : PrbsEnum) : BerState → List (List Int) → Py (List ℚ × BerState)
  | s, [] => .ok ([], s)
  | s, c :: cs => do
    let r ← checkBer p s c
    let rs ← checkBers p r.2 cs
    return (r.1 :: rs.1, rs.2)

/-! ### Analog to digital converter -/

/-- `x[np.arange(phase, len(x), step)]` for `phase ≥ 0` and `step > 0` -/
def sampleEvery {α : Type} [Zero α] (phase step : ℕ) (x : List α) : List α :=
  (List.range ((x.length - phase + step - 1) / step)).map (fun k => x.getD (phase + k * step) 0)

/-- example_simulation/simulation_parts/receiver.py 32-35 `Adc.__call__`. `sample_rate = 0` and `sample_rate > osr` raise
ZeroDivisionError (`//` and `np.arange` with step 0). Simplified: `phase ≥ 0` and `frac_bits ≥ 0`. -/
def adcCall {K : Type} [Field K] [LinearOrder K] (totalBits fracBits : ℕ) (t : FixType) (osr sampleRate phase : ℕ)
    (chunk : List K) : Py (List K) :=
  if osr / sampleRate = 0 then .error .zeroDivision
  else do
    let q ← quantize (sampleEvery phase (osr / sampleRate) chunk) totalBits 0 t
    return q.map (fun v => v / 2 ^ fracBits)

/-- the samples of successive chunks -/
def adcCalls {K : Type} [Field K] [LinearOrder K] (totalBits fracBits : ℕ) (t : FixType) (osr sampleRate phase : ℕ) :
    List (List K) → Py (List (List K))
  | [] => .ok []
  | c :: cs => do
    let a ← adcCall totalBits fracBits t osr sampleRate phase c
    let r ← adcCalls totalBits fracBits t osr sampleRate phase cs
    return a :: r

/-- example_simulation/simulation_parts/receiver.py 228 (`digital_stage`): the sampling phase after a step of the clock
recovery, Python's `%`. -/
def nextPhase (phase step : Int) (osr : ℕ) : Int := (phase + step) % (osr : Int)

/-! ### Equalizer object -/

/-- the attributes of example_simulation/simulation_parts/receiver.py 38-50 `FfeDfe` -/
structure EqObj (K : Type) where
  ffe : List K
  dfeTaps : ℕ
  dfe : List K
  levels : Option (List K)
  ziFfe : List K
  ziDfe : List K

/-- a given vector of the right length, or the default; example_simulation/simulation_parts/data_objects.py 103-132 -/
def orDefault {K : Type} (n : ℕ) (dflt : List K) : Option (List K) → Py (List K)
  | none => .ok dflt
  | some v => if v.length = n then .ok v else .error .valueError

/-- example_simulation/simulation_parts/data_objects.py 91-132 `FfeDfeData.__init__` followed by receiver.py 38-50: the
object, for non-negative numbers of taps. -/
def eqInit {K : Type} [Zero K] [One K] (pre post dfeTaps : ℕ) (ffe dfe levels ziFfe ziDfe : Option (List K)) :
    Py (EqObj K) := do
  let f ← orDefault (pre + post + 1) (List.replicate pre 0 ++ 1 :: List.replicate post 0) ffe
  let d ← orDefault dfeTaps (List.replicate dfeTaps 0) dfe
  if 0 < d.length ∧ levels = none then .error .valueError
  else do
    let zf ← orDefault (pre + post + 1) (List.replicate (pre + post + 1) 0) ziFfe
    let zd ← orDefault dfeTaps (List.replicate dfeTaps 0) ziDfe
    return ⟨f, dfeTaps, d, levels, zf, zd⟩

/-- example_simulation/simulation_parts/receiver.py 63-83 `FfeDfe.__call__`: oversampling 1 and phase 0 are the defaults of
`ffe_dfe` (CommDspy/rx/ffe_dfe_model.py 7). Unpacking the result into the wrong number of names would raise ValueError. -/
def eqCall {K : Type} [Field K] [LinearOrder K] (o : EqObj K) (chunk : List K) : Py (List K × EqObj K) := do
  let dfe := if o.dfeTaps = 0 then none else some o.dfe
  if o.ffe.length = 1 ∧ o.dfeTaps = 0 then
    match ← ffeDfe chunk o.ffe dfe o.levels 1 0 none none with
    | .plain y => return (y, o)
    | _ => .error .valueError
  else if o.ffe.length = 1 then
    match ← ffeDfe chunk o.ffe dfe o.levels 1 0 none (some o.ziDfe) with
    | .dfe y zd => return (y, { o with ziDfe := zd })
    | _ => .error .valueError
  else if o.dfeTaps = 0 then
    match ← ffeDfe chunk o.ffe dfe o.levels 1 0 (some o.ziFfe) none with
    | .ffe y zf => return (y, { o with ziFfe := zf })
    | _ => .error .valueError
  else
    match ← ffeDfe chunk o.ffe dfe o.levels 1 0 (some o.ziFfe) (some o.ziDfe) with
    | .both y zf zd => return (y, { o with ziFfe := zf, ziDfe := zd })
    | _ => .error .valueError

/-- successive calls of the equalizer object -/
def eqCalls {K : Type} [Field K] [LinearOrder K] : EqObj K → List (List K) → Py (List (List K) × EqObj K)
  | o, [] => .ok ([], o)
  | o, c :: cs => do
    let s ← eqCall o c
    let r ← eqCalls s.2 cs
    return (s.1 :: r.1, r.2)

end Verif
