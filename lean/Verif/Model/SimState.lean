import Verif.Model.SimLink
import Mathlib.Data.Real.Basic

/-!
Model of the state of the example simulation that is held in NumPy arrays and passed on by reference: the taps of the
equalizer (data_objects.py 91-113, receiver.py 38-61 and 241-242) and the history of `Memory` (analyzer_classes.py 4-37,
simulation.py 12-27). Arrays live in a store and are named by their position in it; every array owns its data (slices, which
NumPy keeps as views, are not modelled). Of the fourteen history lists the two with tap vectors are modelled: they are the
only ones whose arrays are changed in place by the program.
-/

namespace Verif

/-- the arrays of the program, a reference is a position -/
abbrev Store := List (List ℝ)

/-- the content of an array -/
def Store.read (s : Store) (r : ℕ) : List ℝ := s.getD r []

/-- NumPy `a += b` for 1-D arrays: equal shapes, or `b` with one element; otherwise ValueError. Simplified: integer arrays,
for which NumPy refuses to add floats, are left out. -/
def plusAssign (s : Store) (r : ℕ) (b : List ℝ) : Py Store :=
  if b.length = (s.read r).length then .ok (s.set r (List.zipWith (· + ·) (s.read r) b))
  else if b.length = 1 then .ok (s.set r ((s.read r).map (· + b.getD 0 0)))
  else .error .valueError

/-- example_simulation/simulation_parts/data_objects.py 91-113 `FfeDfeData`: numbers of taps and the two tap arrays -/
structure EqData where
  pre : ℕ
  post : ℕ
  dfeTaps : ℕ
  ffe : ℕ
  dfe : ℕ

/-- data_objects.py 101-107 and 108-113: `None` makes a new array, a given array is kept as it is if its length fits -/
def arrayOr (s : Store) (n : ℕ) (dflt : List ℝ) : Option ℕ → Py (ℕ × Store)
  | none => .ok (s.length, s ++ [dflt])
  | some r => if (s.read r).length = n then .ok (r, s) else .error .valueError

/-- example_simulation/simulation_parts/data_objects.py 91-116 `FfeDfeData.__init__` without the memories `zi_ffe`, `zi_dfe`,
for non-negative numbers of taps; `levels` tells whether slicer levels are given -/
def eqDataInit (s : Store) (pre post dfeTaps : ℕ) (ffe dfe : Option ℕ) (levels : Bool) : Py (EqData × Store) := do
  let f ← arrayOr s (pre + post + 1) (List.replicate pre 0 ++ 1 :: List.replicate post 0) ffe
  let d ← arrayOr f.2 dfeTaps (List.replicate dfeTaps 0) dfe
  if 0 < (d.2.read d.1).length ∧ levels = false then .error .valueError
  else return (⟨pre, post, dfeTaps, f.1, d.1⟩, d.2)

/-- A `Simulation` object: what its equalizer refers to (receiver.py 38-47) and its tap history (analyzer_classes.py 19-20) -/
structure SimObj where
  dfeTaps : ℕ
  ffe : ℕ
  dfe : ℕ
  histFfe : List ℕ
  histDfe : List ℕ

/-- The arrays and the `Simulation` objects of a program -/
structure World where
  store : Store
  sims : List SimObj

/-- what a program does with the objects -/
inductive SimOp where
  /-- `Simulation(link_data)` with the equalizer data `d` -/
  | create (d : EqData)
  /-- `gather_memory()` of simulation `i` -/
  | gather (i : ℕ)
  /-- `Memory.reset()` of simulation `i` -/
  | reset (i : ℕ)
  /-- the equalizer update of the LMS loop of simulation `i` with the given gradients -/
  | update (i : ℕ) (gFfe gDfe : List ℝ)
  /-- `set_ffe` of the equalizer of simulation `i` with an array -/
  | setFfe (i r : ℕ)
  /-- `set_dfe` of the equalizer of simulation `i` with an array -/
  | setDfe (i r : ℕ)

/-- simulation.py 7-10 with receiver.py 38-47: the new equalizer refers to the arrays of the data object; analyzer_classes.py
5-20: empty history -/
def simCreate (w : World) (d : EqData) : World :=
  ⟨w.store, w.sims ++ [⟨d.dfeTaps, d.ffe, d.dfe, [], []⟩]⟩

/-- example_simulation/simulation_parts/simulation.py 26-27 (of `gather_memory`, 12-27): copies of both tap arrays are appended
to the history -/
def simGather (w : World) (i : ℕ) (o : SimObj) : World :=
  ⟨w.store ++ [w.store.read o.ffe, w.store.read o.dfe],
    w.sims.set i { o with histFfe := o.histFfe ++ [w.store.length], histDfe := o.histDfe ++ [w.store.length + 1] }⟩

/-- example_simulation/simulation_parts/receiver.py 241-242: `ffe_vec += -1 * lms_lr * ffe_grad_vec` and the same for the DFE,
`lms_lr` is `2**(-10)` (156). In the shipped program these lines are behind a call of the missing function `cdsp.rx.lms_grad`
(see `convergeStage`), here the gradients are given. -/
noncomputable def simUpdate (w : World) (o : SimObj) (gFfe gDfe : List ℝ) : Py World := do
  let s ← plusAssign w.store o.ffe (gFfe.map (fun g => -1 * (1 / 2 ^ 10) * g))
  let s ← plusAssign s o.dfe (gDfe.map (fun g => -1 * (1 / 2 ^ 10) * g))
  return ⟨s, w.sims⟩

/-- example_simulation/simulation_parts/receiver.py 51-55 `set_ffe`: the new length is compared with that of the old array -/
def simSetFfe (w : World) (i : ℕ) (o : SimObj) (r : ℕ) : Py World :=
  if (w.store.read r).length = (w.store.read o.ffe).length then .ok ⟨w.store, w.sims.set i { o with ffe := r }⟩
  else .error .valueError

/-- example_simulation/simulation_parts/receiver.py 57-61 `set_dfe`: the new length is compared with `dfe_taps` -/
def simSetDfe (w : World) (i : ℕ) (o : SimObj) (r : ℕ) : Py World :=
  if (w.store.read r).length = o.dfeTaps then .ok ⟨w.store, w.sims.set i { o with dfe := r }⟩
  else .error .valueError

/-- One operation. An operation on a simulation that does not exist is an IndexError of the model. -/
noncomputable def simStep (w : World) : SimOp → Py World
  | .create d => .ok (simCreate w d)
  | .gather i => match w.sims[i]? with
    | none => .error .indexError
    | some o => .ok (simGather w i o)
  | .reset i => match w.sims[i]? with
    | none => .error .indexError
    -- analyzer_classes.py 22-37 `reset`: new empty lists
    | some o => .ok ⟨w.store, w.sims.set i { o with histFfe := [], histDfe := [] }⟩
  | .update i gf gd => match w.sims[i]? with
    | none => .error .indexError
    | some o => simUpdate w o gf gd
  | .setFfe i r => match w.sims[i]? with
    | none => .error .indexError
    | some o => simSetFfe w i o r
  | .setDfe i r => match w.sims[i]? with
    | none => .error .indexError
    | some o => simSetDfe w i o r

/-- a program: operations one after the other -/
noncomputable def simRun (w : World) : List SimOp → Py World
  | [] => .ok w
  | op :: ops => do
    let w ← simStep w op
    simRun w ops

/-- example_simulation/simulation_parts/transmitter.py 4-9: the attributes of `PrbsGen`. `seedPrev` is the attribute
`seed_prev`, which no line of the class assigns. -/
structure PrbsObj where
  poly : List Int
  chunk : ℕ
  seed : List Int
  seedPrev : Option (List Int) := none

/-- example_simulation/simulation_parts/transmitter.py 5-9 `PrbsGen.__init__`; `seed` is the attribute of `PrbsData` -/
def prbsObjInit (p : PrbsEnum) (chunk : ℕ) (seed : Option (List Int)) : PrbsObj :=
  { poly := getPolynomial p, chunk := chunk, seed := seed.getD (List.replicate (getPolynomial p).length 1) }

/-- example_simulation/simulation_parts/transmitter.py 14-16 `PrbsGen.__next__` -/
def prbsObjNext (o : PrbsObj) : Py (List Int × PrbsObj) := do
  let r ← prbsGenerator o.poly o.seed o.chunk
  return (r.1, { o with seed := r.2 })

/-- `k` calls of `__next__`: the bits and the object afterwards -/
def prbsObjDraw : ℕ → PrbsObj → Py (List Int × PrbsObj)
  | 0, o => .ok ([], o)
  | k + 1, o => do
    let r ← prbsObjNext o
    let s ← prbsObjDraw k r.2
    return (r.1 ++ s.1, s.2)

/-- example_simulation/simulation_parts/transmitter.py 18-19 `get_seed` -/
def prbsObjSeed (o : PrbsObj) : Py (List Int) := .ok o.seed

/-- example_simulation/simulation_parts/transmitter.py 21-22 `get_prev_seed`: reading an attribute that was never assigned
raises AttributeError -/
def prbsObjPrevSeed (o : PrbsObj) : Py (List Int) :=
  match o.seedPrev with
  | some s => .ok s
  | none => .error .attributeError

end Verif
