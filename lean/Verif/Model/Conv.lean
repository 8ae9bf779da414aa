import Verif.Model.Linear
import Verif.Model.Filter

/-!
Model of the convolutional code: CommDspy/tx/coding.py 187-327, CommDspy/misc/help_functions.py
12-32, CommDspy/misc/ml_decoding.py 34-159, CommDspy/rx/decoding.py 192-353.

Representation: the dictionary `G` with keys `0 .. n_in-1` is the list of its values, each value a
list of rows (one row per output, all rows of one input of the same length); `feedback` is a list with
an optional polynomial per input; missing trailing entries mean "not in the dictionary".
-/

namespace Verif

/-- dictionary of generator matrices -/
abbrev ConvG := List (List (List Int))
/-- the `feedback` argument -/
abbrev ConvFb := Option (List (Option (List Int)))
/-- the `use_feedback` argument -/
abbrev ConvUf := Option (List (List Int))

/-- `G[0].shape[0]` -/
def nOut (G : ConvG) : Nat := (G.getD 0 []).length

/-- transfer function `G[ii][jj]` -/
def gAt (G : ConvG) (ii jj : Nat) : List Int := (G.getD ii []).getD jj []

/-- `feedback[ii]` if `feedback is not None` and `ii in feedback.keys()` -/
def fbAt (fb : ConvFb) (ii : Nat) : Option (List Int) :=
  match fb with
  | none => none
  | some l => l.getD ii none

/-- `use_feedback[ii, jj]`, zeros if `use_feedback is None` (CommDspy/tx/coding.py 265-266) -/
def ufAt (uf : ConvUf) (ii jj : Nat) : Int :=
  match uf with
  | none => 0
  | some u => (u.getD ii []).getD jj 0

/-- CommDspy/misc/help_functions.py 26-32: the check of one entry of `G` against `use_feedback` -/
def checkEntry (G : ConvG) (fb : ConvFb) (uf : ConvUf) (ii jj : Nat) : Py Unit :=
  if ufAt uf ii jj = 1 ∧ fbAt fb ii = none then .error .valueError
  else if ufAt uf ii jj = 0 ∧ fbAt fb ii ≠ none ∧ (gAt G ii jj).length > 1 ∧ ((gAt G ii jj).drop 1).sum > 0 then
    .error .valueError
  else .ok ()

/-- CommDspy/misc/help_functions.py 14-32: the loop body for input `ii` -/
def checkInput (G : ConvG) (fb : ConvFb) (uf : ConvUf) (ii : Nat) : Py Unit := do
  checkBinary (G.getD ii []).flatten
  match fb with
  | none => return ()
  | some l =>
    match uf with
    | none => .error .valueError
    | some u =>
      if u.length ≠ G.length ∨ cols u ≠ nOut G then .error .valueError
      else
        l.forM (fun f => match f with | none => .ok () | some f => checkBinary f)
        (List.range (G.getD ii []).length).forM (checkEntry G fb uf ii)

/-- CommDspy/misc/help_functions.py 12-32 `check_valid_conv` -/
def checkValidConv (p : List Int) (G : ConvG) (fb : ConvFb) (uf : ConvUf) : Py Unit := do
  checkBinary p
  (List.range G.length).forM (checkInput G fb uf)

/-- CommDspy/tx/coding.py 292-319 for one pair (input `ii`, output `jj`): `none` if the pair is
skipped, otherwise the sequence added to `out_vals[jj]`. A feedback polynomial whose leading
coefficient is 0 makes `lfilter` raise ValueError; leading coefficients other than 0 and 1 (possible
only for non-binary arrays, cf. `check_binary`) are outside the model, which also reports ValueError. -/
def convContribution (rnd : Int → Int) (G : ConvG) (fb : ConvFb) (uf : ConvUf) (x : List Int)
    (ii jj : Nat) : Py (Option (List Int)) :=
  let g := gAt G ii jj
  if g.all (· == 0) then .ok none
  else if (fbAt fb ii).isSome ∧ g.length > 1 ∧ (g.drop 1).sum > 0 ∧ ufAt uf ii jj = 0 then .error .valueError
  else if g.length > 1 ∧ g.getD 0 0 = 1 ∧ (g.drop 1).sum = 0 ∧ ufAt uf ii jj = 0 then .ok (some x)
  else
    match fbAt fb ii with
    | none => .ok (some (lfRun rnd g [1] (List.replicate (g.length - 1) 0) x).1)
    | some f =>
      if f.getD 0 0 ≠ 1 then .error .valueError
      else .ok (some (lfRun rnd g f (List.replicate (max g.length f.length - 1) 0) x).1)

/-- `out_vals[jj] += contribution` -/
def addContribution (rnd : Int → Int) (acc : List Int) : Option (List Int) → List Int
  | none => acc
  | some c => List.zipWith (fun a b => rnd (a + b)) acc c

/-- `out_vals[jj]` after the loops of CommDspy/tx/coding.py 279-319. (The source iterates outputs inside
inputs; every row depends on its own `jj` only.) -/
def convRow (rnd : Int → Int) (G : ConvG) (fb : ConvFb) (uf : ConvUf) (blocks : List (List Int))
    (jj : Nat) : Py (List Int) :=
  (List.range G.length).foldlM (fun acc ii => do
    let c ← convContribution rnd G fb uf (blocks.map (fun b => b.getD ii 0)) ii jj
    return addContribution rnd acc c) (List.replicate blocks.length 0)

/-- CommDspy/tx/coding.py 187-327 `coding_conv(pattern, G, feedback, use_feedback)`. The argument `zi`
is ignored by the code. `rnd` is the rounding of the floating point arithmetic in `lfilter` and `+=`
(all values are integers); `% 2` is exact on floats. Simplified: an empty pattern, on which SciPy's
`np.convolve` raises for a filtered output without feedback, gives the empty code word here. -/
def codingConv (rnd : Int → Int) (p : List Int) (G : ConvG) (fb : ConvFb := none) (uf : ConvUf := none) :
    Py (List Int) := do
  checkValidConv p G fb uf
  if G.length = 0 then .error .keyError
  else
    let nIn := G.length
    let padded := if p.length % nIn ≠ 0 then p ++ List.replicate (nIn - p.length % nIn) 0 else p
    let blocks := rows nIn padded
    let outVals ← (List.range (nOut G)).mapM (convRow rnd G fb uf blocks)
    return ((List.range blocks.length).map (fun t => outVals.map (fun r => r.getD t 0 % 2))).flatten

/-! ### Trellis -/

/-- number of memory cells per input: `G[ii].shape[1] - 1` (CommDspy/misc/ml_decoding.py 64-65) -/
def memSizes (G : ConvG) : List Nat := G.map (fun g => cols g - 1)

/-- the slices `state[memory_cumsum[kk]:memory_cumsum[kk+1]]` (CommDspy/misc/ml_decoding.py 116-117) -/
def splitMem : List Nat → List Int → List (List Int)
  | [], _ => []
  | m :: ms, s => s.take m :: splitMem ms (s.drop m)

/-- CommDspy/misc/ml_decoding.py 130-135: `memory_k`, the register of input `kk` with the new value -/
def memoryK (fb : ConvFb) (kk : Nat) (inK : Int) (mem : List Int) : List Int :=
  (match fbAt fb kk with
    | some f => (inK + (List.zipWith (· * ·) mem (f.drop 1)).sum) % 2
    | none => inK) :: mem

/-- CommDspy/misc/ml_decoding.py 141-151: what input `kk` contributes to output `jj` -/
def trellisTerm (G : ConvG) (fb : ConvFb) (uf : ConvUf) (kk jj : Nat) (inK : Int) (mem : List Int) : Int :=
  let g := gAt G kk jj
  if fb = none then (List.zipWith (· * ·) g (memoryK fb kk inK mem)).sum % 2
  else if g.length = 1 ∨ ufAt uf kk jj = 0 then inK * g.getD 0 0
  else (List.zipWith (· * ·) g (memoryK fb kk inK mem)).sum % 2

/-- CommDspy/misc/ml_decoding.py 121-157: the value `trellis_dict[(input, state)]`, output and next
state. The XOR of bits is written `(a + b) % 2`. -/
def trellisStep (G : ConvG) (fb : ConvFb) (uf : ConvUf) (state inp : List Int) : List Int × List Int :=
  let mems := splitMem (memSizes G) state
  ((List.range (nOut G)).map (fun jj =>
      (List.range G.length).foldl (fun c kk =>
        (c + trellisTerm G fb uf kk jj (inp.getD kk 0) (mems.getD kk [])) % 2) 0),
    ((List.range G.length).map (fun kk =>
      (memoryK fb kk (inp.getD kk 0) (mems.getD kk [])).dropLast)).flatten)

/-- The constructor of `Trellis` raises ValueError when `memory_dict[kk].dot(feedback[kk][1:])` (line 132)
has mismatching lengths; an empty `G` raises KeyError. -/
def trellisCheck (G : ConvG) (fb : ConvFb) : Py Unit :=
  if G.length = 0 then .error .keyError
  else if (List.range G.length).all (fun kk =>
      match fbAt fb kk with
      | none => true
      | some f => f.length - 1 == (memSizes G).getD kk 0) then .ok ()
  else .error .valueError

/-- Following the trellis from `state` through the input chunks (CommDspy/rx/decoding.py 241-249):
concatenated outputs and the final state. -/
def trellisWalk (G : ConvG) (fb : ConvFb) (uf : ConvUf) : List Int → List (List Int) → List Int × List Int
  | s, [] => ([], s)
  | s, u :: us =>
    let o := trellisStep G fb uf s u
    let r := trellisWalk G fb uf o.2 us
    (o.1 ++ r.1, r.2)

/-- `Trellis.states` -/
def trellisStates (G : ConvG) : List (List Int) := getBinPerm (memSizes G).sum

/-- CommDspy/rx/decoding.py 234-249: the codebook, one row per start state and input word. Columns not
written by the loop stay zero. -/
def convCodebook (G : ConvG) (fb : ConvFb) (uf : ConvUf) (tbLen : Nat) : List (List Int) :=
  (trellisStates G).flatMap (fun s => (getBinPerm (G.length * (tbLen / nOut G))).map (fun u =>
    (trellisWalk G fb uf s (rows G.length u)).1 ++ List.replicate (tbLen - nOut G * (tbLen / nOut G)) 0))

/-- CommDspy/rx/decoding.py 192-257 `decoding_conv_ml(pattern, G, tb_len, feedback, use_feedback)` with
`error_prob=False`. -/
def decodingConvMl (p : List Int) (G : ConvG) (tbLen : Nat) (fb : ConvFb := none) (uf : ConvUf := none) :
    Py (List Int) := do
  checkValidConv p G fb uf
  if G.length = 0 then .error .keyError
  else if nOut G = 0 then .error .zeroDivision
  else
    trellisCheck G fb
    if tbLen = 0 then .error .zeroDivision
    else
      return mlDecoding (tile (getBinPerm (G.length * (tbLen / nOut G))) (trellisStates G).length)
        (convCodebook G fb uf tbLen) (rows tbLen p)

/-! ### Viterbi -/

/-- `io_dict.get((state, next))` (CommDspy/misc/ml_decoding.py 156-157): later inputs overwrite earlier
ones, so the last input that leads from `s` to `t`. -/
def ioLookup (G : ConvG) (fb : ConvFb) (uf : ConvUf) (s t : List Int) : Option (List Int × List Int) :=
  ((getBinPerm G.length).reverse.find? (fun u => (trellisStep G fb uf s u).2 == t)).map
    (fun u => (u, (trellisStep G fb uf s u).1))

/-- `input_tensor[ii, jj]` (CommDspy/misc/ml_decoding.py 82-90), -1 where there is no transition -/
def inputTensor (G : ConvG) (fb : ConvFb) (uf : ConvUf) (ii jj : Nat) : List Int :=
  match ioLookup G fb uf ((trellisStates G).getD ii []) ((trellisStates G).getD jj []) with
  | some io => io.1
  | none => List.replicate G.length (-1)

/-- `output_tensor[ii, jj]` (CommDspy/misc/ml_decoding.py 83-91), -1 where there is no transition -/
def outputTensor (G : ConvG) (fb : ConvFb) (uf : ConvUf) (ii jj : Nat) : List Int :=
  match ioLookup G fb uf ((trellisStates G).getD ii []) ((trellisStates G).getD jj []) with
  | some io => io.2
  | none => List.replicate (nOut G) (-1)

/-- One forward step of CommDspy/rx/decoding.py 306-327 for end state `jj`: accumulated distance and
decoded bits. `prev` holds both for all states after the previous chunk (`none` for the first chunk). -/
def viterbiStep (G : ConvG) (fb : ConvFb) (uf : ConvUf) (chunk : List Int)
    (prev : Option (List (Int × List Int))) (jj : Nat) : Int × List Int :=
  let step := (List.range (trellisStates G).length).map (fun ii => hammingDist chunk (outputTensor G fb uf ii jj))
  let from_ := argmin step
  match prev with
  | none => (step.getD from_ 0, inputTensor G fb uf from_ jj)
  | some l => (step.getD from_ 0 + (l.getD from_ (0, [])).1,
      (l.getD from_ (0, [])).2 ++ inputTensor G fb uf from_ jj)

/-- the forward pass over all chunks of one block -/
def viterbiForward (G : ConvG) (fb : ConvFb) (uf : ConvUf) (chunks : List (List Int)) :
    Option (List (Int × List Int)) :=
  chunks.foldl (fun prev chunk =>
    some ((List.range (trellisStates G).length).map (viterbiStep G fb uf chunk prev))) none

/-- CommDspy/rx/decoding.py 306-332 for one block: decoded bits and `last_state`; a block without chunk
(`tb_len < n_out`) raises IndexError at `hamming_dist[:, -1]`. -/
def viterbiBlock (G : ConvG) (fb : ConvFb) (uf : ConvUf) (block : List Int) : Py (List Int × Nat) :=
  match viterbiForward G fb uf (rows (nOut G) block) with
  | none => .error .indexError
  | some l =>
    let last := argmin (l.map (·.1))
    .ok ((l.getD last (0, [])).2, last)

/-- CommDspy/rx/decoding.py 259-341 `decoding_conv_viterbi(pattern, G, tb_len, feedback, use_feedback)`
with `error_prob=False`: decoded bits and the last state of the last block; a pattern without complete
block leaves `last_state` unassigned. -/
def decodingConvViterbi (p : List Int) (G : ConvG) (tbLen : Nat) (fb : ConvFb := none)
    (uf : ConvUf := none) : Py (List Int × Nat) := do
  checkValidConv p G fb uf
  if G.length = 0 then .error .keyError
  else if nOut G = 0 ∨ tbLen = 0 then .error .zeroDivision
  else
    trellisCheck G fb
    let blocks ← (rows tbLen p).mapM (viterbiBlock G fb uf)
    match blocks.getLast? with
    | none => .error .unboundLocal
    | some b => return ((blocks.map (·.1)).flatten, b.2)

end Verif
