import Verif.Model.Conv
import Verif.Model.Framing

/-!
Model of the project's own tests of the convolutional code, test/test_pattern_coding.py 290-590: the second
implementations of the encoder, the filter for admissible codes and the assertions. The random draws
(pattern, matrices, feedback) are arguments.
-/

namespace Verif

/-- test/test_pattern_coding.py 326-327 and 472-476: the new content of `memory[ii]`, a register including
the current input. (For registers with one cell the source writes `np.array([kk_i])`, the same value.) -/
def refRegister (f : Option (List Int)) (u : Int) (m : List Int) : List Int :=
  (match f with
    | some f => (u + (List.zipWith (· * ·) m.dropLast (f.drop 1)).sum) % 2
    | none => u) :: m.dropLast

/-- test/test_pattern_coding.py 325-331 and 471-485: one chunk of the reference encoder, `term ii jj u m` is the
contribution of input `ii` (current bit `u`, register `m`) to output `jj`. The XOR of bits is written
`(a + b) % 2`. -/
def refStep (G : ConvG) (fb : ConvFb) (term : Nat → Nat → Int → List Int → Int) (mem : List (List Int))
    (chunk : List Int) : List Int × List (List Int) :=
  let mem' := (List.range G.length).map (fun ii => refRegister (fbAt fb ii) (chunk.getD ii 0) (mem.getD ii []))
  ((List.range (nOut G)).map (fun jj => (List.range G.length).foldl (fun c ii =>
      (c + term ii jj (chunk.getD ii 0) (mem'.getD ii [])) % 2) 0), mem')

/-- the loop over the chunks, outputs read chunk by chunk (`np.reshape(coded_ref.T, -1)`) -/
def refLoop (G : ConvG) (fb : ConvFb) (term : Nat → Nat → Int → List Int → Int) :
    List (List Int) → List (List Int) → List Int
  | _, [] => []
  | mem, chunk :: chunks =>
    let s := refStep G fb term mem chunk
    s.1 ++ refLoop G fb term s.2 chunks

/-- the registers at the start: `np.zeros(G[kk].shape[1])` -/
def refMemory (G : ConvG) : List (List Int) := G.map (fun g => List.replicate (cols g) 0)

/-- test/test_pattern_coding.py 331 -/
def refTermFir (G : ConvG) (ii jj : Nat) (_ : Int) (m : List Int) : Int :=
  (List.zipWith (· * ·) (gAt G ii jj) m).sum % 2

/-- test/test_pattern_coding.py 480-485 -/
def refTermFeedback (G : ConvG) (uf : ConvUf) (ii jj : Nat) (u : Int) (m : List Int) : Int :=
  if (gAt G ii jj).length = 1 ∨ ufAt uf ii jj = 0 then u * (gAt G ii jj).getD 0 0
  else (List.zipWith (· * ·) (gAt G ii jj) m).sum % 2

/-- test/test_pattern_coding.py 309-338 `coding_conv_basic_test`, the assertion for one draw and an encoder `enc` -/
def codingConvBasicTestOf (enc : List Int → ConvG → Py (List Int)) (p : List Int) (G : ConvG) : Py Bool := do
  let dut ← enc p G
  let chunks ← buffer p G.length 0 0
  return refLoop G none (refTermFir G) (refMemory G) chunks == dut

/-- test/test_pattern_coding.py 309-338 `coding_conv_basic_test`, the assertion for one draw -/
def codingConvBasicTest (rnd : Int → Int) (p : List Int) (G : ConvG) : Py Bool :=
  codingConvBasicTestOf (fun p G => codingConv rnd p G) p G

/-- test/test_pattern_coding.py 451-495 `coding_conv_feedback_test`, the assertion for one draw and an encoder `enc` -/
def codingConvFeedbackTestOf (enc : List Int → ConvG → ConvFb → ConvUf → Py (List Int)) (p : List Int) (G : ConvG) (fb : ConvFb)
    (uf : ConvUf) : Py Bool := do
  let dut ← enc p G fb uf
  let chunks ← buffer p G.length 0 0
  return refLoop G fb (refTermFeedback G uf) (refMemory G) chunks == dut

/-- test/test_pattern_coding.py 451-495 `coding_conv_feedback_test`, the assertion for one draw -/
def codingConvFeedbackTest (rnd : Int → Int) (p : List Int) (G : ConvG) (fb : ConvFb) (uf : ConvUf) : Py Bool :=
  codingConvFeedbackTestOf (fun p G fb uf => codingConv rnd p G fb uf) p G fb uf

/-- `trellis_obj.trellis`: state, output and next state for every state and input -/
def trellisItems (G : ConvG) (fb : ConvFb) (uf : ConvUf) : List (List Int × List Int × List Int) :=
  (trellisStates G).flatMap (fun s => (getBinPerm G.length).map (fun u => (s, trellisStep G fb uf s u)))

/-- test/test_pattern_coding.py 368-405 and 534-572: the conditions on the code. 1. the triples (state, output,
next state) are different; 2. the outputs from each state are different; 3. no matrix is zero; 4. only the
transition from the zero state to the zero state has the zero output. -/
def convTestAccepts (G : ConvG) (fb : ConvFb) (uf : ConvUf) : Bool :=
  let items := trellisItems G fb uf
  (items.eraseDups.length == items.length) &&
  (trellisStates G).all (fun s =>
    ((items.filter (fun q => q.1 == s)).map (fun q => q.2.1)).eraseDups.length == (getBinPerm G.length).length) &&
  G.all (fun g => g.flatten.sum != 0) &&
  items.all (fun q => !(q.2.1.sum == 0 && (decide (0 < q.1.sum) || decide (0 < q.2.2.sum))))

/-- `np.allclose(pattern[:len(decoded)], decoded)` for bit vectors; vectors of different lengths cannot be
compared (ValueError) -/
def samePrefix (p d : List Int) : Py Bool :=
  if p.length < d.length then .error .valueError else .ok (p.take d.length == d)

/-- test/test_pattern_coding.py 407-418 and 574-590 `decoding_conv_basic_test` and
`decoding_conv_feedback_test`: the assertions for one accepted draw, an encoder and the two decoders; a failing first
assertion stops the test. -/
def decodingConvTestOf (enc : List Int → ConvG → ConvFb → ConvUf → Py (List Int))
    (ml vit : List Int → ConvG → Nat → ConvFb → ConvUf → Py (List Int)) (p : List Int) (G : ConvG) (fb : ConvFb) (uf : ConvUf) :
    Py Bool := do
  let coded ← enc p G fb uf
  let d ← ml coded G (5 * nOut G) fb uf
  let ok ← samePrefix p d
  if !ok then return false
  let v ← vit coded G (5 * nOut G) fb uf
  samePrefix p v

/-- test/test_pattern_coding.py 407-418 and 574-590, the assertions for one accepted draw. -/
def decodingConvTest (rnd : Int → Int) (p : List Int) (G : ConvG) (fb : ConvFb) (uf : ConvUf) : Py Bool :=
  decodingConvTestOf (fun p G fb uf => codingConv rnd p G fb uf)
    (fun c G tb fb uf => decodingConvMl c G tb fb uf)
    (fun c G tb fb uf => (decodingConvViterbi c G tb fb uf).map Prod.fst) p G fb uf

end Verif
