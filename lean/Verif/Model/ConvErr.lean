import Verif.Model.Conv

/-! Model of the decoders of convolutional codes with `error_prob=True`. -/

namespace Verif

/-- CommDspy/rx/decoding.py 302-337 for one block with `error_prob=True`: decoded bits, `last_state` and the entry of
`error_prob_vec`, which stays 0 unless several end states share the least accumulated distance. -/
def viterbiBlockErr (G : ConvG) (fb : ConvFb) (uf : ConvUf) (block : List Int) : Py (List Int × Nat × ℚ) :=
  match viterbiForward G fb uf (rows (nOut G) block) with
  | none => .error .indexError
  | some l =>
    let dists := l.map (·.1)
    let last := argmin dists
    let count := dists.count (dists.getD last 0)
    .ok ((l.getD last (0, [])).2, last, if count > 1 then 1 / (count : ℚ) else 0)

/-- CommDspy/rx/decoding.py 259-341 `decoding_conv_viterbi(pattern, G, tb_len, feedback, use_feedback, True)`. -/
def decodingConvViterbiErr (p : List Int) (G : ConvG) (tbLen : Nat) (fb : ConvFb := none) (uf : ConvUf := none) :
    Py (List Int × Nat × List ℚ) := do
  checkValidConv p G fb uf
  if G.length = 0 then .error .keyError
  else if nOut G = 0 ∨ tbLen = 0 then .error .zeroDivision
  else
    trellisCheck G fb
    let blocks ← (rows tbLen p).mapM (viterbiBlockErr G fb uf)
    match blocks.getLast? with
    | none => .error .unboundLocal
    | some b => return ((blocks.map (·.1)).flatten, b.2.1, blocks.map (·.2.2))

/-- CommDspy/rx/decoding.py 192-257 `decoding_conv_ml(pattern, G, tb_len, feedback, use_feedback, True)`: decoded bits,
error probabilities, and the caller's pattern after the call (`np.reshape` of a contiguous array is a view, so
CommDspy/misc/ml_decoding.py 18 writes into it). -/
def decodingConvMlErr (p : List Int) (G : ConvG) (tbLen : Nat) (fb : ConvFb := none) (uf : ConvUf := none) :
    Py (List Int × List ℚ × List Int) := do
  checkValidConv p G fb uf
  if G.length = 0 then .error .keyError
  else if nOut G = 0 then .error .zeroDivision
  else
    trellisCheck G fb
    if tbLen = 0 then .error .zeroDivision
    else
      let (d, pe, blocks) := mlDecodingErr (tile (getBinPerm (G.length * (tbLen / nOut G))) (trellisStates G).length)
        (convCodebook G fb uf tbLen) (rows tbLen p)
      return (d, pe, blocks.flatten ++ p.drop (p.length / tbLen * tbLen))

end Verif
