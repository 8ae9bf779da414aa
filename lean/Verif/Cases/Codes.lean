import Verif.Props.Coding
import Verif.Props.Coding2
import Verif.Props.Conv
import Verif.Props.ConvDec
import Verif.Props.Linear

/-! Concrete cases for the property theorems on line codes, block codes and convolutional codes: each `example` applies the theorem named
above it to concrete data and discharges every hypothesis, so none of them is vacuous. -/

open Finset
namespace Verif
open Spec

-- `C22_decode_code_partial`
example := C22_decode_code_partial .pam4 [3, 0, 2, 1, 1] (by decide) (by decide)

-- `C22_code_decode_partial`
example := C22_code_decode_partial .pam3 [2, 0, 2, 1, 1] (by decide) (by decide)

-- `C23_rotation`
example := C23_rotation .pam4 [3, 0, 2, 1, 1] (by decide) 3

-- `C24_roundtrip`
example := C24_roundtrip [1, 0, 1, 1, 0] (by unfold IsBinary; decide)

-- `C24_cells`
example := C24_cells [1, 0, 1, 1, 0] (by unfold IsBinary; decide)

-- `C24_run_length`
example := C24_run_length [1, 0, 0, 1, 1] (by unfold IsBinary; decide)

-- `C24_received`
/-- the second cell is hit by an error -/
example := C24_received [1, 0, 1, 1, 0, 1] (by unfold IsBinary; decide) rfl

-- `C25_roundtrip`
example := C25_roundtrip [1, 0, 1, 1, 0] (by unfold IsBinary; decide)

-- `C25_running_sum`
example := C25_running_sum [1, 1, 0, 1, 1] (by unfold IsBinary; decide)

-- `C26_valid_clean`
example := C26_valid_clean [1, 1, 0, 1, 1] (by unfold IsBinary; decide)

-- `C26_detection_partial`
/-- the third mark has the polarity of the second -/
example := C26_detection_partial [2, 1, 0, 0, 2] (by decide)

-- `C27_cycle`
example := C27_cycle [1, 1, 0, 1, 1, 1] (by unfold IsBinary; decide)

-- `C27_steps`
example := C27_steps [1, 1, 0, 1, 1, 1] (by unfold IsBinary; decide)

-- `C27_roundtrip`
example := C27_roundtrip [0, 1, 0, 1, 1, 1] (by unfold IsBinary; decide) (by decide)

-- `C28_transitions`
example := C28_transitions [0, 1, 0, 1, 1, 1] (by unfold IsBinary; decide)

-- `C28_roundtrip`
example := C28_roundtrip [0, 1, 0, 1, 1, 1] (by unfold IsBinary; decide)

-- `C28_polarity`
example := C28_polarity [0, 1, 0, 1, 1, 1] (by unfold IsBinary; decide)

-- `C29_accepts`
example := C29_accepts [0, 1, 0, 1, 1, 1] (by unfold IsBinary; decide)

-- `C84_manchester`
example := C84_manchester 3 [[1, 0, 1], [0, 0, 1]] (by unfold Mat; decide) (by unfold BinMat; decide)

-- `C84_diff_manchester`
example := C84_diff_manchester 3 [[1, 0, 1], [0, 0, 1]] (by unfold Mat; decide) (by unfold BinMat; decide)

-- `C84_bipolar`
example := C84_bipolar 3 [[1, 0, 1], [0, 0, 1]] (by unfold Mat; decide) (by unfold BinMat; decide)

-- `C84_mlt3`
example := C84_mlt3 3 [[1, 0, 1], [0, 0, 1]] (by unfold Mat; decide) (by unfold BinMat; decide)

-- `C84_gray_partial`
example := C84_gray_partial .pam4 (by decide) 3 [[3, 0, 1], [0, 2, 1]] (by unfold Mat; decide) (by decide)

-- `C84_negative_mlt3`
example := C84_negative_mlt3 3 (by norm_num) [[1, 0, 1], [0, 0, 1]] (by decide)

-- `C84_negative_bipolar_detect`
example := C84_negative_bipolar_detect 3 (by norm_num) [[2, 1, 0], [1, 1, 2]] (by unfold Mat; decide) (by decide)

-- `C84_single_column`
example := C84_single_column [[1], [0], [1]] (by decide) (by unfold Mat; decide) (by unfold BinMat; decide)

-- `C30_encoder`
example := C30_encoder (n := 7) (G := exG) (by unfold BinaryMatrix IsBinary; decide) (by decide) [1, 0, 1, 1, 1] (by unfold IsBinary; decide)

-- `C30_additive`
example := C30_additive (n := 7) (G := exG) (by unfold BinaryMatrix IsBinary; decide) (by decide) [1, 0, 1, 1, 1] [0, 1, 1, 0, 1] (by unfold IsBinary; decide) (by unfold IsBinary; decide) rfl

-- `C30_concat`
example := C30_concat (n := 7) (G := exG) (by unfold BinaryMatrix IsBinary; decide) (by decide) [1, 0, 1, 1] [0, 1, 1, 0, 1] (by unfold IsBinary; decide) (by unfold IsBinary; decide) rfl

-- `C30_no_rows`
example := C30_no_rows [1, 0, 1] (by unfold IsBinary; decide)

-- `C32_maximum_likelihood`
/-- a block with two errors -/
example := C32_maximum_likelihood (n := 7) (G := exG) (by unfold BinaryMatrix IsBinary; decide) (by decide) (by decide) [1, 0, 1, 1, 1, 1, 1] (by unfold IsBinary; decide)

-- `C32_corrects_errors`
/-- one error in each of two blocks of the Hamming code -/
example := C32_corrects_errors (n := 7) (t := 1) (G := exG) (by unfold BinaryMatrix IsBinary; decide) (by decide) (by decide)
  (fun u v hu hv => (show ∀ u ∈ getBinPerm 4, ∀ v ∈ getBinPerm 4, u ≠ v →
      2 * 1 + 1 ≤ dist 7 (codeBit exG (seq u)) (codeBit exG (seq v)) by decide +kernel) u ((mem_getBinPerm 4 u).2 hu) v ((mem_getBinPerm 4 v).2 hv))
  [1, 0, 1, 1, 1] [1, 0, 1, 1, 0, 1, 0, 1, 0, 0, 0, 1, 1, 0] [1, 0, 1, 1, 1, 1, 0, 1, 1, 0, 0, 1, 1, 0] (by unfold IsBinary; decide) (by decide +kernel) (by unfold IsBinary; decide) rfl
  (by decide +kernel)

-- `C33_error_prob_partial`
example := C33_error_prob_partial (n := 7) (G := exG) (by unfold BinaryMatrix IsBinary; decide) (by decide) (by decide) [1, 0, 1, 1, 1, 1, 1] (by unfold IsBinary; decide)

-- `C41_bits_roundtrip`
example := C41_bits_roundtrip [0, 1, 1, 0, 1] (by unfold IsBinary; decide)

-- `C34_encoder`
example := C34_encoder (nO := 3) (G := exConvG) (goodG_of (by norm_num) (by decide)) none [1, 1, 0, 1, 1] (by unfold IsBinary; decide) rnd53 C34_double (by decide)

-- `C34_double`
example := C34_double (2 ^ 53 - 1) (by norm_num)

-- `C34_causal`
/-- patterns that part after two steps -/
example (cp cq : List Int) (h1 : codingConv rnd53 [1, 1, 0, 1, 1] exConvG none none = .ok cp)
    (h2 : codingConv rnd53 [1, 1, 0, 1, 0, 1] exConvG none none = .ok cq) :=
  C34_causal (nO := 3) (G := exConvG) (goodG_of (by norm_num) (by decide)) none [1, 1, 0, 1, 1] [1, 1, 0, 1, 0, 1] cp cq (by unfold IsBinary; decide) (by unfold IsBinary; decide) rnd53 C34_double (by decide) h1 h2 2
    (by decide) (by decide) (by decide) 5 (by decide)

-- `C34_additive`
example (cp cq cr : List Int) (h1 : codingConv rnd53 [1, 1, 0, 1] exConvG none none = .ok cp)
    (h2 : codingConv rnd53 [1, 0, 0, 1] exConvG none none = .ok cq) (h3 : codingConv rnd53 [0, 1, 0, 0] exConvG none none = .ok cr) :=
  C34_additive (nO := 3) (G := exConvG) (goodG_of (by norm_num) (by decide)) none [1, 1, 0, 1] [1, 0, 0, 1] [0, 1, 0, 0] cp cq cr (by unfold IsBinary; decide) (by unfold IsBinary; decide) (by unfold IsBinary; decide) rnd53 C34_double (by decide) h1 h2 h3
    rfl rfl (fun k => by match k with | 0 => rfl | 1 => rfl | 2 => rfl | 3 => rfl | k + 4 => rfl)

-- `C35_register_partial`
/-- a recursive systematic code -/
example := C35_register_partial (nO := 2) (G := exRscG) (fb := exRscFb) exRsc_good.1 exRsc_good.2.1 [1, 0, 1, 1, 0] (by unfold IsBinary; decide)

-- `C35_float_short_partial`
example := C35_float_short_partial (nO := 2) (G := exRscG) (fb := exRscFb) exRsc_good.1 exRsc_good.2.1 [1, 0, 1, 1, 0]
  (by unfold IsBinary; decide) rnd53 C34_double (by decide)

-- `C36_trellis_encoder_partial`
example := C36_trellis_encoder_partial (nO := 2) (G := exRscG) (fb := exRscFb) exRsc_good.1 exRsc_good.2.1 (by decide) exRsc_good.2.2
  [1, 0, 1, 1, 0] (by unfold IsBinary; decide) rfl

-- `C36_no_feedback`
example := C36_no_feedback (nO := 3) (G := exConvG) (goodG_of (by norm_num) (by decide)) (by decide) [1, 1, 0, 1] (by unfold IsBinary; decide) rfl rnd53 C34_double (by decide)

-- `C37_maximum_likelihood`
/-- the (7,5) code, blocks of two steps, a received pattern with errors -/
example := C37_maximum_likelihood (nO := 2) (tb := 4) (G := ex75) (fb := none) ex75_good (by decide) (fits_none _ _) (by decide)
  [1, 1, 0, 0, 1, 0, 1, 1] (by unfold IsBinary; decide)

-- `C37_corrects_errors`
example := C37_corrects_errors (nO := 6) (n := 2) (t := 1) (G := ex75r) (fb := none) ex75r_good (directLong_none _ _) (by decide)
  (fits_none _ _) (by decide) (code_distance ex75r_good (by decide) (fits_none _ _) (by decide +kernel))
  [1, 0] [1, 0, 1, 1, 1, 1, 1, 0, 1, 0, 1, 0] [1, 1, 1, 1, 1, 1, 1, 0, 1, 0, 1, 0] (by unfold IsBinary; decide) (by decide +kernel) (by unfold IsBinary; decide) rfl
  (by decide +kernel)

-- `C39_single_step_partial`
/-- the (7,5) code, blocks of one step, a received pattern with an error -/
example := C39_single_step_partial (nO := 2) (tb := 2) (G := ex75) (fb := none) ex75_good (by decide) (fits_none _ _)
  (fun i j hi hj => by
    have h1 : i = 0 := by have : i < 1 := hi; omega
    subst h1
    interval_cases j <;> decide) rfl [1, 0, 0, 1] (by unfold IsBinary; decide) (by decide)
end Verif
