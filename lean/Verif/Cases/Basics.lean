import Verif.Props.Checker
import Verif.Props.Mapping
import Verif.Props.Prbs
import Verif.Props.Slicer
import Verif.Props.Symbol
import Verif.Props.SymbolReal

/-! Concrete cases for the property theorems on sequences, checkers, symbols and mapping: each `example` applies the theorem named
above it to concrete data and discharges every hypothesis, so none of them is vacuous. -/

open Finset
namespace Verif
open Spec
set_option linter.unusedVariables false

-- `C01_prbs_stream`
/-- a seed that is not all ones -/
example := C01_prbs_stream .prbs7 [1, 0, 0, 1, 1, 0, 1] rfl

-- `C01_stream_unique`
/-- two recursions of the register with the taps 2, 3 from the seed 1, 0, 1 -/
example (b c : ℕ → Int) (hb : Spec.LfsrStream [0, 1, 1] [1, 0, 1] b) (hc : Spec.LfsrStream [0, 1, 1] [1, 0, 1] c) : b 100 = c 100 := by
  rw [C01_stream_unique hb hc]

-- `C01_any_poly_one_period`
/-- a polynomial that is not maximal -/
example := C01_any_poly_one_period [0, 1, 0, 1] [1, 1, 0, 1] (by decide) rfl 15 (by decide)

-- `C01_rejects`
/-- a seed that is too short -/
example : prbsGenerator [0, 1, 1] [1, 1] 5 = .error .valueError := (C01_rejects [0, 1, 1] [1, 1] 5 (by norm_num)).2 (by decide) (by decide)

-- `C03_iterator`
example := C03_iterator [0, 0, 1, 1] [1, 0, 1, 1] rfl (by decide)

-- `C04_maximal_period`
example := C04_maximal_period .prbs9 [1, 0, 0, 0, 0, 0, 0, 0, 0] rfl ⟨1, by decide, by decide⟩ 511

-- `C07_checker_exact`
/-- a reference of one period against three bits -/
example := C07_checker_exact .prbs7 [1, 0, 1] (List.replicate 127 1) 1 (List.length_replicate ..)

-- `C09_negative_dead_line`
example := C09_negative_dead_line .prbs31 1000 10 (by norm_num)

-- `C09_negative_short`
example := C09_negative_short .prbs7 [1, 0, 1, 1, 0] (by decide) 1 (by norm_num)

-- `C10_lock_minimises`
example := C10_lock_minimises [1, 1, 0, 1, 0] [0, 1, 1] (by decide) (by decide) (by decide) (by decide)

-- `C10_lock_finds_phase`
example := C10_lock_finds_phase [1, 1, 0, 1, 0] [0, 1, 0, 1, 1, 0] (by decide) (by decide) (by decide) 2 (by decide)

-- `C11_lock_finds_phase_partial`
/-- gain 2, offset -1, phase 2 -/
example := C11_lock_finds_phase_partial (K := ℚ) [1, 1, 0, 1, 0] [-1, 1, -1, 1, 1, -1] (by decide) (by decide) 2 2 (-1) (by norm_num)
  (by decide +kernel)

-- `C11_lock_rotation`
example := C11_lock_rotation (K := ℚ) [1, 1, 0, 1, 0] [1 / 2, 3] (by decide) (by decide)

-- `C12_bits_roundtrip_partial`
example := C12_bits_roundtrip_partial [1, 0, 1, 1, 0, 0, 1] (by unfold IsBinary; decide) 3 (by norm_num) { invMsb := true } (by decide)

-- `C13_symbols_roundtrip_partial`
example := C13_symbols_roundtrip_partial [5, 0, 7] 3 (by norm_num) (by decide) { invLsb := true } (by decide)

-- `C14_symbol_range`
example := C14_symbol_range [1, 0, 1, 1, 0, 0, 1] (by unfold IsBinary; decide) 2 (by norm_num) { invLsb := true }

-- `C14_symbol_value`
example := C14_symbol_value [1, 0, 1, 1, 0, 0, 1] 3 (by norm_num)

-- `C15_gray_vector`
example := C15_gray_vector 12 (by norm_num)

-- `C15_gray_formula`
example := C15_gray_formula 13 (by norm_num)

-- `C16_gray_roundtrip_partial`
example := C16_gray_roundtrip_partial .pam4 (by decide) [3, 0, 2, 1, 1] (by decide)

-- `C16_negative_pam3`
example := C16_negative_pam3 [0, 2, 1] (by decide) (by decide)

-- `C14_tolerance`
example := C14_tolerance 16383 (by norm_num)

-- `C17_mapping_roundtrip`
example := C17_mapping_roundtrip .pam4 true true [3, 0, 2, 1, 1] (by decide)

-- `C20_slicer_vec`
example := C20_slicer_vec (K := ℚ) [2, -5, 1 / 4] [-3, -1, 1, 3] (by decide)

-- `C20_slicer_mat`
example := C20_slicer_mat (K := ℚ) 2 [[2, -5], [0, 1 / 4], [7, 1]] (by decide) (by decide) [-3, -1, 1, 3] (by decide)

-- `C20_slicer_idempotent`
example := C20_slicer_idempotent (K := ℚ) [2, -3, 1 / 4] [-3, -1, 1, 3] (by decide)

-- `C20_slicer_monotone`
example := C20_slicer_monotone (K := ℚ) [2, -3, 1 / 4] [3, -1, 1, -3] (by decide)

-- `C21_quantize_partial`
example := C21_quantize_partial (K := ℚ) [17 / 10, -5, 1 / 4] 4 (by norm_num) 2 .ss (-7, 7) rfl

-- `C21_quantize_mono_idem_partial`
example := C21_quantize_mono_idem_partial (K := ℚ) [17 / 10, -5, 1 / 4] 4 (by norm_num) 2 .s (-8, 7) rfl

-- `C21_negative_negfrac`
example := C21_negative_negfrac (K := ℚ) [17 / 10, -5] 4 (-3) (by norm_num) .s
end Verif
