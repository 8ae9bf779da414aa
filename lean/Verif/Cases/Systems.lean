import Verif.Props.ChannelScripts
import Verif.Props.CodedRate
import Verif.Props.EconSeed
import Verif.Props.LmsTestsNeg
import Verif.Props.NoiseTest
import Verif.Props.Polyphase
import Verif.Props.PrbsShift
import Verif.Props.PrbsTests
import Verif.Props.Psa
import Verif.Props.PsaNoise
import Verif.Props.QuantNoise
import Verif.Props.RoundedFilter
import Verif.Props.RoundedLevels
import Verif.Props.RoundedMemory
import Verif.Props.Sim
import Verif.Props.SimAdc
import Verif.Props.SimEq
import Verif.Props.Survivor
import Verif.Props.TestPower
import Verif.Props.TestPower2

/-! Concrete cases for the property theorems on floating point, simulation objects, tests and spectra: each `example` applies the theorem named
above it to concrete data and discharges every hypothesis, so none of them is vacuous. -/

open Finset MeasureTheory ProbabilityTheory
namespace Verif
open Spec
set_option linter.unusedVariables false

-- `C106_negative_ffe`
example : ∃ bits, csvData .prbs7 = some bits ∧ lmsFfeTest false .prbs7 bits ffeWitRoots 2 24 = .ok false :=
  ⟨_, rfl, (C106_negative_ffe _ rfl).2.2⟩

-- `C59_expected`
example := C59_expected [1, -1, 1 / 2] 10 (by simp)

-- `C92_negative`
example := C92_negative .prbs7 _ rfl .pam4 (by decide) 10 (1 / 3)

-- `C108_feed_forward`
example := C108_feed_forward (K := ℚ) [1, 2, 3, 4, 5] [1, -1 / 2] [1, 0, -1 / 2, 0] none 2 1 0 0 (by norm_num) (by norm_num) (by simp) (by simp) (by decide +kernel)

-- `C76_window_count`
/-- the windows 1, 0, 0 in a period of PRBS7 -/
example : ∃ seq sd, prbsGenerator (getPolynomial .prbs7) [1, 0, 0, 1, 1, 0, 1] 140 = .ok (seq, sd) ∧
    ((range (2 ^ PrbsEnum.prbs7.value - 1)).filter (fun t => (seq.drop (5 + t)).take 3 = [1, 0, 0])).card = 2 ^ 4 := by
  have h : ∃ seq sd, prbsGenerator (getPolynomial .prbs7) [1, 0, 0, 1, 1, 0, 1] 140 = .ok (seq, sd) := ⟨_, _, rfl⟩
  obtain ⟨seq, sd, h⟩ := h
  exact ⟨seq, sd, h, C76_window_count .prbs7 [1, 0, 0, 1, 1, 0, 1] [1, 0, 0] rfl (by decide) (by decide) (by decide) 5 140 (by decide) seq sd h⟩

-- `C86_gen_test`
example := C86_gen_test .prbs7 _ rfl 300

-- `C70_mode_factors`
example := C70_mode_factors (fun n => List.replicate n 1) [1, 2, -1] true 8 1 (by norm_num) (by norm_num) "dBm" (by decide) 50 (by norm_num) 1 (1 / 2) 1
  (by norm_num) (by norm_num [meanPower, sum_range_succ]) false

-- `C122_mean`
/-- eight samples per second at a resolution of one, sixteen samples, a rectangular window -/
example (s : Fin 32 → ℝ) := C122_mean (fun n => List.replicate n 1) (by simp) 32 s (1 / 10) 8 1 (by norm_num) (by norm_num) "dBm" (by decide) (by decide) 50
  (by norm_num) 1 (by norm_num) (1 / 2) 1 (by norm_num) (by norm_num) (by norm_num) false 15 4
  (by rw [show ⌈(8 : ℝ) / 1⌉ = 8 by rw [div_one]; exact_mod_cast Int.ceil_intCast (R := ℝ) 8]; rfl) (by norm_num) (by norm_num) (by norm_num) (by norm_num)

-- `C125_error_law`
example := C125_error_law 8 (by norm_num) 4 .s (-128, 127) rfl

-- `C90_residual`
example : ∃ conv : List ℝ → List ℝ → List ℝ, ∃ y z', awgnChannelR (fl 53) conv [1, -1, 1] [1, 1 / 4] (.vec [1, -1 / 2]) none = .ok (y, z') := by
  obtain ⟨conv, hconv⟩ := isConvolve_exists (fl 53)
  obtain ⟨y, z', h, -⟩ := C90_residual 53 conv hconv [1, 1 / 4] (.vec [1, -1 / 2]) [1, -1, 1] (by simp) (by simp [Denom.coeffs]) (by simp [Denom.coeffs])
    (by simp) none (by simp)
  exact ⟨conv, y, z', h⟩

-- `C90_memory`
example : ∃ conv : List ℝ → List ℝ → List ℝ, ∃ y z', awgnChannelR (fl 53) conv [1, -1, 1] [1, 1 / 4] (.vec [1, -1 / 2]) none = .ok (y, z') := by
  obtain ⟨conv, hconv⟩ := isConvolve_exists (fl 53)
  obtain ⟨y, z', h, -⟩ := C90_memory 53 (by norm_num) conv hconv [1, 1 / 4] (.vec [1, -1 / 2]) [1, -1, 1] (by simp) (by simp [Denom.coeffs]) (by simp [Denom.coeffs])
    (by simp) none (by simp)
  exact ⟨conv, y, z', h⟩

-- `C89_levels`
example := C89_levels 53 (by norm_num) .pam4

-- `C89_slicer`
example := C89_slicer 53 (by norm_num) [1 / 3, -5] [-3, -1, 1, 3] (by simp)

-- `C89_quantize`
example := C89_quantize 53 [1 / 3, -5] 8 (by norm_num) (by norm_num) 4 .s (-128, 127) rfl

-- `C61_negative_pam3`
example (d : CodingData) (hb : d.bps = .log2of3) := C61_negative_pam3 d hb [1, 0, 1]

-- `C74_rejects`
example := C74_rejects (K := ℚ) 8 4 16 32 0 .s [1, 2] (Or.inr (by norm_num))

-- `C75_feed_forward_partial`
example : ∃ o : EqObj ℚ, eqInit 1 1 0 none none none none none = .ok o ∧ ∃ ys o', eqCalls o [[1, 2, 3, 4], [5, 6, 7]] = .ok (ys, o') := by
  have h : ∃ o : EqObj ℚ, eqInit 1 1 0 none none none none none = .ok o := ⟨_, rfl⟩
  obtain ⟨o, h⟩ := h
  obtain ⟨ys, o', e, -⟩ := C75_feed_forward_partial 1 1 (by norm_num) none none none o h [[1, 2, 3, 4], [5, 6, 7]] (by simp) (by simp)
  exact ⟨o, h, ys, o', e⟩

-- `C75_negative_short_chunk`
example : ∃ o : EqObj ℚ, eqInit 1 1 0 none none none none none = .ok o ∧ eqCalls o [[1, 2], [3]] = .error .typeError := by
  have h : ∃ o : EqObj ℚ, eqInit 1 1 0 none none none none none = .ok o := ⟨_, rfl⟩
  obtain ⟨o, h⟩ := h
  exact ⟨o, h, (C75_negative_short_chunk 1 1 (by norm_num) [1, 2] [3] (by simp) (by simp) o h).2⟩

-- `C97_one_survivor_per_state`
example := C97_one_survivor_per_state (n := 4) ex75_good (by norm_num) (fits_none _ _)

-- `C97_ml_error_prob_partial`
example := C97_ml_error_prob_partial (tb := 6) ex75_good (by norm_num) (fits_none _ _) (by norm_num) [1, 1, 0, 1, 0, 0, 1] (by unfold IsBinary; decide)

-- `C107_gray`
example (enc dec : List Int → Py (List Int)) := C107_gray .pam4 enc dec (List.replicate 50 3 ++ List.replicate 50 1) (by unfold SymbolDraw; decide +kernel)

-- `C107_manchester`
example (enc : List (List Int) → Py (List (List Int))) := C107_manchester enc (List.replicate 99 [1, 0, 1] ++ [[0, 0, 1]])
  (by unfold ArrayDraw Mat BinMat; decide +kernel)

-- `C107_bipolar`
example (enc : List (List Int) → Py (List (List Int))) := C107_bipolar enc (List.replicate 99 [1, 0, 1] ++ [[0, 0, 1]])
  (by unfold ArrayDraw Mat BinMat; decide +kernel)

-- `C107_mlt3`
example (enc : List (List Int) → Py (List (List Int))) := C107_mlt3 enc (List.replicate 99 [1, 0, 1] ++ [[0, 0, 1]])
  (by unfold ArrayDraw Mat BinMat; decide +kernel)

-- `C107_diff_manchester`
example (enc : List (List Int) → Py (List (List Int))) := C107_diff_manchester enc (List.replicate 99 [1, 0, 1] ++ [[0, 0, 1]])
  (by unfold ArrayDraw Mat BinMat; decide +kernel)

-- `C107_prbs_gen`
example (gen : List Int → List Int → Int → Py (List Int × List Int)) := C107_prbs_gen gen .prbs7 _ rfl 300 _ (lfsrStream_bitAt _ _ rfl)

-- `C107_conv_basic`
example (enc : List Int → ConvG → Py (List Int)) := C107_conv_basic enc (nO := 2) (G := [[[1, 1, 1], [1, 0, 1]]]) (p := impulse 99)
  (draw_one impulse_draw (by norm_num) (by decide) (by decide))

-- `C107_negative_lock_zero`
example := C107_negative_lock_zero (fun p _ => .ok (p, p)) [1, 0, 1] [1, 0, 1] (by intro a x h; simp at h; rw [← h.2]) (by simp)

-- `C110_rcos_finite`
example := C110_rcos_finite 40 3 8 (by norm_num) (by norm_num)

-- `C123_negative_one_error`
example := C123_negative_one_error (p := .prbs7) (seed := [1, 0, 0, 1, 1, 0, 1]) rfl (by decide) _ (lfsrStream_bitAt _ _ rfl) 1 300 (by norm_num) (by decide) 5
  (by norm_num) (by decide)

-- `C112_linear_union`
example := C112_linear_union (n := 7) (G := exG) (by unfold BinaryMatrix IsBinary; decide) (by decide) (by norm_num) (1 / 10) (by norm_num) (by norm_num)
  [1, 0, 1, 1] ⟨rfl, by unfold IsBinary; decide⟩
end Verif
