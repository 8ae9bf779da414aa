import Verif.Props.Decimate
import Verif.Props.ErrorRate
import Verif.Props.Estim
import Verif.Props.EstimPrbs
import Verif.Props.FalseAlarm
import Verif.Props.Jitter
import Verif.Props.Lasso
import Verif.Props.LeastSq
import Verif.Props.LeastSqNoise
import Verif.Props.LineSpectrum
import Verif.Props.LockNoise
import Verif.Props.LockTests
import Verif.Props.Tensor

/-! Concrete cases for the property theorems on arrays, least squares, estimation, error rates and locks: each `example` applies the theorem named
above it to concrete data and discharges every hypothesis, so none of them is vacuous. -/

open Finset MeasureTheory ProbabilityTheory
namespace Verif
open Spec
set_option linter.unusedVariables false

-- `C119_index`
example := C119_index [2, 3, 4] 17 (by decide)

-- `C119_bin2uint`
example := C119_bin2uint [2, 1] 3 [1, 0, 1, 0, 1, 1] rfl

-- `C119_uint2bin`
example := C119_uint2bin ⟨[2, 1, 2], [5, 3, 12, -1]⟩ rfl 3

-- `C119_int_roundtrip`
example := C119_int_roundtrip ⟨[2, 1, 2], [5, 3, 12, -1]⟩ rfl 3

-- `C119_slicer_partial`
example := C119_slicer_partial (K := ℚ) ⟨[2, 2], [5, 0, -4, 1 / 2]⟩ rfl (Or.inr ⟨2, 2, by norm_num, rfl⟩) [-3, -1, 1, 3] (by simp)

-- `C119_negative_slicer`
example := C119_negative_slicer (K := ℚ) ⟨[2, 1, 2], [5, 0, -4, 1 / 2]⟩ rfl (Or.inl (by simp)) [-3, -1, 1, 3] (by simp)

-- `C119_slicer_agrees`
example := C119_slicer_agrees (K := ℚ) none [5, 0, -4] 2 [[5, 0], [-4, 1 / 2]] (by unfold Mat; decide)

-- `C119_quantize_partial`
example := C119_quantize_partial (K := ℚ) ⟨[1, 1, 2], [3 / 4, 9]⟩ rfl (by simp) 2 1 .u _ rfl (by decide +kernel)

-- `C60_ridge_zero`
example := C60_ridge_zero _ ![1, 2, 3] example_rank

-- `C60_ols`
example := C60_ols _ _ example_pinv ![1, 2, 3]

-- `C60_intercept`
example := C60_intercept (K := ℚ) !![1, 2; 3, 4; 5, 6] ![1, 2, 3] (1 / 2) (by norm_num) (by norm_num)

-- `C66_gradient`
example := C66_gradient id !![1, 2; 3, 4; 5, 6] ![1, 2, 3] (1 / 2) ![1, -2] 1 (by simp) rfl

-- `C66_negative_flag`
example := C66_negative_flag (K := ℚ) id !![1; 1] ![3, 3] 2 (1 / 10) (1 / 100) (by norm_num) (by norm_num) ![2] (by decide +kernel)

-- `C58_system`
example (ls : Solver ℚ) := C58_system ls [1, -1, -1, 1, 1, -1] [1, -1/2, -3/2, 1/2, 3/2, -1/2] 1 0 1 4 .ridge (1 / 10) rfl (by simp) rfl

-- `C58_optimal_mirrored`
example : ∃ ls : Solver ℝ, ∃ r, equalizationEstimation ls [1, -1, -1, 1, 1, -1] [1, -1/2, -3/2, 1/2, 3/2, -1/2] 1 0 1 false .none 0 = .ok r := by
  obtain ⟨ls, hls⟩ := C58_solver (K := ℝ) 3
  obtain ⟨r, h, -⟩ := C58_optimal_mirrored ls [1, -1, -1, 1, 1, -1] [1, -1/2, -3/2, 1/2, 3/2, -1/2] 1 0 1 4 .none 0 rfl (by simp) rfl hls
  exact ⟨ls, r, h⟩

-- `C58_optimal_partial`
example : ∃ ls : Solver ℝ, ∃ r, equalizationEstimation ls [1, -1, -1, 1, 1, -1] [1, -1/2, -3/2, 1/2, 3/2, -1/2] 1 0 1 false .none 0 = .ok r := by
  obtain ⟨ls, hls⟩ := C58_solver (K := ℝ) 3
  obtain ⟨r, h, -⟩ := C58_optimal_partial ls [1, -1, -1, 1, 1, -1] [1, -1/2, -3/2, 1/2, 3/2, -1/2] 1 0 1 4 .none 0 rfl (by simp) rfl (by simp) hls
  exact ⟨ls, r, h⟩

-- `C58_equalizer`
/-- the decision-feedback equalizer with the true postcursor on clean data -/
example := C58_equalizer (K := ℚ) [1, -1, -1, 1, 1, -1] [1, -1/2, -3/2, 1/2, 3/2, -1/2] [-1, 1] [0, 1] [1/2] 1 0 1 4 rfl (by simp) rfl (by norm_num)
  (by simp) (by norm_num) rfl rfl 0 0 (by decide) (by decide +kernel)

-- `C58_recovers_partial`
example : ∃ ls : Solver ℝ, ∃ r, equalizationEstimation ls [1, -1, -1, 1, 1, -1] [1, -1/2, -3/2, 1/2, 3/2, -1/2] 1 0 1 false .none 0 = .ok r := by
  obtain ⟨ls, hls⟩ := C58_solver (K := ℝ) 3
  obtain ⟨r, -, h, -⟩ := C58_recovers_partial ls [1, -1, -1, 1, 1, -1] [1, -1/2, -3/2, 1/2, 3/2, -1/2] [-1, 1] 1 0 1 4 .none 0 rfl (by simp) rfl
    (by norm_num) (by simp) (by norm_num) hls [0, 1] [1/2] rfl rfl
    (by intro i hi; interval_cases i <;> norm_num [eqOutput, sum_range_succ]) 0 0 (by intro s hs; simp at hs ⊢; tauto)
  exact ⟨ls, r, h⟩

-- `C58_energy`
example : ∃ ls : Solver ℝ, ∃ r, equalizationEstimation ls [1, -1, -1, 1, 1, -1] [1, -1/2, -3/2, 1/2, 3/2, -1/2] 1 0 1 false .none 0 = .ok r ∧
    r.mse.1 + r.mse.2 = 1 := by
  obtain ⟨ls, hls⟩ := C58_solver (K := ℝ) 3
  obtain ⟨r, h, h2⟩ := C58_energy ls [1, -1, -1, 1, 1, -1] [1, -1/2, -3/2, 1/2, 3/2, -1/2] 1 0 1 4 .none 0 rfl (by simp) rfl hls
  exact ⟨ls, r, h, h2.trans (by norm_num [sum_range_succ])⟩

-- `C68_branches`
example (ls : Solver ℝ) := (C68_branches ls .prbs7 .nrz [1, -1, 1] 2 2 false false false false false false (by simp)).2.2 (by decide) (by decide) (by decide)

-- `C68_gain`
example : ∃ (ls : Solver ℝ) (e : List ℝ) (signal : List ℝ), channelEstimationPrbs ls .prbs7 signal .nrz false 0 0 false false false false false
    = .ok (some ([1 / (3 * (1 - 1 / ((2 ^ 7 - 1 : ℕ) : ℝ) ^ 2))], e)) := by
  obtain ⟨ls, hls⟩ := C58_solver (K := ℝ) 1
  obtain ⟨e, h⟩ := C68_gain ls .prbs7 false false false false (bitAt (getPolynomial .prbs7) (onesSeed .prbs7)) (lfsrStream_bitAt _ _ rfl) 3 (by norm_num) 5
    ((List.range 300).map fun t : ℕ => 3 * periodic (2 ^ PrbsEnum.prbs7.value - 1) (txLevel .nrz false false false false false
      (bitAt (getPolynomial .prbs7) (onesSeed .prbs7))) (t + 5)) (by rw [List.length_map, List.length_range]; decide)
    (by intro t ht; rw [List.length_map, List.length_range] at ht; rw [map_range_getD _ _ _ _ ht]) hls
  exact ⟨ls, e, _, h⟩

-- `C121_analysis`
example (th : Int) : ∃ ref, csvData .prbs7 = some ref ∧ 1 - (4 / 25 : ℝ) ^ (2 ^ (PrbsEnum.prbs7.value - 2))
      ≤ drawProb ref.length (ref.length + 1) (1 / 100) (fun errs s => prbsAnalysisTest .prbs7 ref s errs th = .ok true) :=
  ⟨_, rfl, C121_analysis .prbs7 _ rfl th⟩

-- `C121_two_periods`
example := C121_two_periods .prbs7 _ (Or.inr rfl)

-- `C121_one_period`
example := C121_one_period .prbs9 _ (Or.inr rfl)

-- `C121_part_period`
example : ∃ seq, csvData .prbs9 = some seq ∧ 1 - (((2 * seq.length / 3).choose ((quarterMiss .prbs9 + 1) / 2) : ℕ) : ℝ) * (1 / 10000) ^ ((quarterMiss .prbs9 + 1) / 2)
      ≤ drawProb (2 * seq.length / 3) seq.length (1 / 10000) (fun errs s => lockRun3 lockBinaryTest seq errs s = .ok true) :=
  ⟨_, rfl, (C121_part_period .prbs9 _ (Or.inr rfl) _ (by omega) (by omega)).1⟩

-- `C77_memory`
/-- four symbols at two samples per symbol with a jitter of a tenth -/
example (interp : Interp) (y z : List ℝ) (h : pulseShape [1, -1, 3, -3] 2 1 "sinc" (1 / 2) none = .ok (y, z)) :=
  (C77_memory interp [0, 0, 10, 0] [1, -1, 3, -3] 2 1 "sinc" (1 / 2) (1 / 10) none y z h (by norm_num [abs_of_pos]) (by simp)).1 (by simp)

-- `C93_kkt`
example := C93_kkt (K := ℚ) !![1, 2; 3, 4; 5, 6] ![1, 2, 3] (1 / 2) (by norm_num) (by norm_num) ![1 / 4, 0] 1

-- `C93_documented`
example := C93_documented (K := ℚ) !![1, 2; 3, 4; 5, 6] ![1, 2, 3] (1 / 2) (by norm_num) ![1 / 4, 0]

-- `C94_silent`
example := C94_silent true 3 (by norm_num) [1, -5, 7] rfl 10

theorem casePam4 : mapping [0, 3, 1, 2] .pam4 false none false = .ok [-3, 3, -1, 1] := by
  simp only [mapping, Bool.false_eq_true, if_false, C18_levels_pam4]
  rfl


-- `C94_rate`
example := C94_rate .pam4 false [0, 3, 1, 2] (by decide) (by simp) _ casePam4 ⟨3, by simp, by norm_num⟩ 10

-- `C94_bound`
example := C94_bound .pam4 false [0, 3, 1, 2] (by decide) (by simp) _ casePam4 ⟨3, by simp, by norm_num⟩ 10

-- `C94_demapping_partial`
example := C94_demapping_partial .pam4 false [0, 3, 1, 2] (by decide) (by simp) _ casePam4 ⟨3, by simp, by norm_num⟩ 10

-- `C94_negative`
example := C94_negative .pam4 false [0, 3, 1, 2] (by decide) (by simp) _ casePam4 ⟨3, by simp, by norm_num⟩ 10

-- `C124_bipolar`
example := C124_bipolar 8 (by norm_num)

-- `C124_diff_manchester`
example := C124_diff_manchester 8 (by norm_num)

-- `C81_lock_noise`
example := C81_lock_noise (K := ℚ) [1, -1, 1, 1] [3 / 5, 3 / 5, 7 / 10, -2 / 5] (by simp) (by simp) 2 (1 / 2) (1 / 10) 2 (1 / 10) (by norm_num) (by norm_num)
  (by unfold LevelDistance; decide +kernel) (by decide +kernel) (by norm_num)

-- `C88_two_periods`
example : ∃ seq, csvData .prbs9 = some seq ∧ lockRun1 lockTest seq (true :: List.replicate 1021 false) 7 = .ok true := by
  have hl : ∃ seq, csvData .prbs9 = some seq ∧ seq.length = 511 := ⟨_, rfl, by decide +kernel⟩
  obtain ⟨seq, h, hl⟩ := hl
  refine ⟨seq, h, ?_⟩
  have := (C88_two_periods .prbs9 seq (Or.inr h) (true :: List.replicate 1021 false) (by rw [hl, List.length_cons, List.length_replicate])
    (by rw [hl]; decide +kernel) 7 (by rw [hl]; norm_num)).1
  rw [this]; rfl
end Verif
