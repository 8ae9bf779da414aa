import Verif.Props.BlockRate
import Verif.Props.CodingTests
import Verif.Props.ConvTests
import Verif.Props.EqNoise
import Verif.Props.EqNoiseLms
import Verif.Props.LineErrors
import Verif.Props.RoundedRx

/-! Concrete cases for the property theorems on rounding, noise, coding tests and line decoders with errors: each `example` applies the theorem named
above it to concrete data and discharges every hypothesis, so none of them is vacuous. -/

open Finset MeasureTheory ProbabilityTheory
namespace Verif
open Spec
set_option linter.unusedVariables false

/-- correlation, convolution and scalar product routines of the assumed kinds exist -/
theorem isCorrelate_exists (r : ℝ → ℝ) : ∃ cor, IsCorrelate r cor := by
  refine ⟨fun a v => (List.range (a.length - v.length + 1)).map fun k =>
    ((List.range v.length).map fun l => (a.getD (k + l) 0, v.getD l 0)).foldr (fun q s => r (q.1 * q.2 + s)) 0,
    fun a v _ _ => ⟨by simp, fun k hk => ?_⟩⟩
  rw [map_range_getD _ _ _ _ (by omega)]
  exact foldr_roundedDot _ _

theorem isConvValid_exists (r : ℝ → ℝ) : ∃ conv, IsConvValid r conv := by
  refine ⟨fun b y => (List.range (y.length - b.length + 1)).map fun n =>
    ((List.range b.length).map fun i => (b.getD i 0, y.getD (n + b.length - 1 - i) 0)).foldr (fun q s => r (q.1 * q.2 + s)) 0,
    fun b y _ _ => ⟨by simp, fun n hn => ?_⟩⟩
  rw [map_range_getD _ _ _ _ (by omega)]
  exact foldr_roundedDot _ _

theorem isDot_exists (r : ℝ → ℝ) : ∃ dot, IsDot r dot :=
  ⟨fun a b => (a.zip b).foldr (fun q s => r (q.1 * q.2 + s)) 0, fun a b _ => foldr_roundedDot _ _⟩


-- `C118_lock`
/-- the pattern 1, -1, 1, 1 received from phase 2, at half amplitude, with an offset and a disturbance of 0.1 on one sample; 8-bit arithmetic -/
example : ∃ cor : List ℝ → List ℝ → List ℝ, ∃ rot xc : List ℝ, lockPatternWith cor [1, -1, 1, 1] [0.6, 0.6, 0.7, -0.4] = .ok (rot, xc) ∧
    rot[3]? = some (-1 : ℝ) := by
  obtain ⟨cor, hcor⟩ := isCorrelate_exists (fl 8)
  obtain ⟨rot, xc, h1, h2, h3⟩ := C118_lock 8 cor hcor [1, -1, 1, 1] [0.6, 0.6, 0.7, -0.4] (by simp) (by simp) 2 (1 / 2) 0.1 2 0.1 1 1 (by norm_num)
    (by norm_num) (by intro x hx y hy hxy; simp at hx hy; rcases hx with rfl | rfl | rfl <;> rcases hy with rfl | rfl | rfl <;> norm_num at * )
    (by intro i hi; have hi : i < 4 := hi; interval_cases i <;> norm_num [abs_le]) (by simp)
    (by intro x hx; simp at hx; rcases hx with rfl | rfl | rfl <;> norm_num [abs_le]) (by norm_num)
  exact ⟨cor, rot, xc, h1, by rw [h3 3 (by simp)]; rfl⟩

-- `C118_lock_double`
example : ∃ cor : List ℝ → List ℝ → List ℝ, ∃ rot xc : List ℝ, lockPatternWith cor [1, -1, 1, 1] [0.6, 0.6, 0.7, -0.4] = .ok (rot, xc) ∧
    rot[3]? = some (-1 : ℝ) := by
  obtain ⟨cor, hcor⟩ := isCorrelate_exists (fl 53)
  obtain ⟨rot, xc, h1, h2, h3⟩ := C118_lock_double cor hcor [1, -1, 1, 1] [0.6, 0.6, 0.7, -0.4] (by simp) (by simp) 2 (1 / 2) 0.1 2 0.1 1 1 (by norm_num)
    (by norm_num) (by intro x hx y hy hxy; simp at hx hy; rcases hx with rfl | rfl | rfl <;> rcases hy with rfl | rfl | rfl <;> norm_num at * )
    (by intro i hi; have hi : i < 4 := hi; interval_cases i <;> norm_num [abs_le]) (by simp)
    (by intro x hx; simp at hx; rcases hx with rfl | rfl | rfl <;> norm_num [abs_le]) (by norm_num) (by norm_num)
  exact ⟨cor, rot, xc, h1, by rw [h3 3 (by simp)]; rfl⟩

-- `C118_timing`
/-- samples 1, -1/2, 1/2 of the decisions 1, -1, 1 with 8 bits -/
example : ∃ dot : List ℝ → List ℝ → ℝ, muellerMullerR (fl 8) dot [1, -1 / 2, 1 / 2] [1, -1, 1] 1 1 (1 / 10)
    = muellerMuller [(1 : ℝ), -1 / 2, 1 / 2] [1, -1, 1] 1 1 (1 / 10) := by
  obtain ⟨dot, hdot⟩ := isDot_exists (fl 8)
  exact ⟨dot, C118_timing 8 dot hdot [1, -1 / 2, 1 / 2] [1, -1, 1] 1 1 (1 / 10) rfl (by simp) (by norm_num)
    (by norm_num [timingSize, timingError, sum_range_succ, abs_of_nonneg, abs_of_nonpos])⟩

-- `C118_timing_double`
example : ∃ dot : List ℝ → List ℝ → ℝ, muellerMullerR (fl 53) dot [1, -1 / 2, 1 / 2] [1, -1, 1] 1 1 (1 / 10)
    = muellerMuller [(1 : ℝ), -1 / 2, 1 / 2] [1, -1, 1] 1 1 (1 / 10) := by
  obtain ⟨dot, hdot⟩ := isDot_exists (fl 53)
  exact ⟨dot, C118_timing_double dot hdot [1, -1 / 2, 1 / 2] [1, -1, 1] 1 1 (1 / 10) 1 1 rfl (by simp) (by norm_num) (by norm_num)
    (by intro v hv; simp at hv; rcases hv with rfl | rfl | rfl <;> norm_num [abs_le]) (by simp)
    (by norm_num [timingError, sum_range_succ, abs_of_nonneg, abs_of_nonpos])⟩

-- `C118_ffe`
example : ∃ conv : List ℝ → List ℝ → List ℝ, ∃ y yE zo, ffeR (fl 53) conv [1, -1, 1 / 3] [1, -1 / 4] (some [2, 1]) = .ok (.ffe y zo) ∧
    ffeDfe [1, -1, 1 / 3] [1, -1 / 4] none none 1 0 (some [(2 : ℝ), 1]) none = .ok (.ffe yE zo) := by
  obtain ⟨conv, hconv⟩ := isConvValid_exists (fl 53)
  obtain ⟨y, yE, zo, h1, h2, -⟩ := C118_ffe 53 conv hconv [1, -1, 1 / 3] [1, -1 / 4] (some [2, 1]) (by simp) (by simp) (by simp) none 1 0 none
  exact ⟨conv, y, yE, zo, h1, h2⟩

-- `C113_pass`
/-- six samples, two taps, the first sample skipped -/
example := C113_pass 1 [1, -1, 1, 1, 1 / 2, -1] [-1, 1, 1, 1, -1] [-1, 1] [1, 1 / 4] (1 / 10) 10 (by simp) (by simp) (by simp) rfl (by simp)

-- `C113_law`
example := C113_law [1, -1, 1 / 2] [1, -1 / 4] 10 (by simp) (by simp)

-- `C113_decision`
example := C113_decision .nrz false [1, -1, 1 / 2] [1, -1 / 4] 10 (by simp) (by simp) ⟨1, by simp, by norm_num⟩ 1 (by simp) ⟨0, by simp, by simp⟩ 0 (by decide)

-- `C103_channel`
example (snr : ℝ) : ∃ sym lv, txSymbols true .nrz ⟨false, false, false, true⟩ [1, 0, 1] = .ok sym ∧ mapping sym .nrz false none false = .ok lv ∧
    ∃ s t : ℝ, 0 < s ∧ t = (1 - -1) / (2 * s) ∧ (normalDraws 3).real {x | ∀ b ∈ ({0, 2} : Finset ℕ),
      (BitWrong true .nrz ⟨false, false, false, true⟩ false [1, 0, 1] lv snr (List.ofFn x) b ↔ b ∈ ({2} : Finset ℕ))} = qFunc t * (1 - qFunc t) := by
  have hl : getLevels .nrz false = [(-1 : ℝ), 1] := by simp [getLevels, intLevels]
  have hs : txSymbols true .nrz ⟨false, false, false, true⟩ [1, 0, 1] = .ok [0, 1, 0] := by decide +kernel
  have hm : mapping [0, 1, 0] .nrz false none false = .ok [(-1 : ℝ), 1, -1] := by
    rw [mapping_values .nrz false _ (by decide), hl]; rfl
  obtain ⟨s, t, -, h2, h3, h4⟩ := C103_channel true .nrz (Or.inl rfl) ⟨false, false, false, true⟩ false [1, 0, 1] (by unfold IsBinary; decide)
    (by simp) _ hs _ hm ⟨1, by simp, by norm_num⟩ snr
  refine ⟨_, _, hs, hm, s, t, h2, by rw [h3, hl]; rfl, ?_⟩
  have h5 := h4 {0, 2} {2} (by simp) (by simp)
  simpa using h5

-- `C103_average`
example (p : ℝ) := C103_average (n := 7) (G := exG) (by unfold BinaryMatrix IsBinary; decide) (by decide) (by norm_num) p

-- `C103_optimal`
example := C103_optimal (n := 7) (G := exG) (by unfold BinaryMatrix IsBinary; decide) (by decide) (by norm_num) (1 / 10) (by norm_num) (by norm_num)
  (fun _ => [1, 0, 1, 1])

-- `C103_parity`
example := C103_parity 3 (by norm_num) (1 / 10)

-- `C85_gray_coding`
example := C85_gray_coding .pam4 (List.replicate 50 3 ++ List.replicate 50 1) (by unfold SymbolDraw; decide +kernel)

-- `C85_gray_decoding`
example := C85_gray_decoding .pam4 (List.replicate 50 3 ++ List.replicate 50 1) (by unfold SymbolDraw; decide +kernel)

-- `C85_differential_decoding`
example := C85_differential_decoding .pam4 (List.replicate 50 3 ++ List.replicate 50 1) (by unfold SymbolDraw; decide +kernel)

theorem caseArray : ArrayDraw (List.replicate 99 [1, 0, 1] ++ [[0, 0, 1]]) := by unfold ArrayDraw Mat BinMat; decide +kernel
theorem caseBits : BitDraw (List.replicate 49 1 ++ [0] ++ List.replicate 50 1) := by unfold BitDraw IsBinary; decide +kernel


-- `C85_manchester_coding`
example := C85_manchester_coding _ caseArray

-- `C85_bipolar_coding`
example := C85_bipolar_coding _ caseArray

-- `C85_mlt3_coding`
example := C85_mlt3_coding _ caseArray

-- `C85_diff_manchester_coding`
example := C85_diff_manchester_coding _ caseArray

-- `C85_manchester_decoding`
example := C85_manchester_decoding _ caseBits

-- `C85_bipolar_decoding`
example := C85_bipolar_decoding _ caseBits

-- `C85_mlt3_decoding`
example := C85_mlt3_decoding _ caseBits

-- `C85_diff_manchester_decoding`
example := C85_diff_manchester_decoding _ caseBits

-- `C85_linear_coding`
example := C85_linear_coding 3 (by norm_num) [1, 1, 0, 1] (by unfold IsBinary; decide)

-- `C85_linear_decoding`
example := C85_linear_decoding 3 (by norm_num) [1, 1, 0, 1] (by unfold IsBinary; decide)

-- `C83_basic_coding`
example := C83_basic_coding (nO := 2) (G := [[[1, 1, 1], [1, 0, 1]]]) (p := impulse 99) (draw_one impulse_draw (by norm_num) (by decide) (by decide))

-- `C83_basic_decoding`
example := C83_basic_decoding (nO := 3) (G := [[[1, 1, 1], [1, 0, 1], [1, 1, 0]]]) (p := impulse 99)
  (draw_one impulse_draw (by norm_num) (by decide) (by decide)) (by decide +kernel)

theorem caseDraw : TestDraw 2 2 4 [[[1, 0], [0, 1], [0, 0], [0, 0]], [[0, 0], [0, 0], [1, 0], [0, 1]]] (impulse 99) := by
  refine ⟨impulse_draw, by decide, by decide, goodG_of (by norm_num) (by decide), fun i j hi hj => ?_⟩
  have hi : i < 2 := hi
  interval_cases i <;> interval_cases j <;> decide

theorem caseDraw1 : TestDraw 1 1 3 [[[1, 0], [0, 1], [0, 0]], [[0, 0], [0, 0], [1, 0]]] (impulse 99) := by
  refine ⟨impulse_draw, by decide, by decide, goodG_of (by norm_num) (by decide), fun i j hi hj => ?_⟩
  have hi : i < 2 := hi
  interval_cases i <;> interval_cases j <;> decide

theorem caseFeedback : FeedbackDraw 4 [[[1, 0], [0, 1], [0, 0], [0, 0]], [[0, 0], [0, 0], [1, 0], [0, 1]]] [some [1, 1], some [1, 1]]
      [[0, 1, 1, 1], [1, 1, 0, 1]] := by
  refine ⟨⟨rfl, by simp⟩, ?_, ?_, ?_, ?_⟩
  · intro f hf
    simp at hf
    subst hf
    exact ⟨by intro x hx; simp at hx; omega, rfl⟩
  · intro i j f hi hj hf
    have hi : i < 2 := hi
    interval_cases i <;> interval_cases j <;> simp at hf <;> subst hf <;> decide
  · intro i j hi hj hn
    have hi : i < 2 := hi
    interval_cases i <;> simp at hn
  · intro i j hi hj _
    have hi : i < 2 := hi
    interval_cases i <;> interval_cases j <;> decide

theorem caseFeedback1 : FeedbackDraw 3 [[[1, 0], [0, 1], [0, 0]], [[0, 0], [0, 0], [1, 0]]] [some [1, 1], none]
      [[0, 1, 1], [0, 0, 0]] := by
  refine ⟨⟨rfl, by simp⟩, ?_, ?_, ?_, ?_⟩
  · intro f hf
    simp at hf
    subst hf
    exact ⟨by intro x hx; simp at hx; omega, rfl⟩
  · intro i j f hi hj hf
    have hi : i < 2 := hi
    interval_cases i <;> interval_cases j <;> simp at hf <;> subst hf <;> decide
  · intro i j hi hj hn
    have hi : i < 2 := hi
    interval_cases i <;> interval_cases j <;> simp at hn <;> decide
  · intro i j hi hj hn
    have hi : i < 2 := hi
    interval_cases i <;> interval_cases j <;> first | decide | (simp at hn)


-- `C83_feedback_coding_partial`
/-- two inputs, the second without feedback -/
example := C83_feedback_coding_partial caseDraw1 caseFeedback1 (by
  intro i j hi hj hn d hd
  have hi : i < 2 := hi
  interval_cases i
  · simp at hn
  · obtain ⟨d, rfl⟩ : ∃ e, d = e + 1 := ⟨d - 1, by omega⟩
    interval_cases j <;> rcases d with _ | d <;> simp [tf])

-- `C83_feedback_decoding_partial`
example := C83_feedback_decoding_partial caseDraw caseFeedback (by decide +kernel)

-- `C83_mixed_never_tested`
example := C83_mixed_never_tested caseDraw caseFeedback (by decide +kernel)

-- `C80_manchester`
example := C80_manchester [1, 0, 0, 1] (by unfold IsBinary; decide)

-- `C80_diff_manchester`
example := C80_diff_manchester [1, 0, 0, 1] (by unfold IsBinary; decide)

-- `C80_mlt3`
example := C80_mlt3 [1, 0, 0, 1] (by unfold IsBinary; decide) (by simp)

-- `C80_bipolar`
example := C80_bipolar [1, 0, 0, 1] (by unfold IsBinary; decide)

-- `C80_bipolar_detects`
example := C80_bipolar_detects [1, 0, 0, 1] (by unfold IsBinary; decide)
end Verif
