import Verif.Props.Ctle
import Verif.Props.Delay
import Verif.Props.Eye
import Verif.Props.Ffe
import Verif.Props.Filter
import Verif.Props.Framing
import Verif.Props.Lms
import Verif.Props.Noise
import Verif.Props.Pulse

/-! Concrete cases for the property theorems on framing, filters, equalizers, shaping and noise: each `example` applies the theorem named
above it to concrete data and discharges every hypothesis, so none of them is vacuous. -/

open Finset
namespace Verif
open Spec

-- `C42_frames`
example := C42_frames (α := ℚ) [3, 1, 4, 1, 5] (by decide) 3 1 2 (by decide)

-- `C42_cover_partial`
example := C42_cover_partial (α := ℚ) [3, 1, 4, 1, 5] 3 1 0 (by decide) (by decide) (by decide) [[3, 1, 4], [4, 1, 5]] (by decide +kernel) 3
  (by decide)

-- `C42_clip_keeps`
example := C42_clip_keeps (α := ℚ) [3, 1, 4, 1, 5] 3 1 (by decide) (by decide) (by decide) [[3, 1, 4], [4, 1, 5]] (by decide +kernel) (by decide) (by decide)

-- `C43_decimate`
example := C43_decimate (α := ℚ) [3, 1, 4] 2 (by decide) [3, 0, 1, 0, 4, 0] (by decide +kernel)

-- `C43_append`
example := C43_append (α := ℚ) [3, 1, 4] [2, 7] 3 (by decide)

-- `C45_filter`
example (f : FilterObj ℚ) (hf : filterInit [1, 1 / 2] [2, -1, 1 / 4] (some [3]) (some [1, 2]) = .ok f) :=
  C45_filter (F := ℚ) [1, 1 / 2] [2, -1, 1 / 4] (by norm_num) (some [3]) (some [1, 2]) f hf [[1, 2], [], [5]]

-- `C45_same`
example := C45_same (F := ℚ) [1, 1 / 2] [2, -1, 1 / 4] (by decide) (by decide) (by decide) (by norm_num) [[1, 2], [], [5]]

-- `C45_split_tii`
example (t : TiiObj ℚ) (ht : tiiInit [1, 1 / 2] [2, -1, 1 / 4] (none : Option (List ℚ)) = .ok t) :=
  C45_split_tii (F := ℚ) id [1, 1 / 2] [2, -1, 1 / 4] (by decide) (by decide) (by decide) none t ht [[1, 2], [], [5]]

-- `C45_negative_gain`
example := C45_negative_gain (F := ℚ) 3 2 1 (by norm_num) [4, 5]

-- `C46_negative_short_chunk`
example := C46_negative_short_chunk (K := ℚ) [1, 1 / 2, 1 / 4] none 1 0 (by decide) [1, 2] [3, 4, 5] (by decide) (by decide) []

-- `C47_recursion`
example := C47_recursion (K := ℚ) [1, -3, 5, 2, 0] [1, 1 / 4] [1 / 2, 1 / 8] none (by simp) 2 (by decide) 1 (by decide) (by decide) (by decide)
  (some [1, 3]) none (by simp) (by simp)

-- `C48_equalized`
/-- a channel with one postcursor 1/2, noise 1/4 on the second sample -/
example := C48_equalized (K := ℚ) [1, -1 / 4, -3 / 2] [1] [1 / 2] [-1, 1] [1, -1, -1] [0, 1 / 4, 0] 0 (by decide) (by decide) (by decide) rfl rfl none none
  (by simp) (by simp)
  (by intro n hn; have : n < 3 := hn; interval_cases n <;> decide)
  (by intro n hn l hl; have : n < 3 := hn; simp at hl; rcases hl with rfl | rfl <;> interval_cases n <;> norm_num)
  (by intro n hn; have : n < 3 := hn; interval_cases n <;> decide +kernel)

-- `C50_chunks`
example := C50_chunks 4 3 "rrc" (1 / 2) (by decide) (by decide) (Or.inr (Or.inr ⟨Or.inr rfl, by norm_num⟩)) none (by simp) [[1, -1], [3]] (by simp) (by simp)

-- `C50_negative_zero_rolloff`
example := C50_negative_zero_rolloff [1, -1] 4 3 (by decide) none

-- `C63_rcos`
example := C63_rcos (1 / 4) (by norm_num)

-- `C52_reproduces_partial`
example := C52_reproduces_partial (K := ℚ) wrap64 20 (Or.inr ⟨rfl, by decide⟩) (by decide) (1 / 3) true

-- `C52_sum_partial`
example := C52_sum_partial (K := ℚ) wrap64 20 (Or.inr ⟨rfl, by decide⟩) (by decide) (1 / 3) false

-- `C53_samples`
example := C53_samples (K := ℚ) (fun α => lagrangeCoeffs wrap64 3 α true) [3, 1, 4, 1, 5, 9] 4 3
  (fun k _ _ => by
    obtain ⟨c, h1, h2, -⟩ := C52_reproduces_partial (K := ℚ) wrap64 3 (Or.inr ⟨rfl, by decide⟩) (by decide) ((k : ℚ) / (4 : ℕ)) true
    exact ⟨c, h1, h2⟩) (by decide) (by decide) (by decide)

-- `C64_negative_default`
example := C64_negative_default 5 (by decide) true (Or.inl rfl)

-- `C64_negative_half`
example := C64_negative_half 4 false (Or.inr rfl)

-- `C54_shape`
example := C54_shape [1, 2] [1, 3] [1, 3] [-3, -1, 1, 3] (some [1, 3]) [0, 1] [] rfl ⟨rfl, Or.inl rfl⟩ (by simp) (by simp)

-- `C54_unseen_tap`
example := C54_unseen_tap [1, 2] [1, 3] [1, 3] [-3, -1, 1, 3] (some [1, 3]) 2 rfl ⟨rfl, Or.inl rfl⟩ (by simp) (by decide)

-- `C55_reverse`
example := C55_reverse (K := ℚ) [1, 2, -1] [1, 1, -1] 1 (1 / 2) (1 / 10) rfl

-- `C55_early_late`
example := C55_early_late (K := ℚ) [1, 2, -1] [1, 1, -1] 1 (1 / 10) rfl

-- `C55_scale`
example := C55_scale (K := ℚ) [1, 2, -1] [1, 1, -1] 1 (1 / 2) (1 / 10) 3 rfl (by norm_num)

-- `C56_stable_partial`
example := C56_stable_partial [6 * 10 ^ 8] [10 ^ 9, 10 ^ 10] (-6) (32 * 10 ^ 9) 8 (by simp) (by simp) (by simp) (by simp) (by norm_num) (by simp)

-- `C56_zero_frequency`
example := C56_zero_frequency [0] [10 ^ 9, 10 ^ 10] (-6) (32 * 10 ^ 9) 8 (by simp) (by simp) (by simp)

-- `C56_rejects`
example := C56_rejects [] [10 ^ 9, 10 ^ 10] (-6) (32 * 10 ^ 9) 8 (by simp)

-- `C56_ctle`
example := C56_ctle [1, -1, 1] [6 * 10 ^ 8] [10 ^ 9, 10 ^ 10] (-6) (32 * 10 ^ 9) 8 (by simp) (by simp) (by simp) (by simp) (by norm_num)

-- `C57_counts`
example := C57_counts [1, -1, 1 / 2, 0, 1, 1] 2 16 (3 / 2) true (by decide) rfl (by decide) (by norm_num)

-- `C57_interpolated`
example := C57_interpolated [1, -1, 1 / 2, 0, 1, 1] 2 4 16 (3 / 2) false (by decide) (by decide) rfl (by simp) (by decide) (by norm_num)

-- `C57_negative_decimation`
example := C57_negative_decimation [1, -1, 1 / 2, 0, 1, 1, 0, 0] 4 2 16 (3 / 2) (by decide) (by decide) rfl rfl (by simp) (by decide) (by norm_num)
  (by intro v hv; simp at hv; rcases hv with rfl | rfl | rfl | rfl | rfl | rfl <;> norm_num [abs_le])

-- `C57_rejects`
example := C57_rejects [1, -1, 1 / 2, 0, 1] 2 2 16 (3 / 2) false (by decide) (Or.inr (Or.inl (by decide)))

-- `C59_estimate`
example := C59_estimate [1, -1, 3] (by decide)

-- `C59_single`
example := C59_single [2] [1] 20 (by decide)

-- `C59_measured`
example (y : List ℝ) (hy : awgn [1, -1] [1, 3] 20 = some y) := C59_measured [1, 3] [1, -1] y 20 (by decide) rfl
  (by simp [Spec.meanPower, Finset.sum_range_succ]) hy

-- `C67_power`
example := C67_power [1, Complex.I, 2] (by simp)

-- `C67_scale`
example := C67_scale [1, Complex.I, 2] (3 * Complex.I) (by simp)
end Verif
