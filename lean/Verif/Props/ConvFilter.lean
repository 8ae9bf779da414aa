import Verif.Props.ConvTests
import Verif.Lemmas.ConvFilter

/-! C83: which draws the filters of the decoding tests pass. -/

namespace Verif
open Spec

/-- **C83**, the filter of `decoding_conv_basic_test` passes a draw exactly when the only step with zero output
is the one from cleared registers with zero inputs. The other three conditions that it checks follow. -/
theorem C83_filter_basic {nO : ℕ} {G : ConvG} {p : List Int} (h : TestDraw 2 2 nO G p) :
    convTestAccepts G none none = true ↔ ZeroStep nO G none := by
  have hpos : 0 < nO := by have := h.outputs.1; omega
  have hm : HasMemory nO G := fun i j hi hj => (h.size i j hi hj).1
  exact ⟨accepts_zeroStep (fb := none) (none_good h.good) hpos (fits_none nO G) hm,
    zeroStep_accepts (fb := none) (none_good h.good) hpos (fits_none nO G)⟩

/-- **C83**, the filter of `decoding_conv_feedback_test` passes a draw exactly when every input has a feedback
polynomial and the only step with zero output is the one from cleared registers with zero inputs. -/
theorem C83_filter_feedback {nO : ℕ} {G : ConvG} {p : List Int} {l : List (Option (List Int))} {u : List (List Int)}
    (h : TestDraw 2 2 nO G p) (hF : FeedbackDraw nO G l u) :
    convTestAccepts G (some l) (some u) = true ↔
      (∀ i < G.length, ∃ f, l.getD i none = some f) ∧ ZeroStep nO G (some (l, u)) := by
  have hpos : 0 < nO := by have := h.outputs.1; omega
  have hm : HasMemory nO G := fun i j hi hj => (h.size i j hi hj).1
  have hfit : (∀ i < G.length, ∃ f, l.getD i none = some f) → Fits nO G (some (l, u)) := by
    intro hall l' u' he i j hi hj
    cases he
    refine ⟨fun f hlf => (hF.size i j f hi hj hlf).2, fun hn => ?_⟩
    obtain ⟨f, hf⟩ := hall i hi
    rw [hn] at hf
    cases hf
  have hg := feedbackDraw_good h.good hF
  constructor
  · intro ha
    have hall := C83_mixed_never_tested h hF ha
    exact ⟨hall, accepts_zeroStep (fb := some (l, u)) hg hpos (hfit hall) hm ha⟩
  · rintro ⟨hall, hz⟩
    exact zeroStep_accepts (fb := some (l, u)) hg hpos (hfit hall) hz

/-- a draw that the filter rejects: a repeated transfer function leaves a step with zero output -/
example : TestDraw 2 2 3 [[[1, 1, 0], [1, 1, 0], [1, 1, 0]]] (impulse 99) ∧
    ¬ ZeroStep 3 [[[1, 1, 0], [1, 1, 0], [1, 1, 0]]] none := by
  have hd : TestDraw 2 2 3 [[[1, 1, 0], [1, 1, 0], [1, 1, 0]]] (impulse 99) :=
    draw_one impulse_draw (by norm_num) (by decide) (by decide)
  refine ⟨hd, fun hz => ?_⟩
  have := (C83_filter_basic hd).2 hz
  revert this
  decide +kernel

/-- a draw that the filter passes, so only the zero step has zero output -/
example : ZeroStep 3 [[[1, 1, 1], [1, 0, 1], [1, 1, 0]]] none :=
  (C83_filter_basic (p := impulse 99) (draw_one impulse_draw (by norm_num) (by decide) (by decide))).1 (by decide +kernel)

/-- a draw of the feedback test that the filter passes -/
example : ZeroStep 4 failG (some ([some [1, 1, 0, 1]], [[1, 1, 1, 1]])) :=
  ((C83_filter_feedback (p := impulse 99) (draw_one impulse_draw (by norm_num) (by decide) (by decide)) fail_draw).1
    (by decide +kernel)).2

end Verif
