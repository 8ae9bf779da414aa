import Mathlib.Tactic.IntervalCases
import Verif.Lemmas.ConvTests
import Verif.Props.ConvDec
import Verif.Props.Conv

/-! **C83**: the project's tests of the convolutional code (test/test_pattern_coding.py 290-590) as statements
about all their random draws. -/

namespace Verif
open Spec

/-- the padded pattern encoded by walking the trellis -/
theorem coding_walk {nO : ℕ} {G : ConvG} {fb : Fb} (h : GoodCode nO G fb) (hd : DirectLong nO G fb)
    (hpos : 0 < nO) (hf : Fits nO G fb) (p : List Int) (hp : IsBinary p) :
    codingConv id p G (fb.map Prod.fst) (fb.map Prod.snd)
      = .ok (trellisWalk G (fb.map Prod.fst) (fb.map Prod.snd) (List.replicate (memSizes G).sum 0)
          (rows G.length (padTo G.length p))).1 := by
  obtain ⟨w, hw⟩ := exists_registers_zero fb p G.length
  obtain ⟨c, h1, h2, h3, h4⟩ := coding_code h hd p hp w (fun i _ => hw i)
  have hwalk := walk_code h hpos hf p hp w (fun i _ => (hw i).1)
  rw [stateAt_zero G w (fun i _ => (hw i).2)] at hwalk
  rw [h1, hwalk]
  congr 1
  have huni : ∀ r ∈ (List.range (nBlocks p.length G.length)).map (fun (k : ℕ) => (List.range nO).map (fun j =>
      encBit G.length (tf G) (fun i j => isDirect fb i j = true) (inBit p G.length) w j k)), r.length = nO := by
    intro r hr
    rw [List.mem_map] at hr
    obtain ⟨k, _, rfl⟩ := hr
    simp
  apply ext_getD 0
  · rw [h2, flatten_uniform_length nO _ huni]
    simp
  · intro q hq
    rw [h2] at hq
    have hj : q % nO < nO := Nat.mod_lt _ hpos
    have ht : q / nO < nBlocks p.length G.length := Nat.div_lt_of_lt_mul (by rwa [Nat.mul_comm])
    have hij : q / nO * nO + q % nO = q := by rw [Nat.mul_comm]; exact Nat.div_add_mod q nO
    rw [← hij, h4 _ _ ht hj, flatten_getD 0 nO _ huni _ _ (by simpa using ht) hj,
      getD_map_lt _ 0 [] _ (by simpa using ht), getD_of_lt 0 (List.range _) (by simpa using ht), List.getElem_range,
      getD_map_lt _ 0 0 _ (by simpa using hj), getD_of_lt 0 (List.range _) (by simpa using hj), List.getElem_range]

theorem draw_sums {lo extra nO : ℕ} {G : ConvG} {p : List Int} (h : TestDraw lo extra nO G p) (j : ℕ) (hj : j < nO) :
    ∑ i ∈ Finset.range G.length, (tf G i j).sum ≤ 2 ^ 53 := by
  have hone : ∀ i ∈ Finset.range G.length, (tf G i j).sum ≤ 4 := by
    intro i hi
    rw [Finset.mem_range] at hi
    have hl := (h.size i j hi hj).2
    have hb : IsBinary (tf G i j) := goodG_binary h.good hi hj
    have : ∀ l : List Int, IsBinary l → l.sum ≤ l.length := by
      intro l
      induction l with
      | nil => simp
      | cons a l ih =>
        intro hb
        have h1 := ih (fun x hx => hb x (by simp [hx]))
        have h2 := hb a (by simp)
        rw [List.sum_cons, List.length_cons]
        push_cast
        omega
    have := this _ hb
    omega
  have := Finset.sum_le_sum hone
  rw [Finset.sum_const, Finset.card_range] at this
  have h3 := h.inputs.2
  simp only [nsmul_eq_mul] at this
  refine this.trans ?_
  have : ((G.length : ℕ) : Int) ≤ 3 := by exact_mod_cast h3
  norm_num
  omega

theorem none_good {nO : ℕ} {G : ConvG} (h : GoodG nO G) : GoodCode nO G none := ⟨h, fun l u h => by cases h⟩

theorem fir_round {lo extra nO : ℕ} {G : ConvG} {p : List Int} (h : TestDraw lo extra nO G p) :
    codingConv rnd53 p G none none = codingConv id p G none none := by
  apply codingConv_round h.good none none p h.pattern.2 C34_double (fun i j => (tf G i j).sum) (draw_sums h)
  · intro i j _ _
    exact Or.inl ⟨rfl, le_rfl⟩
  · intro i j hi hj
    exact contribution_ok (none_good h.good) (directLong_none nO G) p i j hi hj

/-- **C83**, `coding_conv_basic_test` succeeds for every draw, in double precision. -/
theorem C83_basic_coding {nO : ℕ} {G : ConvG} {p : List Int} (h : TestDraw 1 1 nO G p) :
    codingConvBasicTest rnd53 p G = .ok true := by
  have hpos : 0 < nO := by have := h.outputs.1; omega
  have hne : p ≠ [] := by rintro rfl; have := h.pattern.1; simp at this
  have hw := coding_walk (none_good h.good) (directLong_none nO G) hpos (fits_none nO G) p h.pattern.2
  have e1 : codingConv rnd53 p G = .ok (trellisWalk G none none (List.replicate (memSizes G).sum 0)
      (rows G.length (padTo G.length p))).1 := (fir_round h).trans hw
  unfold codingConvBasicTest codingConvBasicTestOf
  beta_reduce
  rw [e1, buffer_rows p hne G.length (by have := h.inputs.1; omega)]
  show Except.ok (_ == _) = _
  rw [refLoop_start h.good hpos none none (refTermFir G) (fun i j u m => rfl)]
  simp

theorem samePrefix_ok {p d : List Int} (hl : d.length ≤ p.length) (h : ∀ q, q < d.length → d.getD q 0 = p.getD q 0) :
    samePrefix p d = .ok true := by
  unfold samePrefix
  rw [if_neg (by omega)]
  congr 1
  rw [beq_iff_eq]
  apply ext_getD 0 (by simp; omega)
  intro q hq
  have hq' : q < d.length := by simp at hq; omega
  rw [h q hq', List.getD_eq_getElem?_getD, List.getElem?_take, if_pos hq', ← List.getD_eq_getElem?_getD]

theorem decoding_test_ok {nO : ℕ} {G : ConvG} {fb : Fb} {p : List Int} (hT : TestDraw 2 2 nO G p) (h : GoodCode nO G fb)
    (hd : DirectLong nO G fb) (hf : Fits nO G fb)
    (ha : convTestAccepts G (fb.map Prod.fst) (fb.map Prod.snd) = true) :
    decodingConvTest id p G (fb.map Prod.fst) (fb.map Prod.snd) = .ok true := by
  have hpos : 0 < nO := by have := hT.outputs.1; omega
  have hG : 0 < G.length := hT.inputs.1
  have hm : HasMemory nO G := fun i j hi hj => (hT.size i j hi hj).1
  have hz := accepts_zeroStep h hpos hf hm ha
  have hdet := zeroStep_determined (n := 5) hz hG
  obtain ⟨c, ml, e1, e2, e3, e4⟩ := C37_error_free h hd hpos hf (n := 5) (by norm_num) hdet p hT.pattern.2
  have hlen : ∀ d : List Int, d.length = (p.length + G.length - 1) / G.length / 5 * (G.length * 5) → d.length ≤ p.length := by
    intro d hd
    rw [hd, hT.pattern.1]
    have h3 := hT.inputs.2
    generalize G.length = g at hG h3
    interval_cases g <;> norm_num
  obtain ⟨c', vit, last, f1, f2, f3, f4⟩ := C38_stream_partial h hd hpos hf hm (zeroStep_identified hz) (n := 5) (by norm_num) hdet p
    hT.pattern.2 (by
      rw [hT.pattern.1]
      have h3 := hT.inputs.2
      generalize G.length = g at hG h3
      interval_cases g <;> norm_num)
  rw [e1] at f1
  cases f1
  unfold decodingConvTest decodingConvTestOf
  beta_reduce
  rw [e1]
  simp only [bind, Except.bind]
  rw [goodG_nOut h.1, e2]
  simp only []
  rw [samePrefix_ok (hlen _ e3) e4]
  simp only [Bool.not_true, Bool.false_eq_true, if_false]
  rw [f2]
  simp only [Except.map]
  exact samePrefix_ok (hlen _ f3) f4

theorem decodingConvTest_congr (p : List Int) (G : ConvG) (fb : ConvFb) (uf : ConvUf)
    (h : codingConv rnd53 p G fb uf = codingConv id p G fb uf) :
    decodingConvTest rnd53 p G fb uf = decodingConvTest id p G fb uf := by
  unfold decodingConvTest decodingConvTestOf
  beta_reduce
  rw [h]

/-- **C83**, `decoding_conv_basic_test` succeeds for every draw that passes its filter, in double precision:
the filter guarantees that both decoders invert the encoder. -/
theorem C83_basic_decoding {nO : ℕ} {G : ConvG} {p : List Int} (h : TestDraw 2 2 nO G p)
    (ha : convTestAccepts G none none = true) : decodingConvTest rnd53 p G none none = .ok true := by
  rw [decodingConvTest_congr p G none none (fir_round h)]
  exact decoding_test_ok (fb := none) h (none_good h.good) (directLong_none nO G) (fits_none nO G) ha

theorem feedback_round {lo extra nO : ℕ} {G : ConvG} {p : List Int} {l : List (Option (List Int))} {u : List (List Int)}
    (h : TestDraw lo extra nO G p) (hF : FeedbackDraw nO G l u) (h2 : 2 ≤ G.length) :
    codingConv rnd53 p G (some l) (some u) = codingConv id p G (some l) (some u) := by
  refine C35_float_short_partial (fb := some (l, u)) (feedbackDraw_good h.good hF) (feedbackDraw_direct hF) p h.pattern.2
    rnd53 C34_double ?_
  rw [h.pattern.1]
  have h3 := h.inputs.2
  generalize G.length = g at h2 h3
  interval_cases g <;> norm_num

/-- **C83**, `coding_conv_feedback_test` (partial: draws in which every input with memory has a feedback
polynomial, and in double precision at least two inputs; see `C83_negative_memoryless` and
`C83_negative_double`). -/
theorem C83_feedback_coding_partial {nO : ℕ} {G : ConvG} {p : List Int} {l : List (Option (List Int))} {u : List (List Int)}
    (h : TestDraw 1 1 nO G p) (hF : FeedbackDraw nO G l u)
    (hall : ∀ i j, i < G.length → j < nO → l.getD i none = none → ∀ d, 1 ≤ d → (tf G i j).getD d 0 = 0) :
    codingConvFeedbackTest id p G (some l) (some u) = .ok true ∧
    (2 ≤ G.length → codingConvFeedbackTest rnd53 p G (some l) (some u) = .ok true) := by
  have hpos : 0 < nO := by have := h.outputs.1; omega
  have hne : p ≠ [] := by rintro rfl; have := h.pattern.1; simp at this
  have hf : Fits nO G (some (l, u)) := by
    intro l' u' he i j hi hj
    cases he
    exact ⟨fun f hlf => (hF.size i j f hi hj hlf).2, hall i j hi hj⟩
  have e1 : codingConv id p G (some l) (some u) = _ :=
    coding_walk (feedbackDraw_good h.good hF) (feedbackDraw_direct hF) hpos hf p h.pattern.2
  have hgo : ∀ rnd, codingConv rnd p G (some l) (some u) = codingConv id p G (some l) (some u) →
      codingConvFeedbackTest rnd p G (some l) (some u) = .ok true := by
    intro rnd hr
    unfold codingConvFeedbackTest codingConvFeedbackTestOf
    beta_reduce
    rw [hr, e1, buffer_rows p hne G.length (by have := h.inputs.1; omega)]
    show Except.ok (_ == _) = _
    rw [refLoop_start h.good hpos (some l) (some u) (refTermFeedback G (some u)) (fun i j x m => rfl)]
    simp
  exact ⟨hgo id rfl, fun h2 => hgo rnd53 (feedback_round h hF h2)⟩

/-- **C83**, `decoding_conv_feedback_test` (partial: exact arithmetic, or double precision with at least two
inputs; see `C83_negative_double`). -/
theorem C83_feedback_decoding_partial {nO : ℕ} {G : ConvG} {p : List Int} {l : List (Option (List Int))} {u : List (List Int)}
    (h : TestDraw 2 2 nO G p) (hF : FeedbackDraw nO G l u) (ha : convTestAccepts G (some l) (some u) = true) :
    decodingConvTest id p G (some l) (some u) = .ok true ∧
    (2 ≤ G.length → decodingConvTest rnd53 p G (some l) (some u) = .ok true) := by
  have hpos : 0 < nO := by have := h.outputs.1; omega
  have hm : HasMemory nO G := fun i j hi hj => (h.size i j hi hj).1
  have hf : Fits nO G (some (l, u)) := by
    intro l' u' he i j hi hj
    cases he
    exact ⟨fun f hlf => (hF.size i j f hi hj hlf).2,
      fun hn => absurd hn (accepts_all_feedback h.good hpos hm hF.absent ha i hi)⟩
  have h1 := decoding_test_ok (fb := some (l, u)) h (feedbackDraw_good h.good hF) (feedbackDraw_direct hF) hf ha
  exact ⟨h1, fun h2 => (decodingConvTest_congr p G _ _ (feedback_round h hF h2)).trans h1⟩

/-- **C83**, the filter of `decoding_conv_feedback_test` only passes draws in which every input has a feedback
polynomial: codes mixing inputs with and without feedback, for which the trellis is wrong
(`C36_negative_mixed`), are never tested. -/
theorem C83_mixed_never_tested {nO : ℕ} {G : ConvG} {p : List Int} {l : List (Option (List Int))} {u : List (List Int)}
    (h : TestDraw 2 2 nO G p) (hF : FeedbackDraw nO G l u) (ha : convTestAccepts G (some l) (some u) = true) :
    ∀ i < G.length, ∃ f, l.getD i none = some f := by
  intro i hi
  have hpos : 0 < nO := by have := h.outputs.1; omega
  exact Option.ne_none_iff_exists'.1
    (accepts_all_feedback h.good hpos (fun i j hi hj => (h.size i j hi hj).1) hF.absent ha i hi)

/-! ### Failing draws -/

theorem draw_one {lo extra nO : ℕ} {g : List (List Int)} {p : List Int} (hp : p.length = 100 ∧ IsBinary p)
    (ho : 1 + extra ≤ nO ∧ nO ≤ 1 + extra + 2) (hg : goodGb nO [g] = true)
    (hs : ∀ r ∈ g, lo ≤ r.length ∧ r.length ≤ 4) : TestDraw lo extra nO [g] p where
  pattern := hp
  inputs := ⟨le_rfl, by norm_num⟩
  outputs := ho
  good := goodG_of (by omega) hg
  size := by
    intro i j hi hj
    obtain rfl : i = 0 := by simpa using hi
    refine hs _ (mem_of_getD [] g ?_)
    have := (goodG_of (by omega) hg).2 g (by simp)
    rw [this.1]
    exact hj

theorem impulse_draw : (impulse 99).length = 100 ∧ IsBinary (impulse 99) := by
  refine ⟨by simp [impulse], fun x hx => ?_⟩
  unfold impulse at hx
  rw [List.mem_cons] at hx
  rcases hx with rfl | hx
  · exact Or.inr rfl
  · exact Or.inl (List.eq_of_mem_replicate hx)

/-- one input, four outputs, feedback polynomial 1+D+D^3 -/
def failG : ConvG := [[[0, 0, 0, 1], [0, 1, 0, 0], [0, 0, 1, 0], [1, 0, 0, 0]]]

theorem fail_draw : FeedbackDraw 4 failG [some [1, 1, 0, 1]] [[1, 1, 1, 1]] where
  shape := ⟨rfl, by simp⟩
  poly := by
    intro f hf
    simp only [List.mem_singleton, Option.some.injEq] at hf
    subst hf
    exact ⟨by intro x hx; simp at hx; omega, rfl⟩
  size := by
    intro i j f hi hj hf
    obtain rfl : i = 0 := by simpa [failG] using hi
    simp only [List.getD_cons_zero, Option.some.injEq] at hf
    subst hf
    interval_cases j <;> decide
  absent := by
    intro i j hi hj hn
    obtain rfl : i = 0 := by simpa [failG] using hi
    simp at hn
  flags := by
    intro i j hi hj _
    obtain rfl : i = 0 := by simpa [failG] using hi
    interval_cases j <;> decide

/-- **C83** *violated* in double precision: a draw of both feedback tests (one input, feedback 1+D+D^3, a
single one followed by 99 zeros) that passes the filter, for which the assertions fail because the filter
recursion leaves the exactly representable integers. -/
theorem C83_negative_double :
    TestDraw 1 1 4 failG (impulse 99) ∧ TestDraw 2 2 4 failG (impulse 99) ∧
    FeedbackDraw 4 failG [some [1, 1, 0, 1]] [[1, 1, 1, 1]] ∧
    convTestAccepts failG (some [some [1, 1, 0, 1]]) (some [[1, 1, 1, 1]]) = true ∧
    codingConvFeedbackTest rnd53 (impulse 99) failG (some [some [1, 1, 0, 1]]) (some [[1, 1, 1, 1]]) = .ok false ∧
    decodingConvTest rnd53 (impulse 99) failG (some [some [1, 1, 0, 1]]) (some [[1, 1, 1, 1]]) = .ok false :=
  ⟨draw_one impulse_draw (by norm_num) (by decide) (by decide),
    draw_one impulse_draw (by norm_num) (by decide) (by decide), fail_draw, by decide +kernel, by decide +kernel,
    by decide +kernel⟩

/-- **C83** *violated*: a draw of `coding_conv_feedback_test` without feedback polynomial whose assertion fails,
because the reference implementation ignores the memory of such inputs. -/
theorem C83_negative_memoryless :
    TestDraw 1 1 2 [[[0, 1], [1, 1]]] (impulse 99) ∧ FeedbackDraw 2 [[[0, 1], [1, 1]]] [none] [[0, 0]] ∧
    codingConvFeedbackTest rnd53 (impulse 99) [[[0, 1], [1, 1]]] (some [none]) (some [[0, 0]]) = .ok false := by
  refine ⟨draw_one impulse_draw (by norm_num) (by decide) (by decide), ⟨⟨rfl, by simp⟩, ?_, ?_, ?_, ?_⟩, by decide +kernel⟩
  · intro f hf
    simp at hf
  · intro i j f hi hj hf
    obtain rfl : i = 0 := by simpa using hi
    simp at hf
  · intro i j hi hj _
    obtain rfl : i = 0 := by simpa using hi
    interval_cases j <;> rfl
  · intro i j hi hj hn
    obtain rfl : i = 0 := by simpa using hi
    simp at hn

/-! ### Cases that meet the hypotheses -/

/-- a draw of `decoding_conv_basic_test` that passes the filter -/
example : TestDraw 2 2 3 [[[1, 1, 1], [1, 0, 1], [1, 1, 0]]] (impulse 99) ∧
    convTestAccepts [[[1, 1, 1], [1, 0, 1], [1, 1, 0]]] none none = true :=
  ⟨draw_one impulse_draw (by norm_num) (by decide) (by decide), by decide +kernel⟩

/-- a draw of both feedback tests with two inputs -/
example : TestDraw 2 2 4 [[[1, 0], [0, 1], [0, 0], [0, 0]], [[0, 0], [0, 0], [1, 0], [0, 1]]] (impulse 99) ∧
    FeedbackDraw 4 [[[1, 0], [0, 1], [0, 0], [0, 0]], [[0, 0], [0, 0], [1, 0], [0, 1]]] [some [1, 1], some [1, 1]]
      [[0, 1, 1, 1], [1, 1, 0, 1]] ∧
    convTestAccepts [[[1, 0], [0, 1], [0, 0], [0, 0]], [[0, 0], [0, 0], [1, 0], [0, 1]]] (some [some [1, 1], some [1, 1]])
      (some [[0, 1, 1, 1], [1, 1, 0, 1]]) = true := by
  refine ⟨⟨impulse_draw, by decide, by decide, goodG_of (by norm_num) (by decide), ?_⟩, ⟨⟨rfl, by simp⟩, ?_, ?_, ?_, ?_⟩,
    by decide +kernel⟩
  · intro i j hi hj
    have hi : i < 2 := hi
    interval_cases i <;> interval_cases j <;> decide
  · intro f hf
    simp at hf
    subst hf
    exact ⟨by intro x hx; simp at hx; omega, rfl⟩
  · intro i j f hi hj hf
    have hi : i < 2 := hi
    interval_cases i <;> interval_cases j <;> simp at hf <;> subst hf <;> decide
  · intro i j hi hj hn
    have hi : i < 2 := hi
    interval_cases i <;> simp at hn
  · intro i j hi hj _
    have hi : i < 2 := hi
    interval_cases i <;> interval_cases j <;> decide

/-- a draw of `coding_conv_basic_test` -/
example : TestDraw 1 1 2 [[[1, 1, 1], [1, 0, 1]]] (impulse 99) :=
  draw_one impulse_draw (by norm_num) (by decide) (by decide)

end Verif
