import Verif.Model.Spline
import Verif.Lemmas.Spline
import Verif.Props.Jitter

/-!
# The spline behind the random jitter (C77)
-/

namespace Verif
open Spec Polynomial

/-- **C77.** For at least four strictly increasing nodes there is exactly one cubic spline with not-a-knot ends. -/
theorem C77_spline_unique (t y : List ℝ) (ht : t.Pairwise (· < ·)) (hn : 4 ≤ t.length) : ∃! f, IsNotAKnot t y f := by
  obtain ⟨f, hf⟩ := spline_exists t y ht hn
  exact ⟨f, hf, fun g hg => spline_unique t y ht hn g f hg hf⟩

/-- nodes and values of five samples; one knot -/
example : ∃! f, IsNotAKnot [0, 1 / 2, 1, 3 / 2, 2] [1, -1, 3, 0, 2] f :=
  C77_spline_unique _ _ (by simp; norm_num) (by simp)

/-- **C77.** The spline passes through the nodes and reproduces cubics, so the contract of the jitter theorems holds. -/
theorem C77_spline_contract (interp : Interp) (h : IsSplineInterp interp) : IsCubicInterp interp where
  nodes t y ht hl hn i hi := (h t y ht hl hn).nodes i hi
  cubic t q ht hn hq x := by
    have h1 := h t (t.map (fun u => q.eval u)) ht (by simp) hn
    have h2 : IsNotAKnot t (t.map (fun u => q.eval u)) (fun x => q.eval x) := by
      refine ⟨by simpa using q.contDiff_aeval (𝕜 := ℝ) 2, fun i hi => ?_, fun a b _ _ => ⟨q, hq, fun x _ => rfl⟩⟩
      rw [getD_map_lt (fun u => q.eval u) 0 0 _ hi]
    exact congrFun (spline_unique t _ ht hn _ _ h1 h2) x

/-- **C77.** The interpolation of the model is this spline, hence all jitter theorems apply to it. -/
theorem C77_spline_model : IsSplineInterp scipyCubic ∧ IsCubicInterp scipyCubic := by
  have h : IsSplineInterp scipyCubic := by
    intro t y ht hl hn
    have he := spline_exists t y ht hn
    unfold scipyCubic
    rw [dif_pos he]
    exact he.choose_spec
  exact ⟨h, C77_spline_contract _ h⟩

/-- **C77.** Complete description of `pulse_shape` with jitter: sample `n` is the not-a-knot spline through the samples without
jitter, evaluated at the sample's time plus the offset of its symbol. -/
theorem C77_spline_value (randn x : List ℝ) (osr span : ℕ) (name : String) (β σ : ℝ) (zi : Option (List ℝ)) (y z : List ℝ)
    (h : pulseShape x osr span name β zi = .ok (y, z)) (hσ : 1 / 10 ^ 8 < |σ|) (h4 : 4 ≤ x.length * osr)
    (hr : x.length ≤ randn.length) (f : ℝ → ℝ)
    (hf : IsNotAKnot ((List.range (x.length * osr)).map (fun n : ℕ => (n : ℝ) / (osr : ℝ))) y f) :
    ∃ w, pulseShapeJitter scipyCubic randn x osr span name β σ zi = .ok (w, z) ∧ w.length = x.length * osr ∧
      ∀ n < x.length * osr, w.getD n 0 = f ((n : ℝ) / osr + randn.getD (n / osr) 0 * σ) := by
  obtain ⟨ho, hl⟩ := pulseShape_length h
  obtain ⟨w, e, hw, hv⟩ := pulseShapeJitter_ok scipyCubic randn x osr span name β σ zi y z h hσ
      (by omega) (by rw [hl, Nat.mul_div_cancel _ ho]; exact hr)
  refine ⟨w, e, by omega, fun n hn => ?_⟩
  rw [hv n (by omega) (by rw [hl, Nat.mul_div_cancel _ ho, Nat.div_lt_iff_lt_mul ho]; exact hn), hl]
  have hn4 : 4 ≤ ((List.range (x.length * osr)).map (fun n : ℕ => (n : ℝ) / (osr : ℝ))).length := by simpa using h4
  have hs := C77_spline_model.1 _ y (jitter_nodes osr (x.length * osr) ho) (by simp [hl]) hn4
  exact congrFun (spline_unique _ y (jitter_nodes osr _ ho) hn4 _ _ hs hf) _

/-- **C77.** For fixed random numbers, shaping with jitter is linear in the signal (memory at rest). -/
theorem C77_linear (randn x x' : List ℝ) (osr span : ℕ) (name : String) (β σ : ℝ) (g : ℝ → ℝ) (hg : IsPulse name β osr g)
    (ho : 0 < osr) (hs : 0 < span) (hl : x'.length = x.length) (h4 : 4 ≤ x.length * osr) (hr : x.length ≤ randn.length)
    (c d : ℝ) :
    ∃ w w' w'' z z' z'', pulseShapeJitter scipyCubic randn x osr span name β σ none = .ok (w, z) ∧
      pulseShapeJitter scipyCubic randn x' osr span name β σ none = .ok (w', z') ∧
      pulseShapeJitter scipyCubic randn (List.zipWith (fun u v => c * u + d * v) x x') osr span name β σ none = .ok (w'', z'') ∧
      ∀ n < x.length * osr, w''.getD n 0 = c * w.getD n 0 + d * w'.getD n 0 := by
  have hx : 0 < x.length := by
    rcases Nat.eq_zero_or_pos x.length with h | h
    · rw [h] at h4; omega
    · exact h
  set x2 := List.zipWith (fun u v => c * u + d * v) x x' with hx2
  have hl2 : x2.length = x.length := by rw [hx2, List.length_zipWith, hl, min_self]
  obtain ⟨y, z, e1, l1, -, v1⟩ := C50_superposition x osr span name β g hg ho hs hx
  obtain ⟨y', z', e2, l2, -, v2⟩ := C50_superposition x' osr span name β g hg ho hs (by omega)
  obtain ⟨y2, z2, e3, l3, -, v3⟩ := C50_superposition x2 osr span name β g hg ho hs (by omega)
  rw [hl] at l2 v2
  rw [hl2] at l3 v3
  have hlin : ∀ n < x.length * osr, y2.getD n 0 = c * y.getD n 0 + d * y'.getD n 0 := by
    intro n hn
    rw [v1 n hn, v2 n hn, v3 n hn, Finset.mul_sum, Finset.mul_sum, ← Finset.sum_add_distrib]
    apply Finset.sum_congr rfl
    intro j hj
    have hj := Finset.mem_range.1 hj
    have : x2.getD j 0 = c * x.getD j 0 + d * x'.getD j 0 := by
      rw [hx2, List.getD_eq_getElem?_getD, List.getElem?_eq_getElem (by rw [← hx2]; omega), Option.getD_some,
        List.getElem_zipWith, List.getD_eq_getElem?_getD, List.getElem?_eq_getElem hj, List.getD_eq_getElem?_getD,
        List.getElem?_eq_getElem (by omega), Option.getD_some, Option.getD_some]
    rw [this]; ring
  by_cases hσ : |σ| ≤ 1 / 10 ^ 8
  · refine ⟨y, y', y2, z, z', z2, ?_, ?_, ?_, hlin⟩
    · rw [C77_no_jitter _ _ _ _ _ _ _ _ _ hσ, e1]
    · rw [C77_no_jitter _ _ _ _ _ _ _ _ _ hσ, e2]
    · rw [C77_no_jitter _ _ _ _ _ _ _ _ _ hσ, e3]
  · push Not at hσ
    obtain ⟨f, hf⟩ := spline_exists _ y (jitter_nodes osr (x.length * osr) ho) (by simpa using h4)
    obtain ⟨f', hf'⟩ := spline_exists _ y' (jitter_nodes osr (x.length * osr) ho) (by simpa using h4)
    have hf2 := spline_lin _ y y' f f' hf hf' c d y2 (by intro i hi; exact hlin i (by simpa using hi))
    obtain ⟨w, r1, -, s1⟩ := C77_spline_value randn x osr span name β σ none y z e1 hσ h4 hr f hf
    obtain ⟨w', r2, -, s2⟩ := C77_spline_value randn x' osr span name β σ none y' z' e2 hσ (by rw [hl]; exact h4) (by omega) f'
      (by rw [hl]; exact hf')
    obtain ⟨w2, r3, -, s3⟩ := C77_spline_value randn x2 osr span name β σ none y2 z2 e3 hσ (by rw [hl2]; exact h4) (by omega) _
      (by rw [hl2]; exact hf2)
    rw [hl] at s2
    rw [hl2] at s3
    refine ⟨w, w', w2, z, z', z2, r1, r2, r3, fun n hn => ?_⟩
    rw [s1 n hn, s2 n hn, s3 n hn]

example : ∃ w z, pulseShapeJitter scipyCubic [1 / 3, -1, 2] [1, -1, 3] 2 1 "sinc" (1 / 2) (1 / 10) none = .ok (w, z) := by
  obtain ⟨w, _, _, z, _, _, h, -⟩ := C77_linear [1 / 3, -1, 2] [1, -1, 3] [0, 2, 5] 2 1 "sinc" (1 / 2) (1 / 10) _
    (Or.inr (Or.inl ⟨rfl, rfl⟩)) (by norm_num) (by norm_num) rfl (by simp) (by simp) 2 3
  exact ⟨w, z, h⟩

end Verif
