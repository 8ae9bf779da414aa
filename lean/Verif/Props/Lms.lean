import Mathlib.Analysis.Real.Pi.Bounds
import Verif.Lemmas.Lms

/-! Properties of the LMS gradients (C54, C65) and of the Mueller-Muller detector (C55). -/

open Finset

set_option linter.unusedSectionVars false

namespace Verif
open Verif.Spec

/-- the taps `b`, `a` with delays `I`, `J` produced the block of outputs `o` from the signals `Y` (input) and `D`
(reference), of which the blocks `y` and `d` are passed to the gradient functions -/
structure EqualizerBlock (I J : Finset ℤ) (b a Y D : ℤ → ℝ) (y o d : List ℝ) : Prop where
  input : IsBlock Y y
  reference : IsBlock D d
  len_o : o.length = y.length
  len_d : d.length = y.length
  output : IsBlock (equalized I J b a Y D) o

/-- C54: for every block produced by the equalizer, `ddlms_grad` returns the mean squared error and, for every
requested tap seen by the block, a quarter of the partial derivative of the mean squared error over the samples for
which the tap sees data. -/
theorem C54_gradients (I J : Finset ℤ) (b a Y D : ℤ → ℝ) (y o d levels : List ℝ) (ref : Option (List ℝ))
    (fi di : List ℤ) (hb : EqualizerBlock I J b a Y D y o d) (href : IsReference levels o ref d)
    (hlv : levels ≠ []) (hy : y ≠ []) (hdi : ∀ j ∈ di, 0 ≤ j) :
    ∃ out, ddlmsGrad y o levels fi di ref = .ok out ∧
      out.value = some (meanLoss (Ico 0 (y.length : ℤ)) (fun n => (equalized I J b a Y D n - D n) ^ 2)) ∧
      out.ffeGrads.length = fi.length ∧ out.dfeGrads.length = di.length ∧
      (∀ k, k < fi.length → fi.getD k 0 ∈ I → |fi.getD k 0| < y.length → ∃ g, out.ffeGrads.getD k none = some g ∧
        HasDerivAt (fun t => meanLoss (tapSamples y.length (fi.getD k 0))
          (fun n => (equalized I J (Function.update b (fi.getD k 0) t) a Y D n - D n) ^ 2)) (4 * g) (b (fi.getD k 0))) ∧
      (∀ k, k < di.length → di.getD k 0 ∈ J → |di.getD k 0| < y.length → ∃ g, out.dfeGrads.getD k none = some g ∧
        HasDerivAt (fun t => meanLoss (tapSamples y.length (di.getD k 0))
          (fun n => (equalized I J b (Function.update a (di.getD k 0) t) Y D n - D n) ^ 2)) (4 * g)
          (a (di.getD k 0))) := by
  have hN : 0 < y.length := List.length_pos_of_ne_nil hy
  obtain ⟨e, he⟩ : ∃ e, e = List.zipWith (· - ·) o d := ⟨_, rfl⟩
  have hel : e.length = y.length := by rw [he, List.length_zipWith, hb.len_o, hb.len_d, min_self]
  have hE : IsBlock (fun n => equalized I J b a Y D n - D n) e := by
    intro n hn
    rw [hel] at hn
    rw [he, zipWith_getD _ 0 0 0 o d (by rw [hb.len_o]; exact hn) (by rw [hb.len_d]; exact hn),
      ← hb.output n (by rw [hb.len_o]; exact hn), ← hb.reference n (by rw [hb.len_d]; exact hn)]
  have hrun := ddlmsGrad_run y o d levels ref fi di hb.len_o href hlv hdi
  rw [← he] at hrun
  refine ⟨_, hrun, ?_, ?_, ?_, ?_, ?_⟩
  · rw [lmsReturn_value, meanOpt_block e _ _ hE (by omega), hel]
  · rw [lmsReturn_ffe _ _ _ _ _ (by simp)]; simp
  · rw [lmsReturn_dfe _ _ _ _ _ (by simp)]; simp
  · intro k hk hI hi
    rw [lmsReturn_ffe _ _ _ _ _ (by simp), getD_map_lt _ 0 none _ hk]
    refine ⟨_, tapMean_signals (1 / 2) _ e y _ Y hel hE hb.input hi, ?_⟩
    have := deriv_ffe (tapSamples y.length (fi.getD k 0)) I J b a Y D _ hI (fun n v => (v - D n) ^ 2) _
      (fun n _ => hasDerivAt_sqErr (D n) (equalized I J b a Y D n))
    convert this using 1
    simp only [mul_assoc, ← Finset.mul_sum]
    ring
  · intro k hk hJ hj
    rw [lmsReturn_dfe _ _ _ _ _ (by simp), getD_map_lt _ 0 none _ hk]
    have hr : tapMean (-1 / 2) y.length (di.getD k 0) e d = tapMean (-1 / 2) d.length (di.getD k 0) e d := by
      rw [hb.len_d]
    have ht := tapMean_signals (-1 / 2) (di.getD k 0) e d _ D (hel.trans hb.len_d.symm) hE hb.reference
      (by rw [hb.len_d]; exact hj)
    rw [hb.len_d] at ht
    refine ⟨_, ht, ?_⟩
    have := deriv_dfe (tapSamples y.length (di.getD k 0)) I J b a Y D _ hJ (fun n v => (v - D n) ^ 2) _
      (fun n _ => hasDerivAt_sqErr (D n) (equalized I J b a Y D n))
    convert this using 1
    simp only [mul_assoc, ← Finset.mul_sum, mul_neg, Finset.sum_neg_distrib]
    ring

/-- the hypotheses of `C54_gradients` are met by a three-tap equalizer with one feedback tap -/
example : EqualizerBlock {-1, 0, 1} {1} (fun i => if i = 0 then 1 else 1 / 10) (fun _ => 1 / 5)
    (fun n => if n = 0 then 1 else if n = 1 then 2 else 0) (fun n => if n = 0 then 1 else if n = 1 then 3 else 0)
    [1, 2] [6 / 5, 19 / 10] [1, 3] ∧ IsReference ([-3, -1, 1, 3] : List ℝ) [6 / 5, 19 / 10] (some [1, 3]) [1, 3] := by
  refine ⟨⟨?_, ?_, rfl, rfl, ?_⟩, rfl, Or.inl rfl⟩
  · intro n hn
    have : n = 0 ∨ n = 1 := by simp at hn; omega
    rcases this with rfl | rfl <;> simp
  · intro n hn
    have : n = 0 ∨ n = 1 := by simp at hn; omega
    rcases this with rfl | rfl <;> simp
  · intro n hn
    have : n = 0 ∨ n = 1 := by simp at hn; omega
    rcases this with rfl | rfl
    · simp [equalized]; norm_num
    · simp [equalized]; norm_num

/-- C54: without slicer error the loss and every gradient vanish. -/
theorem C54_zero_error (y o levels : List ℝ) (ref : Option (List ℝ)) (fi di : List ℤ) (hl : o.length = y.length)
    (href : IsReference levels o ref o) (hlv : levels ≠ []) (hy : y ≠ []) (hdi : ∀ j ∈ di, 0 ≤ j)
    (hfi : ∀ i ∈ fi, |i| < y.length) (hdi' : ∀ j ∈ di, |j| < y.length) :
    ∃ out, ddlmsGrad y o levels fi di ref = .ok out ∧ out.value = some 0 ∧
      out.ffeGrads = List.replicate fi.length (some 0) ∧ out.dfeGrads = List.replicate di.length (some 0) := by
  have hN : 0 < y.length := List.length_pos_of_ne_nil hy
  obtain ⟨e, he⟩ : ∃ e, e = List.zipWith (· - ·) o o := ⟨_, rfl⟩
  have hel : e.length = y.length := by rw [he, List.length_zipWith, hl, min_self]
  have hz : ∀ n, e.getD n 0 = 0 := by
    intro n
    by_cases hn : n < o.length
    · rw [he, zipWith_getD _ 0 0 0 o o hn hn, sub_self]
    · rw [getD_of_le]; rw [hel, ← hl]; omega
  have htm : ∀ (c : ℝ) (i : ℤ) (x : List ℝ), |i| < y.length → tapMean c y.length i e x = some 0 := by
    intro c i x hi
    unfold tapMean
    rw [if_neg (not_le.2 hi)]
    simp only [hz, zero_mul, Finset.sum_const_zero, zero_div, mul_zero]
  have hrun := ddlmsGrad_run y o o levels ref fi di hl href hlv hdi
  rw [← he] at hrun
  refine ⟨_, hrun, ?_, ?_, ?_⟩
  · rw [lmsReturn_value, meanOpt_block e (fun _ => 0) _ (fun n _ => (hz n).symm) (by omega)]
    simp [meanLoss]
  · rw [lmsReturn_ffe _ _ _ _ _ (by simp), List.eq_replicate_iff]
    refine ⟨by simp, fun v hv => ?_⟩
    obtain ⟨i, hi, rfl⟩ := List.mem_map.1 hv
    exact htm _ _ _ (hfi i hi)
  · rw [lmsReturn_dfe _ _ _ _ _ (by simp), List.eq_replicate_iff]
    refine ⟨by simp, fun v hv => ?_⟩
    obtain ⟨i, hi, rfl⟩ := List.mem_map.1 hv
    exact htm _ _ _ (hdi' i hi)

example : ddlmsGrad ([1, 2, 5] : List ℚ) [1, 3, -1] [-3, -1, 1, 3] [-1, 0, 2] [1] none
    = .ok (.both (some 0) [some 0, some 0, some 0] [some 0]) := by decide +kernel

/-- C54: the shape of the result follows the requested taps: the loss alone, the loss with one list of gradients, or
the loss with both lists. -/
theorem C54_shape (y o d levels : List ℝ) (ref : Option (List ℝ)) (fi di : List ℤ) (hl : o.length = y.length)
    (href : IsReference levels o ref d) (hlv : levels ≠ []) (hdi : ∀ j ∈ di, 0 ≤ j) :
    ∃ l gf gd, ddlmsGrad y o levels fi di ref = .ok (
      match fi, di with
      | [], [] => .loss l
      | [], _ :: _ => .dfe l gd
      | _ :: _, [] => .ffe l gf
      | _ :: _, _ :: _ => .both l gf gd) := by
  obtain ⟨e, he⟩ : ∃ e, e = List.zipWith (· - ·) o d := ⟨_, rfl⟩
  have hd : d.length = y.length := href.1.trans hl
  have hel : e.length = y.length := by rw [he, List.length_zipWith, hl, hd, min_self]
  have hrun := ddlmsGrad_run y o d levels ref fi di hl href hlv hdi
  rw [← he] at hrun
  refine ⟨meanOpt (e.map (fun v => v ^ 2)), fi.map (fun i => tapMean (1 / 2) y.length i e y),
    di.map (fun j => tapMean (-1 / 2) y.length j e d), hrun.trans ?_⟩
  cases fi <;> cases di <;> rfl

/-- C54: a tap whose delay reaches the block length sees no sample; its gradient is NaN. -/
theorem C54_unseen_tap (y o d levels : List ℝ) (ref : Option (List ℝ)) (i : ℤ) (hl : o.length = y.length)
    (href : IsReference levels o ref d) (hlv : levels ≠ []) (hi : (y.length : ℤ) ≤ |i|) :
    ∃ l, ddlmsGrad y o levels [i] [] ref = .ok (.ffe l [none]) := by
  obtain ⟨e, he⟩ : ∃ e, e = List.zipWith (· - ·) o d := ⟨_, rfl⟩
  have hd : d.length = y.length := href.1.trans hl
  have hel : e.length = y.length := by rw [he, List.length_zipWith, hl, hd, min_self]
  refine ⟨meanOpt (e.map (fun v => v ^ 2)), ?_⟩
  · unfold ddlmsGrad
    rw [lmsReference_eq levels o d ref true href (fun h => absurd h hlv)]
    show ((computeDerivatives y d [i] [] (List.zipWith (· - ·) o d)).bind _) = _
    rw [← he, computeDerivatives_eq y d e [i] [] hel hd (by simp)]
    simp only [List.map_cons, List.map_nil, tapMean, if_pos hi]
    rfl

/-- C54: a reference of another length and an empty list of levels without a reference are rejected; a negative
feedback delay runs out of the reference. -/
theorem C54_rejects (y o levels : List ℝ) (fi di : List ℤ) :
    (∀ r : List ℝ, r.length ≠ o.length → ddlmsGrad y o levels fi di (some r) = .error .valueError) ∧
      ddlmsGrad y o [] fi di none = .error .valueError ∧
      (∀ (d : List ℝ) (ref : Option (List ℝ)), o.length = y.length → levels ≠ [] → IsReference levels o ref d →
        (∃ j ∈ di, j < 0) → ddlmsGrad y o levels fi di ref = .error .indexError) := by
  refine ⟨fun r hr => ?_, rfl, fun d ref hl hlv href hj => ?_⟩
  · have : lmsReference o levels (some r) true = .error .valueError := by
      unfold lmsReference
      simp [hr]
    unfold ddlmsGrad
    rw [this]; rfl
  · have hd : d.length = y.length := href.1.trans hl
    have hel : (List.zipWith (· - ·) o d).length = y.length := by rw [List.length_zipWith, hl, hd, min_self]
    unfold ddlmsGrad
    rw [lmsReference_eq levels o d ref true href (fun h => absurd h hlv)]
    show ((computeDerivatives y d fi di (List.zipWith (· - ·) o d)).bind _) = _
    rw [computeDerivatives_negative y d _ fi di hel hd hj]
    rfl

example : ddlmsGrad ([1, 2] : List ℚ) [1, 3] [-1, 1] [] [1, -1] none = .error .indexError := by decide +kernel

/-- C65: for every block produced by the equalizer, `soft_ddlms_grad` returns the mean of the negative logarithm of the
mixture density and, for every requested tap seen by the block, the partial derivative of that loss over the samples
for which the tap sees data, multiplied by `len(levels) * sqrt(2 pi sigma^2) / 2`. -/
theorem C65_gradients (I J : Finset ℤ) (b a Y D : ℤ → ℝ) (y o d levels : List ℝ) (σ : ℝ) (ref : Option (List ℝ))
    (fi di : List ℤ) (hb : EqualizerBlock I J b a Y D y o d) (href : IsReference levels o ref d)
    (hlv : levels ≠ []) (hσ : σ ≠ 0) (hy : y ≠ []) (hdi : ∀ j ∈ di, 0 ≤ j) :
    ∃ out, softDdlmsGrad y o levels σ fi di ref = .ok out ∧
      out.value = some (meanLoss (Ico 0 (y.length : ℤ))
        (fun n => -Real.log (mixture levels σ (equalized I J b a Y D n)))) ∧
      out.ffeGrads.length = fi.length ∧ out.dfeGrads.length = di.length ∧
      (∀ k, k < fi.length → fi.getD k 0 ∈ I → |fi.getD k 0| < y.length → ∃ g, out.ffeGrads.getD k none = some g ∧
        HasDerivAt (fun t => meanLoss (tapSamples y.length (fi.getD k 0))
          (fun n => -Real.log (mixture levels σ (equalized I J (Function.update b (fi.getD k 0) t) a Y D n))))
          (2 / (levels.length * Real.sqrt (2 * Real.pi * σ ^ 2)) * g) (b (fi.getD k 0))) ∧
      (∀ k, k < di.length → di.getD k 0 ∈ J → |di.getD k 0| < y.length → ∃ g, out.dfeGrads.getD k none = some g ∧
        HasDerivAt (fun t => meanLoss (tapSamples y.length (di.getD k 0))
          (fun n => -Real.log (mixture levels σ (equalized I J b (Function.update a (di.getD k 0) t) Y D n))))
          (2 / (levels.length * Real.sqrt (2 * Real.pi * σ ^ 2)) * g) (a (di.getD k 0))) := by
  have hN : 0 < y.length := List.length_pos_of_ne_nil hy
  have hs := sqrt_pos_of σ hσ
  have hL : (0 : ℝ) < levels.length := by exact_mod_cast List.length_pos_of_ne_nil hlv
  obtain ⟨s, hsq⟩ : ∃ s, s = Real.sqrt (2 * Real.pi * σ ^ 2) := ⟨_, rfl⟩
  rw [← hsq] at hs ⊢
  obtain ⟨E, hEd⟩ : ∃ E : ℝ → ℝ, E = fun x => levels.length * s * (expDiff levels σ x / expSum levels σ x) := ⟨_, rfl⟩
  obtain ⟨e, he⟩ : ∃ e, e = o.map E := ⟨_, rfl⟩
  have hel : e.length = y.length := by rw [he, List.length_map, hb.len_o]
  have hE : IsBlock (fun n => E (equalized I J b a Y D n)) e := by
    intro n hn
    rw [hel, ← hb.len_o] at hn
    rw [he, getD_map_lt _ 0 0 _ hn, ← hb.output n hn]
  have hrun : softDdlmsGrad y o levels σ fi di ref = .ok (lmsReturn
      ((meanOpt (o.map (fun x => Real.log (mixture levels σ x)))).map (fun m => -1 * m))
      (fi.map (fun i => tapMean (1 / 2) y.length i e y)) (di.map (fun j => tapMean (-1 / 2) y.length j e d))
      fi.length di.length) := by
    unfold softDdlmsGrad
    rw [lmsReference_eq levels o d ref false href (fun h => absurd h hlv)]
    have hf : o.map (fun x => 1 / (levels.length : ℝ) / Real.sqrt (2 * Real.pi * σ ^ 2)
        * (levels.map (fun l => Real.exp (-1 * (x - l) ^ 2 / (2 * σ ^ 2)))).sum) = o.map (mixture levels σ) := by
      apply List.map_congr_left
      intro x _
      rw [mixture_eq]; rfl
    have hz : List.zipWith (fun fx x => 1 / fx
        * (levels.map (fun l => (x - l) / σ ^ 2 * Real.exp (-1 * (x - l) ^ 2 / (2 * σ ^ 2)))).sum)
        (o.map (mixture levels σ)) o = e := by
      rw [he, hEd]
      apply ext_getD 0 (by simp)
      intro n hn
      simp only [List.length_zipWith, List.length_map, min_self] at hn
      rw [zipWith_getD _ 0 0 0 _ _ (by simpa using hn) hn, getD_map_lt _ 0 0 _ hn, getD_map_lt _ 0 0 _ hn, mixture_eq]
      have h1 := expSum_pos levels σ (o.getD n 0) hlv
      rw [← hsq]
      show 1 / _ * expDiff levels σ (o.getD n 0) = _
      field_simp
    show (if levels.length = 0 then _ else _) = _
    rw [if_neg (by intro h; exact hlv (List.eq_nil_of_length_eq_zero h))]
    simp only [hf, hz]
    rw [computeDerivatives_eq y d e fi di hel hb.len_d hdi, List.map_map]
    rfl
  have hD : ∀ x, HasDerivAt (fun v => -Real.log (mixture levels σ v)) (1 / (levels.length * s) * E x) x := by
    intro x
    have := hasDerivAt_logMixture levels σ x hlv hσ
    convert this using 1
    rw [hEd]; field_simp
  refine ⟨_, hrun, ?_, ?_, ?_, ?_, ?_⟩
  · rw [lmsReturn_value, meanOpt_block o _ _ hb.output (by rw [hb.len_o]; exact hN), hb.len_o, Option.map_some]
    congr 1
    unfold meanLoss
    rw [Finset.sum_neg_distrib]
    ring
  · rw [lmsReturn_ffe _ _ _ _ _ (by simp)]; simp
  · rw [lmsReturn_dfe _ _ _ _ _ (by simp)]; simp
  · intro k hk hI hi
    rw [lmsReturn_ffe _ _ _ _ _ (by simp), getD_map_lt _ 0 none _ hk]
    refine ⟨_, tapMean_signals (1 / 2) _ e y _ Y hel hE hb.input hi, ?_⟩
    have := deriv_ffe (tapSamples y.length (fi.getD k 0)) I J b a Y D _ hI
      (fun n v => -Real.log (mixture levels σ v)) _ (fun n _ => hD (equalized I J b a Y D n))
    convert this using 1
    simp only [mul_assoc, ← Finset.mul_sum]
    ring
  · intro k hk hJ hj
    rw [lmsReturn_dfe _ _ _ _ _ (by simp), getD_map_lt _ 0 none _ hk]
    have ht := tapMean_signals (-1 / 2) (di.getD k 0) e d _ D (hel.trans hb.len_d.symm) hE hb.reference
      (by rw [hb.len_d]; exact hj)
    rw [hb.len_d] at ht
    refine ⟨_, ht, ?_⟩
    have := deriv_dfe (tapSamples y.length (di.getD k 0)) I J b a Y D _ hJ
      (fun n v => -Real.log (mixture levels σ v)) _ (fun n _ => hD (equalized I J b a Y D n))
    convert this using 1
    simp only [mul_assoc, ← Finset.mul_sum, mul_neg, Finset.sum_neg_distrib]
    ring

/-- C65: the documented formula, by which the result is the derivative itself, fails: for the single level 0 and
`sigma = 1` one sample 1 with tap 1 has derivative 1, the function returns `sqrt (2 pi) / 2`. -/
theorem C65_negative_doc :
    ∃ out, ∃ g : ℝ, softDdlmsGrad [1] [1] [0] 1 [0] [] (some [0]) = .ok out ∧ out.ffeGrads = [some g] ∧
      ¬ HasDerivAt (fun t => meanLoss (tapSamples 1 0)
        (fun n => -Real.log (mixture [0] 1 (equalized {0} ∅ (Function.update (fun _ => 1) 0 t) (fun _ => 0) (fun _ => 1)
          (fun _ => 0) n)))) g 1 := by
  have hb : EqualizerBlock {0} ∅ (fun _ => 1) (fun _ => 0) (fun _ => 1) (fun _ => 0) [1] [1] [0] := by
    refine ⟨?_, ?_, rfl, rfl, ?_⟩ <;>
    · intro n hn
      have : n = 0 := by simp at hn; omega
      subst this; simp [equalized]
  obtain ⟨out, h1, h2, h3, h4, h5, _⟩ := C65_gradients {0} ∅ (fun _ => 1) (fun _ => 0) (fun _ => 1) (fun _ => 0) [1] [1]
    [0] [0] 1 (some [0]) [0] [] hb ⟨rfl, Or.inl rfl⟩ (by simp) one_ne_zero (by simp) (by simp)
  obtain ⟨g, hg, hd⟩ := h5 0 (by simp) (by simp) (by simp)
  refine ⟨out, g, h1, ?_, ?_⟩
  · match hf : out.ffeGrads with
    | [] => rw [hf] at h3; simp at h3
    | [v] => rw [hf] at hg; simpa using hg
    | _ :: _ :: _ => rw [hf] at h3; simp at h3
  · intro hc
    have hx : equalized {0} ∅ (fun _ => 1) (fun _ => 0) (fun _ => 1) (fun _ => 0) 0 = 1 := by simp [equalized]
    have ht := deriv_ffe (tapSamples 1 0) {0} ∅ (fun _ => 1) (fun _ => 0) (fun _ => 1) (fun _ => 0) 0 (by simp)
      (fun n v => -Real.log (mixture [0] 1 v)) _
      (fun n _ => hasDerivAt_logMixture [0] 1 (equalized {0} ∅ (fun _ => 1) (fun _ => 0) (fun _ => 1) (fun _ => 0) n)
        (by simp) one_ne_zero)
    have hone : (∑ n ∈ tapSamples 1 0, expDiff [0] 1
        (equalized {0} ∅ (fun _ => 1) (fun _ => 0) (fun _ => 1) (fun _ => 0) n) / expSum [0] 1
        (equalized {0} ∅ (fun _ => 1) (fun _ => 0) (fun _ => 1) (fun _ => 0) n) * 1) / ((tapSamples 1 0).card : ℝ) = 1 := by
      have hT : tapSamples 1 0 = {0} := by
        ext x; simp only [tapSamples, mem_filter, mem_Ico, mem_singleton]; omega
      rw [hT, Finset.sum_singleton, hx]
      simp [expDiff, expSum, Real.exp_ne_zero]
    rw [hone] at ht
    have hg1 : g = 1 := hc.unique ht
    have hu := hd.unique hc
    rw [hg1] at hu
    simp only [List.length_singleton, Nat.cast_one, one_mul, one_pow, mul_one] at hu
    have hp := Real.pi_gt_three
    have hs : 2 < Real.sqrt (2 * Real.pi) := by
      rw [Real.lt_sqrt (by norm_num)]; linarith
    rw [div_eq_one_iff_eq (by linarith)] at hu
    linarith

/-! ### Mueller-Muller -/

section
variable {K : Type} [Field K] [LinearOrder K] [IsStrictOrderedRing K]

/-- C55: for at least two symbols the result is 0 exactly when the timing error is below the tolerance, and otherwise the
sign of the timing error. -/
theorem C55_sign (s r : List K) (preW postW tol : K) (hl : s.length = r.length) (hN : 2 ≤ r.length) (ht : 0 < tol) :
    ∃ v : ℤ, muellerMuller s r preW postW tol = .ok (some v) ∧ (v = 0 ∨ v = 1 ∨ v = -1) ∧
      (v = 0 ↔ |timingError r.length (fun k => s.getD k 0) (fun k => r.getD k 0) preW postW| < tol) ∧
      (v = 1 ↔ tol ≤ timingError r.length (fun k => s.getD k 0) (fun k => r.getD k 0) preW postW) ∧
      (v = -1 ↔ timingError r.length (fun k => s.getD k 0) (fun k => r.getD k 0) preW postW ≤ -tol) := by
  refine ⟨_, muellerMuller_eq s r preW postW tol hl (by omega), ?_⟩
  generalize timingError r.length (fun k => s.getD k 0) (fun k => r.getD k 0) preW postW = e
  unfold mmDecide
  by_cases h : |e| < tol
  · rw [if_pos h]
    have := abs_lt.1 h
    refine ⟨by simp, by simp [h], ?_, ?_⟩
    · simp; exact this.2
    · simp; exact this.1
  · rw [if_neg h]
    rcases abs_cases e with ⟨h1, h2⟩ | ⟨h1, h2⟩
    · rw [if_pos (by linarith)]
      refine ⟨by simp, by simpa using h, ?_, ?_⟩
      · simp; linarith
      · simp; linarith
    · rw [if_neg (by linarith), if_pos h2]
      refine ⟨by simp, by simpa using h, ?_, ?_⟩
      · simp; linarith
      · simp; linarith

example : muellerMuller ([1, 1 / 2, -1] : List ℚ) [1, 1, -1] 1 1 (1 / 1000) = .ok (some (-1))
    ∧ muellerMuller ([1, 1, -1] : List ℚ) [1, 1, -1] 1 1 (1 / 1000) = .ok (some 0)
    ∧ muellerMuller ([1 / 2, 1, -1] : List ℚ) [-1, 1, 1] 1 1 (1 / 1000) = .ok (some (-1)) := by decide +kernel

/-- C55: reversing signal and reference in time, with the weights exchanged, negates the result; errors and the
undefined result of a single symbol stay. -/
theorem C55_reverse (s r : List K) (preW postW tol : K) (hl : s.length = r.length) :
    muellerMuller s.reverse r.reverse postW preW tol
      = (muellerMuller s r preW postW tol).map (Option.map (fun v : ℤ => -v)) := by
  by_cases h1 : r.length = 1
  · have : ∀ a b : K, ∀ s r : List K, s.length = r.length → r.length = 1 → muellerMuller s r a b tol = .ok none := by
      intro a b s r hl h
      unfold muellerMuller
      simp only []
      rw [if_neg (show ¬ (r.drop 1).length ≠ s.dropLast.length by simp [hl]), if_pos h]
    rw [this _ _ s.reverse r.reverse (by simp [hl]) (by simp [h1]), this _ _ s r hl h1]
    rfl
  · rw [muellerMuller_eq s.reverse r.reverse _ _ _ (by simp [hl]) (by simpa using h1), muellerMuller_eq s r _ _ _ hl h1]
    show Except.ok (some _) = Except.ok (some _)
    congr 2
    show _ = -mmDecide _ _
    rw [← mmDecide_neg, ← timingError_reverse, List.length_reverse]
    congr 1
    apply timingError_congr
    · intro k hk
      rw [reverse_getD 0 s k (by rw [hl]; exact hk), hl]
    · intro k hk
      rw [reverse_getD 0 r k hk]

/-- C55: with equal weights the step is negated by time reversal alone. -/
theorem C55_early_late (s r : List K) (w tol : K) (hl : s.length = r.length) :
    muellerMuller s.reverse r.reverse w w tol = (muellerMuller s r w w tol).map (Option.map (fun v : ℤ => -v)) :=
  C55_reverse s r w w tol hl

/-- C55: a common positive factor of signal and tolerance does not change the step. -/
theorem C55_scale (s r : List K) (preW postW tol c : K) (hl : s.length = r.length) (hc : 0 < c) :
    muellerMuller (s.map (c * ·)) r preW postW (c * tol) = muellerMuller s r preW postW tol := by
  by_cases h1 : r.length = 1
  · have : ∀ t : K, ∀ s : List K, s.length = r.length → muellerMuller s r preW postW t = .ok none := by
      intro t s hl
      unfold muellerMuller
      simp only []
      rw [if_neg (show ¬ (r.drop 1).length ≠ s.dropLast.length by simp [hl]), if_pos h1]
    rw [this _ _ (by simpa using hl), this _ _ hl]
  · rw [muellerMuller_eq _ r _ _ _ (by simpa using hl) h1, muellerMuller_eq s r _ _ _ hl h1]
    have : timingError r.length (fun k => (s.map (c * ·)).getD k 0) (fun k => r.getD k 0) preW postW
        = c * timingError r.length (fun k => s.getD k 0) (fun k => r.getD k 0) preW postW := by
      have e : ∀ k, (s.map (c * ·)).getD k 0 = c * s.getD k 0 := by
        intro k
        by_cases hk : k < s.length
        · rw [getD_map_lt _ 0 0 _ hk]
        · rw [getD_of_le _ _ (by simpa using hk), getD_of_le _ _ (by simpa using hk), mul_zero]
      unfold timingError
      simp only [e, mul_left_comm _ c, ← Finset.mul_sum]
      ring
    rw [this]
    generalize timingError r.length (fun k => s.getD k 0) (fun k => r.getD k 0) preW postW = e
    unfold mmDecide
    have h2 : |c * e| < c * tol ↔ |e| < tol := by rw [abs_mul, abs_of_pos hc, mul_lt_mul_iff_right₀ hc]
    have h3 : 0 < c * e ↔ 0 < e := mul_pos_iff_of_pos_left hc
    have : c * e < 0 ↔ e < 0 := by constructor <;> intro h <;> nlinarith
    simp only [this, h2, h3]

/-- C55: streams of different lengths (from one symbol on) raise ValueError, a single symbol gives no defined step. -/
theorem C55_rejects (s r : List K) (preW postW tol : K) :
    (s ≠ [] → r ≠ [] → s.length ≠ r.length → muellerMuller s r preW postW tol = .error .valueError) ∧
      (s.length = 1 → r.length = 1 → muellerMuller s r preW postW tol = .ok none) := by
  constructor
  · intro hs hr h
    have h1 := List.length_pos_of_ne_nil hs
    have h2 := List.length_pos_of_ne_nil hr
    unfold muellerMuller
    simp only []
    rw [if_pos]
    simp; omega
  · intro hs hr
    unfold muellerMuller
    simp only []
    rw [if_neg (show ¬ (r.drop 1).length ≠ s.dropLast.length by simp [hs, hr]), if_pos hr]

end

end Verif
