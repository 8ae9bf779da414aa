import Verif.Model.Jitter
import Verif.Spec.Jitter
import Verif.Lemmas.Pulse
import Verif.Lemmas.Delay
import Mathlib.LinearAlgebra.Lagrange

namespace Verif
open Spec Polynomial

theorem jitter_nodes (osr len : ℕ) (ho : 0 < osr) :
    ((List.range len).map (fun n : ℕ => (n : ℝ) / (osr : ℝ))).Pairwise (· < ·) := by
  rw [List.pairwise_map]
  refine List.pairwise_lt_range.imp (fun {a b} hab => ?_)
  have h1 : (0 : ℝ) < osr := by exact_mod_cast ho
  have h2 : (a : ℝ) < b := by exact_mod_cast hab
  exact div_lt_div_of_pos_right h2 h1

theorem lfilter_length {b a x zi y z : List ℝ} (h : lfilter b a x zi = .ok (y, z)) :
    y.length = x.length := by
  unfold lfilter at h
  split_ifs at h
  have := congrArg (fun r => r.1.length) (Except.ok.inj h)
  rw [← this]
  exact lfRun_length _ _ _ _ _

/-- a successful call returns `osr` samples per symbol (and the oversampling is positive) -/
theorem pulseShape_length {x : List ℝ} {osr span : ℕ} {name : String} {β : ℝ} {zi : Option (List ℝ)}
    {y z : List ℝ} (h : pulseShape x osr span name β zi = .ok (y, z)) :
    0 < osr ∧ y.length = x.length * osr := by
  by_cases ho : osr = 0
  · subst ho
    have : pulseShape x 0 span name β zi = .error .valueError := rfl
    rw [this] at h
    cases h
  have ho' : 0 < osr := by omega
  obtain ⟨u, e, hl, -⟩ := upsample_eq x osr ho'
  refine ⟨ho', ?_⟩
  unfold pulseShape at h
  rw [e] at h
  cases hp : getPulse name osr span β with
  | error er => rw [hp] at h; cases h
  | ok pv =>
    rw [hp] at h
    change shapeWith pv u osr span zi = _ at h
    unfold shapeWith at h
    split_ifs at h
    cases zi with
    | none => rw [← hl]; exact lfilter_length h
    | some z0 =>
      simp only at h
      split_ifs at h
      rw [← hl]; exact lfilter_length h

theorem pulseShapeJitter_ok (interp : Interp) (randn x : List ℝ) (osr span : ℕ) (name : String)
    (β σ : ℝ) (zi : Option (List ℝ)) (y z : List ℝ) (h : pulseShape x osr span name β zi = .ok (y, z))
    (hσ : 1 / 10 ^ 8 < |σ|) (hy : 4 ≤ y.length) (hr : y.length / osr ≤ randn.length) :
    ∃ w, pulseShapeJitter interp randn x osr span name β σ zi = .ok (w, z) ∧ w.length = y.length ∧
      ∀ n < y.length, n / osr < y.length / osr → w.getD n 0
        = interp ((List.range y.length).map (fun n : ℕ => (n : ℝ) / (osr : ℝ))) y
          ((n : ℝ) / osr + randn.getD (n / osr) 0 * σ) := by
  have hc : closeToZero σ = false := by
    unfold closeToZero
    rw [decide_eq_false_iff_not]
    exact not_le.2 hσ
  obtain ⟨T, hT⟩ : ∃ T : List ℝ, T = (List.range y.length).map (fun n : ℕ => (n : ℝ) / (osr : ℝ)) :=
    ⟨_, rfl⟩
  obtain ⟨R, hR⟩ : ∃ R : List ℝ, R = (randn.take (y.length / osr)).map (· * σ) := ⟨_, rfl⟩
  refine ⟨((List.range y.length).map (fun n => T.getD n 0 + R.getD (n / osr) 0)).map (interp T y),
    ?_, ?_, ?_⟩
  · unfold pulseShapeJitter
    rw [h]
    show (if closeToZero σ = true then (Except.ok (y, z) : Py _) else _) = _
    rw [hc, if_neg (by simp), if_neg (by simp; omega), hT, hR]
    rfl
  · simp
  · intro n hn hq
    rw [List.map_map, map_range_getD _ _ _ _ hn]
    simp only [Function.comp]
    rw [← hT]
    congr 1
    rw [hT, map_range_getD _ _ _ _ hn, hR]
    congr 1
    simp only [List.getD_eq_getElem?_getD, List.getElem?_map, List.getElem?_take]
    rw [if_pos hq, List.getElem?_eq_getElem (by omega)]
    rfl

/-- interpolation by a single polynomial satisfies the contract -/
noncomputable def lagrangeInterp (t y : List ℝ) (x : ℝ) : ℝ :=
  (Lagrange.interpolate (Finset.range t.length) (fun i => t.getD i 0) (fun i => y.getD i 0)).eval x

theorem getD_injOn {t : List ℝ} (ht : t.Pairwise (· < ·)) :
    Set.InjOn (fun i => t.getD i 0) (Finset.range t.length : Finset ℕ) := by
  intro a ha b hb hab
  rw [Finset.coe_range, Set.mem_Iio] at ha hb
  simp only [List.getD_eq_getElem _ _ ha, List.getD_eq_getElem _ _ hb] at hab
  rw [List.pairwise_iff_getElem] at ht
  rcases Nat.lt_trichotomy a b with h | h | h
  · exact absurd hab (ne_of_lt (ht a b ha hb h))
  · exact h
  · exact absurd hab.symm (ne_of_lt (ht b a hb ha h))

theorem lagrangeInterp_isCubic : IsCubicInterp lagrangeInterp where
  nodes t y ht _ _ i hi := by
    unfold lagrangeInterp
    exact Lagrange.eval_interpolate_at_node (v := fun i => t.getD i 0) _ (getD_injOn ht)
      (Finset.mem_range.2 hi)
  cubic t q ht h4 hq x := by
    unfold lagrangeInterp
    rw [Lagrange.interpolate_eq_of_values_eq_on _ (fun i => q.eval (t.getD i 0)),
      ← Lagrange.eq_interpolate (getD_injOn ht)]
    · rw [Finset.card_range]
      refine lt_of_le_of_lt (degree_le_natDegree) ?_
      exact_mod_cast lt_of_le_of_lt hq (by omega)
    · intro i hi
      rw [Finset.mem_range] at hi
      simp [List.getD_eq_getElem?_getD, List.getElem?_eq_getElem hi]

end Verif
