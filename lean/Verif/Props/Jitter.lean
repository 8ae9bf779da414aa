import Verif.Lemmas.Jitter
import Verif.Props.Pulse

/-!
# Random jitter of the pulse shaping (C77)

The cubic interpolation of SciPy and the random numbers are parameters: every statement holds for
all drawn numbers `randn` and every interpolation with the contract `Spec.IsCubicInterp`.
-/

namespace Verif
open Spec Polynomial

/-- **C77.** A jitter deviation of at most 1e-8 (in particular 0) leaves the result of `pulse_shape`
unchanged, errors included. -/
theorem C77_no_jitter (interp : Interp) (randn x : List ℝ) (osr span : ℕ) (name : String) (β σ : ℝ)
    (zi : Option (List ℝ)) (hσ : |σ| ≤ 1 / 10 ^ 8) :
    pulseShapeJitter interp randn x osr span name β σ zi = pulseShape x osr span name β zi := by
  have hc : closeToZero σ = true := by
    unfold closeToZero
    rw [decide_eq_true_iff]
    exact hσ
  unfold pulseShapeJitter
  rw [hc]
  cases pulseShape x osr span name β zi <;> rfl

example : |(0 : ℝ)| ≤ 1 / 10 ^ 8 := by norm_num

/-- **C77.** With jitter, whatever numbers are drawn: the number of samples and the returned memory
are those of the call without jitter (so chunked shaping carries the same memory), and fewer than
four samples raise ValueError. -/
theorem C77_memory (interp : Interp) (randn x : List ℝ) (osr span : ℕ) (name : String) (β σ : ℝ)
    (zi : Option (List ℝ)) (y z : List ℝ) (h : pulseShape x osr span name β zi = .ok (y, z))
    (hσ : 1 / 10 ^ 8 < |σ|) (hr : x.length ≤ randn.length) :
    (4 ≤ x.length * osr → ∃ w, pulseShapeJitter interp randn x osr span name β σ zi = .ok (w, z) ∧
      w.length = x.length * osr) ∧
    (x.length * osr < 4 →
      pulseShapeJitter interp randn x osr span name β σ zi = .error .valueError) := by
  obtain ⟨ho, hl⟩ := pulseShape_length h
  constructor
  · intro h4
    obtain ⟨w, e, hw, -⟩ := pulseShapeJitter_ok interp randn x osr span name β σ zi y z h hσ
      (by omega) (by rw [hl, Nat.mul_div_cancel _ ho]; exact hr)
    exact ⟨w, e, by omega⟩
  · intro h4
    have hc : closeToZero σ = false := by
      unfold closeToZero
      rw [decide_eq_false_iff_not]
      exact not_le.2 hσ
    unfold pulseShapeJitter
    rw [h]
    show (if closeToZero σ = true then (Except.ok (y, z) : Py _) else _) = _
    rw [hc, if_neg (by simp), if_pos (by simp; omega)]
    rfl

/-- **C77.** All samples of one symbol move together: if the jitter drawn for symbol `i` is a whole
number `k` of sample periods, then output sample `i*osr + j` is sample `i*osr + j + k` of the
waveform without jitter, for every `j < osr` for which that sample exists. -/
theorem C77_whole_sample (interp : Interp) (hI : IsCubicInterp interp) (randn x : List ℝ)
    (osr span : ℕ) (name : String) (β σ : ℝ) (zi : Option (List ℝ)) (y z : List ℝ)
    (h : pulseShape x osr span name β zi = .ok (y, z)) (hσ : 1 / 10 ^ 8 < |σ|)
    (h4 : 4 ≤ x.length * osr) (hr : x.length ≤ randn.length) :
    ∃ w, pulseShapeJitter interp randn x osr span name β σ zi = .ok (w, z) ∧
      ∀ i < x.length, ∀ k : ℤ, randn.getD i 0 * σ = k / osr →
        ∀ j < osr, ∀ m : ℕ, (m : ℤ) = (i * osr + j : ℕ) + k → m < x.length * osr →
          w.getD (i * osr + j) 0 = y.getD m 0 := by
  obtain ⟨ho, hl⟩ := pulseShape_length h
  obtain ⟨w, e, hw, hv⟩ := pulseShapeJitter_ok interp randn x osr span name β σ zi y z h hσ
      (by omega) (by rw [hl, Nat.mul_div_cancel _ ho]; exact hr)
  refine ⟨w, e, fun i hi k hk j hj m hm hml => ?_⟩
  have hpos : (0 : ℝ) < osr := by exact_mod_cast ho
  have hdiv : (i * osr + j) / osr = i := by
    rw [Nat.mul_comm, Nat.mul_add_div ho, Nat.div_eq_of_lt hj, Nat.add_zero]
  have hn : i * osr + j < x.length * osr :=
    calc i * osr + j < (i + 1) * osr := by rw [Nat.succ_mul]; omega
      _ ≤ _ := Nat.mul_le_mul_right _ hi
  rw [hv _ (by omega) (by rw [hdiv, hl, Nat.mul_div_cancel _ ho]; exact hi), hdiv, hk]
  have hnode := hI.nodes ((List.range y.length).map (fun n : ℕ => (n : ℝ) / (osr : ℝ))) y
    (jitter_nodes osr _ ho) (by simp) (by simp; omega) m (by simp; omega)
  rw [map_range_getD _ _ _ _ (by omega)] at hnode
  rw [← hnode]
  congr 1
  have : (m : ℝ) = ((i * osr + j : ℕ) : ℝ) + k := by exact_mod_cast hm
  rw [this, add_div]

/-- **C77**, at the symbols: with the 'sinc' or 'rcos' pulse from zero memory, a jitter of exactly
`k` symbol durations on symbol slot `i + span` makes the sample at the decision instant show symbol
`i + k` instead of symbol `i`. -/
theorem C77_symbol_slip (interp : Interp) (hI : IsCubicInterp interp) (randn x : List ℝ)
    (osr span : ℕ) (name : String) (β σ : ℝ) (hname : name = "sinc" ∨ (name = "rcos" ∧ β ≠ 0))
    (ho : 0 < osr) (hs : 0 < span) (hσ : 1 / 10 ^ 8 < |σ|) (h4 : 4 ≤ x.length * osr)
    (hr : x.length ≤ randn.length) :
    ∃ w z, pulseShapeJitter interp randn x osr span name β σ none = .ok (w, z) ∧
      ∀ i, i + span < x.length → ∀ k : ℤ, randn.getD (i + span) 0 * σ = k →
        ∀ m : ℕ, (m : ℤ) = i + k → m + span < x.length →
          w.getD ((i + span) * osr) 0 = x.getD m 0 := by
  have hx : 0 < x.length := by
    rcases Nat.eq_zero_or_pos x.length with h | h
    · rw [h] at h4; omega
    · exact h
  obtain ⟨y, z, h, hyl, hy⟩ := C51_nyquist x osr span name β hname ho hs hx
  obtain ⟨w, e, hw⟩ := C77_whole_sample interp hI randn x osr span name β σ none y z h hσ h4 hr
  refine ⟨w, z, e, fun i hi k hk m hm hml => ?_⟩
  have hpos : (0 : ℝ) < osr := by exact_mod_cast ho
  have := hw (i + span) hi (k * osr) (by rw [hk]; push_cast; field_simp) 0 ho ((m + span) * osr)
    (by push_cast; rw [hm]; ring) (Nat.mul_lt_mul_of_pos_right hml ho)
  rw [Nat.add_zero] at this
  rw [this, hy m hml]

/-- **C77.** Where the waveform without jitter is a polynomial of degree at most three of time (in
symbol durations), output sample `n` is the polynomial at `n/osr` plus the jitter of symbol
`n / osr`, also beyond the ends of the waveform. In particular a constant waveform is unchanged. -/
theorem C77_cubic (interp : Interp) (hI : IsCubicInterp interp) (randn x : List ℝ)
    (osr span : ℕ) (name : String) (β σ : ℝ) (zi : Option (List ℝ)) (y z : List ℝ)
    (h : pulseShape x osr span name β zi = .ok (y, z)) (hσ : 1 / 10 ^ 8 < |σ|)
    (h4 : 4 ≤ x.length * osr) (hr : x.length ≤ randn.length) (q : ℝ[X]) (hq : q.natDegree ≤ 3)
    (hy : ∀ n < x.length * osr, y.getD n 0 = q.eval ((n : ℝ) / osr)) :
    ∃ w, pulseShapeJitter interp randn x osr span name β σ zi = .ok (w, z) ∧
      ∀ n < x.length * osr, w.getD n 0 = q.eval ((n : ℝ) / osr + randn.getD (n / osr) 0 * σ) := by
  obtain ⟨ho, hl⟩ := pulseShape_length h
  obtain ⟨w, e, hw, hv⟩ := pulseShapeJitter_ok interp randn x osr span name β σ zi y z h hσ
      (by omega) (by rw [hl, Nat.mul_div_cancel _ ho]; exact hr)
  refine ⟨w, e, fun n hn => ?_⟩
  rw [hv n (by omega) (by
    rw [hl, Nat.mul_div_cancel _ ho, Nat.div_lt_iff_lt_mul ho]; exact hn)]
  rw [← hI.cubic ((List.range y.length).map (fun n : ℕ => (n : ℝ) / (osr : ℝ))) q
    (jitter_nodes osr _ ho) (by simp; omega) hq]
  congr 1
  refine ext_getD 0 (by simp) (fun i hi => ?_)
  rw [List.map_map, map_range_getD _ _ _ _ hi]
  exact hy i (by omega)

/-- the contract is satisfiable, and the hypotheses hold for a pulse train with jitter -/
example : ∃ interp, IsCubicInterp interp ∧ ∃ w z,
    pulseShapeJitter interp [0, 0, 10, 0] [1, -1, 3, -3] 2 1 "sinc" (1 / 2) (1 / 10) none = .ok (w, z) ∧
      w.getD ((1 + 1) * 2) 0 = 3 := by
  refine ⟨lagrangeInterp, lagrangeInterp_isCubic, ?_⟩
  obtain ⟨w, z, e, h⟩ := C77_symbol_slip lagrangeInterp lagrangeInterp_isCubic [0, 0, 10, 0]
    [1, -1, 3, -3] 2 1 "sinc" (1 / 2) (1 / 10) (.inl rfl) (by norm_num) (by norm_num)
    (by rw [abs_of_pos (by norm_num)]; norm_num) (by simp) (by simp)
  exact ⟨w, z, e, h 1 (by simp) 1 (by simp) 2 (by norm_num) (by simp)⟩

end Verif
