import Verif.Props.EqNoise
import Verif.Props.Lms
import Verif.Props.LockNoise
import Verif.Props.Timing
import Verif.Spec.RxNoise

/-!
# Timing estimate and pattern lock in Gaussian noise (C115)

The records go through `awgn`; the samples behind `numpy.random.normal` are independent standard normal.
-/

open MeasureTheory ProbabilityTheory

namespace Verif
open Spec

/-- tail probability of a linear combination of the draws -/
theorem linear_tail {n : ℕ} (c : Fin n → ℝ) (τ : ℝ) (hτ : 0 < τ) (h : τ ^ 2 = ∑ i, c i ^ 2) (a : ℝ) :
    (normalDraws n).real {z | a ≤ ∑ i, c i * z i} = qFunc (a / τ) ∧
    (normalDraws n).real {z | a < ∑ i, c i * z i} = qFunc (a / τ) ∧
    (normalDraws n).real {z | ∑ i, c i * z i ≤ -a} = qFunc (a / τ) := by
  refine ⟨?_, ?_, ?_⟩
  · have e : {z : Fin n → ℝ | a ≤ ∑ i, c i * z i} = {z | (∑ i, c i * z i) / τ ∈ Set.Ici (a / τ)} := by
      ext z
      simp only [Set.mem_ofPred_eq, Set.mem_Ici]
      rw [div_le_div_iff_of_pos_right hτ]
    rw [e, unit_prob c τ hτ h _ measurableSet_Ici.nullMeasurableSet]
    exact gauss_above Set.Ioi_subset_Ici_self le_rfl
  · have e : {z : Fin n → ℝ | a < ∑ i, c i * z i} = {z | (∑ i, c i * z i) / τ ∈ Set.Ioi (a / τ)} := by
      ext z
      simp only [Set.mem_ofPred_eq, Set.mem_Ioi]
      rw [div_lt_div_iff_of_pos_right hτ]
    rw [e, unit_prob c τ hτ h _ measurableSet_Ioi.nullMeasurableSet]
    exact gauss_above le_rfl Set.Ioi_subset_Ici_self
  · have e : {z : Fin n → ℝ | ∑ i, c i * z i ≤ -a} = {z | (∑ i, c i * z i) / τ ∈ Set.Iic (-(a / τ))} := by
      ext z
      simp only [Set.mem_ofPred_eq, Set.mem_Iic]
      rw [← neg_div, div_le_div_iff_of_pos_right hτ]
    rw [e, unit_prob c τ hτ h _ measurableSet_Iic.nullMeasurableSet]
    exact gauss_below Set.Iio_subset_Iic_self le_rfl

/-- the noisy record alone -/
theorem noisy_record (x : List ℝ) (snr : ℝ) (hx : 2 ≤ x.length) (hnz : ∃ v ∈ x, v ≠ 0) :
    ∃ s, awgnStd x snr = some s ∧ 0 < s ∧ ∀ z : Fin x.length → ℝ, ∃ y, awgn (List.ofFn z) x snr = some y ∧ y.length = x.length ∧
      ∀ m : Fin x.length, y.getD m 0 = x.getD m 0 + s * z m := by
  obtain ⟨s, h1, -, h2, h3⟩ := noisy_ffe x [0] snr hx (by simp)
  refine ⟨s, h1, h2 hnz, fun z => ?_⟩
  obtain ⟨y, o, h4, h5, h6, -⟩ := h3 z
  exact ⟨y, h4, h5, h6⟩

theorem timing_noisy (N : ℕ) (hN : 2 ≤ N) (x y r : ℕ → ℝ) (s preW postW : ℝ) (z : Fin N → ℝ) (hy : ∀ m : Fin N, y m = x m + s * z m) :
    timingError N y r preW postW = timingError N x r preW postW + ∑ m : Fin N, (s * timingWeight N r preW postW m) * z m := by
  obtain ⟨M, rfl⟩ : ∃ M, N = M + 1 := ⟨N - 1, by omega⟩
  obtain ⟨w, hw⟩ : ∃ w : ℕ → ℝ, w = fun m => if h : m < M + 1 then z ⟨m, h⟩ else 0 := ⟨_, rfl⟩
  have hzw : ∀ m : Fin (M + 1), z m = w m := fun m => by rw [hw]; simp only; rw [dif_pos m.2]
  have hy' : ∀ m < M + 1, y m = x m + s * w m := fun m hm => by
    have := hy ⟨m, hm⟩
    rw [hzw] at this
    exact this
  have hM : ((M + 1 : ℕ) : ℝ) - 1 = M := by push_cast; ring
  have hM0 : (M : ℝ) ≠ 0 := by exact_mod_cast (by omega : M ≠ 0)
  simp only [hzw]
  rw [Fin.sum_univ_eq_sum_range (fun m => (s * timingWeight (M + 1) r preW postW m) * w m) (M + 1)]
  unfold timingError timingWeight
  rw [hM, Nat.add_sub_cancel]
  have e1 : ∑ k ∈ Finset.range M, r k * y (k + 1) = ∑ k ∈ Finset.range M, r k * x (k + 1) + s * ∑ k ∈ Finset.range M, r k * w (k + 1) := by
    rw [Finset.mul_sum, ← Finset.sum_add_distrib]
    refine Finset.sum_congr rfl fun k hk => ?_
    rw [hy' (k + 1) (by have := Finset.mem_range.1 hk; omega)]; ring
  have e2 : ∑ k ∈ Finset.range M, r (k + 1) * y k = ∑ k ∈ Finset.range M, r (k + 1) * x k + s * ∑ k ∈ Finset.range M, r (k + 1) * w k := by
    rw [Finset.mul_sum, ← Finset.sum_add_distrib]
    refine Finset.sum_congr rfl fun k hk => ?_
    rw [hy' k (by have := Finset.mem_range.1 hk; omega)]; ring
  have e3 : ∑ m ∈ Finset.range (M + 1), s * (((if 0 < m then postW * r (m - 1) else 0) - if m + 1 < M + 1 then preW * r (m + 1) else 0) / M) * w m
      = s / M * (postW * ∑ k ∈ Finset.range M, r k * w (k + 1)) - s / M * (preW * ∑ k ∈ Finset.range M, r (k + 1) * w k) := by
    have a1 : ∑ m ∈ Finset.range (M + 1), (if 0 < m then postW * r (m - 1) else 0) * w m = postW * ∑ k ∈ Finset.range M, r k * w (k + 1) := by
      rw [Finset.sum_range_succ', Finset.mul_sum]
      simp only [lt_irrefl, if_false, zero_mul, add_zero, Nat.zero_lt_succ, if_true, Nat.add_sub_cancel]
      exact Finset.sum_congr rfl fun k _ => by ring
    have a2 : ∑ m ∈ Finset.range (M + 1), (if m + 1 < M + 1 then preW * r (m + 1) else 0) * w m
        = preW * ∑ k ∈ Finset.range M, r (k + 1) * w k := by
      rw [Finset.sum_range_succ, if_neg (lt_irrefl _), zero_mul, add_zero, Finset.mul_sum]
      exact Finset.sum_congr rfl fun k hk => by rw [if_pos (by have := Finset.mem_range.1 hk; omega)]; ring
    rw [← a1, ← a2, Finset.mul_sum, Finset.mul_sum, ← Finset.sum_sub_distrib]
    exact Finset.sum_congr rfl fun m _ => by ring
  rw [e1, e2, e3]
  field_simp
  ring

/-- the step of `mueller_muller_step` on the noisy record -/
def StepOf (x ref : List ℝ) (preW postW tol snr : ℝ) (noise : List ℝ) (v : ℤ) : Prop :=
  ∃ y, awgn noise x snr = some y ∧ muellerMuller y ref preW postW tol = .ok (some v)

/-- **C115.** The timing error of the noisy record is normally distributed about that of the record without noise. The
probabilities of the three steps are the tail probabilities of the distances to the tolerance. -/
theorem C115_timing (x ref : List ℝ) (preW postW tol snr : ℝ) (hl : x.length = ref.length) (h2 : 2 ≤ x.length) (ht : 0 < tol)
    (hnz : ∃ v ∈ x, v ≠ 0) (e : ℝ) (he : e = timingError x.length (fun k => x.getD k 0) (fun k => ref.getD k 0) preW postW)
    (W : ℝ) (hW : W = ∑ m ∈ Finset.range x.length, timingWeight x.length (fun k => ref.getD k 0) preW postW m ^ 2) (hW0 : 0 < W) :
    ∃ s, awgnStd x snr = some s ∧ 0 < s ∧
      (normalDraws x.length).map (fun z => timingError x.length (fun k => x.getD k 0 + s * (List.ofFn z).getD k 0) (fun k => ref.getD k 0) preW postW)
        = gaussianReal e (s ^ 2 * W).toNNReal ∧
      (normalDraws x.length).real {z | StepOf x ref preW postW tol snr (List.ofFn z) 1} = qFunc ((tol - e) / (s * √W)) ∧
      (normalDraws x.length).real {z | StepOf x ref preW postW tol snr (List.ofFn z) (-1)} = qFunc ((tol + e) / (s * √W)) ∧
      (normalDraws x.length).real {z | StepOf x ref preW postW tol snr (List.ofFn z) 0}
        = 1 - qFunc ((tol - e) / (s * √W)) - qFunc ((tol + e) / (s * √W)) := by
  obtain ⟨s, hs1, hs0, hy⟩ := noisy_record x snr h2 hnz
  refine ⟨s, hs1, hs0, ?_⟩
  choose y hy1 hy2 hy3 using hy
  obtain ⟨c, hc⟩ : ∃ c : Fin x.length → ℝ, c = fun m : Fin x.length => s * timingWeight x.length (fun k => ref.getD k 0) preW postW (m : ℕ) := ⟨_, rfl⟩
  have hc2 : ∑ m, c m ^ 2 = s ^ 2 * W := by
    rw [hW, hc, Finset.mul_sum, ← Fin.sum_univ_eq_sum_range (fun m => s ^ 2 * timingWeight x.length (fun k => ref.getD k 0) preW postW m ^ 2)]
    exact Finset.sum_congr rfl fun m _ => by ring
  have hτ : 0 < s * √W := mul_pos hs0 (Real.sqrt_pos.2 hW0)
  have hτ2 : (s * √W) ^ 2 = ∑ m, c m ^ 2 := by rw [hc2, mul_pow, Real.sq_sqrt hW0.le]
  have herr : ∀ z, timingError x.length (fun k => (y z).getD k 0) (fun k => ref.getD k 0) preW postW = e + ∑ m, c m * z m := by
    intro z
    rw [timing_noisy x.length h2 (fun k => x.getD k 0) (fun k => (y z).getD k 0) _ s preW postW z (hy3 z), he, hc]
  have hstep : ∀ z v, StepOf x ref preW postW tol snr (List.ofFn z) v ↔
      ((v = 1 ∧ tol ≤ e + ∑ m, c m * z m) ∨ (v = -1 ∧ e + ∑ m, c m * z m ≤ -tol) ∨ (v = 0 ∧ |e + ∑ m, c m * z m| < tol)) := by
    intro z v
    obtain ⟨w, h1, h3, h4, h5, h6⟩ := C55_sign (y z) ref preW postW tol (by rw [hy2, hl]) (by omega) ht
    rw [← hl, herr z] at h4 h5 h6
    have hiff : StepOf x ref preW postW tol snr (List.ofFn z) v ↔ v = w := by
      constructor
      · rintro ⟨y', a1, a2⟩
        rw [hy1] at a1
        obtain rfl := Option.some.inj a1
        rw [h1] at a2
        exact (Option.some.inj (Except.ok.inj a2)).symm
      · rintro rfl
        exact ⟨y z, hy1 z, h1⟩
    rw [hiff]
    constructor
    · rintro rfl
      rcases h3 with h | h | h
      · exact .inr (.inr ⟨h, h4.1 h⟩)
      · exact .inl ⟨h, h5.1 h⟩
      · exact .inr (.inl ⟨h, h6.1 h⟩)
    · rintro (⟨rfl, h⟩ | ⟨rfl, h⟩ | ⟨rfl, h⟩)
      · exact (h5.2 h).symm
      · exact (h6.2 h).symm
      · exact (h4.2 h).symm
  have s1 : {z : Fin x.length → ℝ | StepOf x ref preW postW tol snr (List.ofFn z) 1} = {z | tol - e ≤ ∑ m, c m * z m} := by
    ext z
    rw [Set.mem_ofPred_eq, hstep, Set.mem_ofPred_eq]
    constructor
    · rintro (⟨-, h⟩ | ⟨h, -⟩ | ⟨h, -⟩)
      · linarith
      · norm_num at h
      · norm_num at h
    · intro h; exact .inl ⟨rfl, by linarith⟩
  have s2 : {z : Fin x.length → ℝ | StepOf x ref preW postW tol snr (List.ofFn z) (-1)} = {z | ∑ m, c m * z m ≤ -(tol + e)} := by
    ext z
    rw [Set.mem_ofPred_eq, hstep, Set.mem_ofPred_eq]
    constructor
    · rintro (⟨h, -⟩ | ⟨-, h⟩ | ⟨h, -⟩)
      · norm_num at h
      · linarith
      · norm_num at h
    · intro h; exact .inr (.inl ⟨rfl, by linarith⟩)
  have s3 : {z : Fin x.length → ℝ | StepOf x ref preW postW tol snr (List.ofFn z) 0}
      = ({z | tol - e ≤ ∑ m, c m * z m} ∪ {z | ∑ m, c m * z m ≤ -(tol + e)})ᶜ := by
    ext z
    rw [Set.mem_ofPred_eq, hstep, Set.mem_compl_iff, Set.mem_union, Set.mem_ofPred_eq, Set.mem_ofPred_eq]
    constructor
    · rintro (⟨h, -⟩ | ⟨h, -⟩ | ⟨-, h⟩)
      · norm_num at h
      · norm_num at h
      · have := abs_lt.1 h
        rintro (h | h) <;> linarith [this.1, this.2]
    · intro h
      push Not at h
      exact .inr (.inr ⟨rfl, abs_lt.2 ⟨by linarith [h.2], by linarith [h.1]⟩⟩)
  have m1 : MeasurableSet {z : Fin x.length → ℝ | tol - e ≤ ∑ m, c m * z m} := measurableSet_le measurable_const (by fun_prop)
  have m2 : MeasurableSet {z : Fin x.length → ℝ | ∑ m, c m * z m ≤ -(tol + e)} := measurableSet_le (by fun_prop) measurable_const
  have p1 := (linear_tail c _ hτ hτ2 (tol - e)).1
  have p2 := (linear_tail c _ hτ hτ2 (tol + e)).2.2
  refine ⟨?_, by rw [s1]; exact p1, by rw [s2]; exact p2, ?_⟩
  · have e1 : (fun z : Fin x.length → ℝ => timingError x.length (fun k => x.getD k 0 + s * (List.ofFn z).getD k 0) (fun k => ref.getD k 0) preW postW)
        = (fun v => e + v) ∘ fun z => ∑ m, c m * z m := by
      funext z
      rw [timing_noisy x.length h2 (fun k => x.getD k 0) (fun k => x.getD k 0 + s * (List.ofFn z).getD k 0) _ s preW postW z
        (fun m => by simp), ← he, hc]
      rfl
    rw [e1, ← Measure.map_map (by fun_prop) (by fun_prop), linear_law, gaussianReal_map_const_add, zero_add, hc2]
  · rw [s3, measureReal_compl (m1.union m2), measureReal_union (by
      rw [Set.disjoint_left]
      intro z h h'
      rw [Set.mem_ofPred_eq] at h h'
      linarith) m2, p1, p2]
    have : IsProbabilityMeasure (normalDraws x.length) := by unfold normalDraws; infer_instance
    simp
    ring

/-- **C115.** With symbols of magnitude at most `A` a step against the timing error has at most the probability
`Q((tol + |e|)(N-1) / (2 A s √N))`, which falls exponentially with the number of symbols. -/
theorem C115_wrong_way (x ref : List ℝ) (tol snr : ℝ) (hl : x.length = ref.length) (h2 : 2 ≤ x.length) (ht : 0 < tol)
    (hnz : ∃ v ∈ x, v ≠ 0) (e : ℝ) (he : e = timingError x.length (fun k => x.getD k 0) (fun k => ref.getD k 0) 1 1)
    (A : ℝ) (hA : ∀ v ∈ ref, |v| ≤ A) (v : ℤ) (hv : (v = 1 ∧ e ≤ 0) ∨ (v = -1 ∧ 0 ≤ e)) :
    ∃ s, awgnStd x snr = some s ∧ 0 < s ∧
      (normalDraws x.length).real {z | StepOf x ref 1 1 tol snr (List.ofFn z) v}
        ≤ qFunc ((tol + |e|) * (x.length - 1) / (2 * A * s * √x.length)) := by
  obtain ⟨W, hW⟩ : ∃ W, W = ∑ m ∈ Finset.range x.length, timingWeight x.length (fun k => ref.getD k 0) 1 1 m ^ 2 := ⟨_, rfl⟩
  have hWn : 0 ≤ W := by rw [hW]; exact Finset.sum_nonneg fun _ _ => sq_nonneg _
  rcases hWn.eq_or_lt with hW0 | hWp
  · -- the noise does not reach the estimate
    obtain ⟨s, hs1, hs0, hy⟩ := noisy_record x snr h2 hnz
    refine ⟨s, hs1, hs0, ?_⟩
    have hw0 : ∀ m < x.length, timingWeight x.length (fun k => ref.getD k 0) 1 1 m = 0 := fun m hm =>
      pow_eq_zero_iff two_ne_zero |>.1 ((Finset.sum_eq_zero_iff_of_nonneg fun _ _ => sq_nonneg _).1 (hW.symm.trans hW0.symm) m
        (Finset.mem_range.2 hm))
    have : {z : Fin x.length → ℝ | StepOf x ref 1 1 tol snr (List.ofFn z) v} = ∅ := by
      refine Set.eq_empty_iff_forall_notMem.2 fun z => ?_
      rintro ⟨y', a1, a2⟩
      obtain ⟨y, b1, b2, b3⟩ := hy z
      rw [b1] at a1
      obtain rfl := Option.some.inj a1
      obtain ⟨w, c1, -, -, c3, c4⟩ := C55_sign y ref 1 1 tol (by rw [b2, hl]) (by omega) ht
      rw [c1] at a2
      obtain rfl := Option.some.inj (Except.ok.inj a2)
      have e0 : timingError ref.length (fun k => y.getD k 0) (fun k => ref.getD k 0) 1 1 = e := by
        rw [← hl, timing_noisy x.length h2 (fun k => x.getD k 0) (fun k => y.getD k 0) _ s 1 1 z b3, ← he,
          Finset.sum_eq_zero fun m _ => by rw [hw0 m m.2]; ring, add_zero]
      rw [e0] at c3 c4
      rcases hv with ⟨h, h'⟩ | ⟨h, h'⟩
      · linarith [c3.1 h]
      · linarith [c4.1 h]
    rw [this, measureReal_empty]
    exact (qFunc_pos _).le
  obtain ⟨s, h1, h3, -, h4, h5, -⟩ := C115_timing x ref 1 1 tol snr hl h2 ht hnz e he W hW hWp
  refine ⟨s, h1, h3, ?_⟩
  have hn1 : (0 : ℝ) < (x.length : ℝ) - 1 := by
    have : (2 : ℝ) ≤ x.length := by exact_mod_cast h2
    linarith
  have hn0 : (0 : ℝ) < x.length := by linarith
  have hA0 : 0 ≤ A := (abs_nonneg _).trans (hA _ (List.getElem_mem (l := ref) (n := 0) (by omega)))
  have hr : ∀ k, |ref.getD k 0| ≤ A := by
    intro k
    by_cases hk : k < ref.length
    · rw [List.getD_eq_getElem _ _ hk]; exact hA _ (List.getElem_mem _)
    · rw [List.getD_eq_default _ _ (by omega), abs_zero]; exact hA0
  have hw : ∀ m, timingWeight x.length (fun k => ref.getD k 0) 1 1 m ^ 2 ≤ (2 * A / (x.length - 1)) ^ 2 := by
    intro m
    rw [← sq_abs]
    refine pow_le_pow_left₀ (abs_nonneg _) ?_ 2
    unfold timingWeight
    rw [abs_div, abs_of_pos hn1]
    refine div_le_div_of_nonneg_right ?_ hn1.le
    refine (abs_sub _ _).trans ?_
    have b1 : |if 0 < m then 1 * ref.getD (m - 1) 0 else 0| ≤ A := by
      split
      · rw [one_mul]; exact hr _
      · rw [abs_zero]; exact hA0
    have b2 : |if m + 1 < x.length then 1 * ref.getD (m + 1) 0 else 0| ≤ A := by
      split
      · rw [one_mul]; exact hr _
      · rw [abs_zero]; exact hA0
    linarith
  have hWle : W ≤ x.length * (2 * A / (x.length - 1)) ^ 2 := by
    rw [hW]
    refine (Finset.sum_le_sum fun m _ => hw m).trans (le_of_eq ?_)
    rw [Finset.sum_const, Finset.card_range, nsmul_eq_mul]
  have hAp : 0 < A := by
    rcases hA0.lt_or_eq with h | h
    · exact h
    · rw [← h] at hWle; norm_num at hWle; linarith
  have hsq : √W ≤ √x.length * (2 * A / (x.length - 1)) := by
    rw [← Real.sqrt_sq (by positivity : 0 ≤ √x.length * (2 * A / (x.length - 1))), mul_pow, Real.sq_sqrt hn0.le]
    exact Real.sqrt_le_sqrt hWle
  have hsW : 0 < √W := Real.sqrt_pos.2 hWp
  have hfin : (tol + |e|) * (x.length - 1) / (2 * A * s * √x.length) ≤ (tol + |e|) / (s * √W) := by
    have e1 : (tol + |e|) * (x.length - 1) / (2 * A * s * √x.length) = (tol + |e|) / (s * (√x.length * (2 * A / (x.length - 1)))) := by
      have := Real.sqrt_pos.2 hn0
      field_simp
    rw [e1]
    exact div_le_div_of_nonneg_left (by positivity) (by positivity) (mul_le_mul_of_nonneg_left hsq h3.le)
  rcases hv with ⟨rfl, h⟩ | ⟨rfl, h⟩
  · rw [h4, show tol - e = tol + |e| by rw [abs_of_nonpos h]; ring]
    exact qFunc_anti hfin
  · rw [h5, show tol + e = tol + |e| by rw [abs_of_nonneg h]]
    exact qFunc_anti hfin

/-- the lock on the noisy record does not give the pattern from phase `φ` on -/
def LockMisses (pat x : List ℝ) (φ : ℕ) (snr : ℝ) (noise : List ℝ) : Prop :=
  ∃ y rot xc, awgn noise x snr = some y ∧ lockPattern pat y = .ok (rot, xc) ∧ ∃ i < pat.length, rot[i]? ≠ pat[(φ + i) % pat.length]?

theorem getD_eq_getElem?_iff (l : List ℝ) (i j : ℕ) (hi : i < l.length) (hj : j < l.length) : l[i]? = l[j]? ↔ l.getD i 0 = l.getD j 0 := by
  rw [List.getElem?_eq_getElem hi, List.getElem?_eq_getElem hj, List.getD_eq_getElem _ _ hi, List.getD_eq_getElem _ _ hj, Option.some_inj]

/-- **C115.** A record that is a period or more of the pattern from phase `φ` on with gain `g` and any offset, in noise of
standard deviation `s`: the lock is wrong with at least the probability `Q(g √Δ / (2 s))` of every other phase at distance `Δ`, and
at most with their sum. -/
theorem C115_lock (pat x : List ℝ) (hp : 2 ≤ pat.length) (hlen : pat.length ≤ x.length) (φ : ℕ) (g c : ℝ)
    (hx : ∀ i < pat.length, x.getD i 0 = g * pat.getD ((φ + i) % pat.length) 0 + c) (hnz : ∃ v ∈ x, v ≠ 0) (snr : ℝ) :
    ∃ s, awgnStd x snr = some s ∧ 0 < s ∧
      (∀ k, phaseDistance pat φ k ≠ 0 →
        qFunc (g * √(phaseDistance pat φ k) / (2 * s)) ≤ (normalDraws x.length).real {z | LockMisses pat x φ snr (List.ofFn z)}) ∧
      (normalDraws x.length).real {z | LockMisses pat x φ snr (List.ofFn z)}
        ≤ ∑ k ∈ (Finset.range pat.length).filter (fun k => phaseDistance pat φ k ≠ 0), qFunc (g * √(phaseDistance pat φ k) / (2 * s)) := by
  obtain ⟨s, hs1, hs0, hy⟩ := noisy_record x snr (by omega) hnz
  refine ⟨s, hs1, hs0, ?_⟩
  choose y hy1 hy2 hy3 using hy
  have hN0 : 0 < pat.length := by omega
  obtain ⟨q, hq⟩ : ∃ q : ℕ → ℝ, q = fun i => pat.getD (i % pat.length) 0 := ⟨_, rfl⟩
  have hqp : ∀ i, q (i + pat.length) = q i := by intro i; simp [hq]
  have hsum : ∀ k, ∑ i ∈ Finset.range pat.length, q (k + i) = ∑ i ∈ Finset.range pat.length, q i :=
    fun k => sum_shift_period q pat.length hqp k
  have hsq : ∀ k, ∑ i ∈ Finset.range pat.length, q (k + i) * q (k + i) = ∑ i ∈ Finset.range pat.length, q i * q i := fun k =>
    sum_shift_period (fun i => q i * q i) pat.length (fun i => by simp only [hqp]) k
  have hΔ : ∀ k, phaseDistance pat φ k = ∑ i ∈ Finset.range pat.length, (q (φ + i) - q (k + i)) ^ 2 := fun k => by rw [phaseDistance, hq]
  -- difference of two correlations
  obtain ⟨w, hw⟩ : ∃ w : ℕ → Fin x.length → ℝ, w = fun k (m : Fin x.length) => s * if (m : ℕ) < pat.length then q (k + m) - q (φ + m) else 0 := ⟨_, rfl⟩
  have hw2 : ∀ k, ∑ m, w k m ^ 2 = s ^ 2 * phaseDistance pat φ k := by
    intro k
    rw [hΔ, hw]
    simp only
    rw [Fin.sum_univ_eq_sum_range (fun m => (s * if m < pat.length then q (k + m) - q (φ + m) else 0) ^ 2) x.length,
      ← Finset.sum_subset (Finset.range_subset_range.2 hlen) (fun m _ hm => by
        rw [if_neg (by simpa using hm)]; ring), Finset.mul_sum]
    exact Finset.sum_congr rfl fun m hm => by rw [if_pos (Finset.mem_range.1 hm)]; ring
  have hcorr : ∀ z k, corr pat ((y z).take pat.length) k - corr pat ((y z).take pat.length) φ
      = ∑ m, w k m * z m - g / 2 * phaseDistance pat φ k := by
    intro z k
    have hvl : ((y z).take pat.length).length = pat.length := by rw [List.length_take, hy2]; omega
    unfold corr
    rw [hvl]
    obtain ⟨u, hu⟩ : ∃ u : ℕ → ℝ, u = fun m => if h : m < x.length then z ⟨m, h⟩ else 0 := ⟨_, rfl⟩
    have hzu : ∀ m : Fin x.length, z m = u m := fun m => by rw [hu]; simp only; rw [dif_pos m.2]
    have hv : ∀ i ∈ Finset.range pat.length, ((y z).take pat.length).getD i 0 = g * q (φ + i) + c + s * u i := by
      intro i hi
      have hi' := Finset.mem_range.1 hi
      have e1 : ((y z).take pat.length).getD i 0 = (y z).getD i 0 := by
        apply getD_eq_of_getElem?
        rw [List.getElem?_take, if_pos hi']
      rw [e1, hy3 z ⟨i, by omega⟩, hzu]
      simp only
      rw [hx i hi', hq]
    have e2 : ∀ k, ∑ i ∈ Finset.range pat.length, pat.getD ((k + i) % pat.length) 0 * ((y z).take pat.length).getD i 0
        = g * ∑ i ∈ Finset.range pat.length, q (k + i) * q (φ + i) + c * ∑ i ∈ Finset.range pat.length, q i
          + s * ∑ i ∈ Finset.range pat.length, q (k + i) * u i := by
      intro k
      rw [← hsum k, Finset.mul_sum, Finset.mul_sum, Finset.mul_sum, ← Finset.sum_add_distrib, ← Finset.sum_add_distrib]
      refine Finset.sum_congr rfl fun i hi => ?_
      rw [hv i hi, hq]
      ring
    rw [e2, e2]
    have e3 : phaseDistance pat φ k = 2 * ∑ i ∈ Finset.range pat.length, q (φ + i) * q (φ + i)
        - 2 * ∑ i ∈ Finset.range pat.length, q (k + i) * q (φ + i) := by
      have e3 : phaseDistance pat φ k = ∑ i ∈ Finset.range pat.length, q (φ + i) * q (φ + i)
          - 2 * ∑ i ∈ Finset.range pat.length, q (k + i) * q (φ + i) + ∑ i ∈ Finset.range pat.length, q (k + i) * q (k + i) := by
        rw [hΔ, Finset.mul_sum, ← Finset.sum_sub_distrib, ← Finset.sum_add_distrib]
        exact Finset.sum_congr rfl (fun i _ => by ring)
      rw [e3, hsq k, hsq φ]
      ring
    have e4 : ∑ m, w k m * z m = s * ∑ i ∈ Finset.range pat.length, q (k + i) * u i - s * ∑ i ∈ Finset.range pat.length, q (φ + i) * u i := by
      rw [hw]
      simp only [hzu]
      rw [Fin.sum_univ_eq_sum_range (fun m => (s * if m < pat.length then q (k + m) - q (φ + m) else 0) * u m) x.length,
        ← Finset.sum_subset (Finset.range_subset_range.2 hlen) (fun m _ hm => by
          rw [if_neg (by simpa using hm)]; ring), Finset.mul_sum, Finset.mul_sum, ← Finset.sum_sub_distrib]
      exact Finset.sum_congr rfl fun m hm => by rw [if_pos (Finset.mem_range.1 hm)]; ring
    rw [e3, e4]
    ring
  -- what the lock returns
  have hlock : ∀ z, ∃ S xc, S < pat.length ∧ lockPattern pat (y z) = .ok (pat.rotate S, xc) ∧
      ∀ k, corr pat ((y z).take pat.length) k ≤ corr pat ((y z).take pat.length) S := by
    intro z
    unfold lockPattern
    rw [if_neg (by rw [hy2]; omega)]
    simp only
    rw [show min pat.length (y z).length = pat.length by rw [hy2]; omega]
    obtain ⟨h1, h2⟩ := lock_core pat ((y z).take pat.length) hN0 (by rw [List.length_take]; omega)
    exact ⟨_, _, h1, by rw [tile_slice _ _ h1], h2⟩
  have hsame : ∀ S, (∀ i < pat.length, (pat.rotate S)[i]? = pat[(φ + i) % pat.length]?) ↔ phaseDistance pat φ S = 0 := by
    intro S
    rw [hΔ, Finset.sum_eq_zero_iff_of_nonneg fun _ _ => sq_nonneg _]
    refine ⟨fun h i hi => ?_, fun h i hi => ?_⟩
    · have := h i (Finset.mem_range.1 hi)
      rw [List.getElem?_rotate (Finset.mem_range.1 hi), getD_eq_getElem?_iff _ _ _ (Nat.mod_lt _ hN0) (Nat.mod_lt _ hN0)] at this
      rw [hq]
      simp only
      rw [← this, Nat.add_comm i S, sub_self]
      ring
    · have := h i (Finset.mem_range.2 hi)
      rw [List.getElem?_rotate hi, getD_eq_getElem?_iff _ _ _ (Nat.mod_lt _ hN0) (Nat.mod_lt _ hN0)]
      rw [hq] at this
      simp only at this
      have := pow_eq_zero_iff (two_ne_zero) |>.1 this
      rw [Nat.add_comm i S]
      linarith
  have hmiss : ∀ z, LockMisses pat x φ snr (List.ofFn z) ↔ ∃ S < pat.length, (∀ k, corr pat ((y z).take pat.length) k ≤ corr pat ((y z).take pat.length) S) ∧
      (∃ xc, lockPattern pat (y z) = .ok (pat.rotate S, xc)) ∧ phaseDistance pat φ S ≠ 0 := by
    intro z
    obtain ⟨S, xc, h1, h2, h3⟩ := hlock z
    constructor
    · rintro ⟨y', rot, xc', a1, a2, i, hi, a3⟩
      rw [hy1] at a1
      obtain rfl := Option.some.inj a1
      rw [h2] at a2
      obtain ⟨rfl, rfl⟩ := Prod.mk.inj (Except.ok.inj a2)
      exact ⟨S, h1, h3, ⟨_, h2⟩, fun h0 => a3 ((hsame S).2 h0 i hi)⟩
    · rintro ⟨S', -, -, ⟨xc', a2⟩, h4⟩
      have := mt (hsame S').1 h4
      push Not at this
      obtain ⟨i, hi, hne⟩ := this
      exact ⟨y z, _, _, hy1 z, a2, i, hi, hne⟩
  have hpos : ∀ k, phaseDistance pat φ k ≠ 0 → 0 < phaseDistance pat φ k := fun k h =>
    lt_of_le_of_ne (by rw [hΔ]; exact Finset.sum_nonneg fun _ _ => sq_nonneg _) (Ne.symm h)
  have hprob : ∀ k, phaseDistance pat φ k ≠ 0 →
      (normalDraws x.length).real {z | g / 2 * phaseDistance pat φ k ≤ ∑ m, w k m * z m} = qFunc (g * √(phaseDistance pat φ k) / (2 * s)) ∧
      (normalDraws x.length).real {z | g / 2 * phaseDistance pat φ k < ∑ m, w k m * z m} = qFunc (g * √(phaseDistance pat φ k) / (2 * s)) := by
    intro k hk
    have h0 := hpos k hk
    have hr := Real.sqrt_pos.2 h0
    have hrr := Real.sq_sqrt h0.le
    obtain ⟨h1, h2, -⟩ := linear_tail (w k) (s * √(phaseDistance pat φ k)) (mul_pos hs0 hr) (by rw [hw2, mul_pow, hrr]) (g / 2 * phaseDistance pat φ k)
    have e : g / 2 * phaseDistance pat φ k / (s * √(phaseDistance pat φ k)) = g * √(phaseDistance pat φ k) / (2 * s) := by
      rw [div_eq_div_iff (by positivity) (by positivity)]
      linear_combination (-(g * s)) * hrr
    rw [e] at h1 h2
    exact ⟨h1, h2⟩
  have hprobm : IsProbabilityMeasure (normalDraws x.length) := by unfold normalDraws; infer_instance
  constructor
  · intro k hk
    rw [← (hprob k hk).2]
    refine measureReal_mono (fun z hz => ?_) (measure_ne_top _ _)
    rw [Set.mem_ofPred_eq] at hz ⊢
    rw [hmiss]
    obtain ⟨S, xc, h1, h2, h3⟩ := hlock z
    refine ⟨S, h1, h3, ⟨xc, h2⟩, fun h0 => ?_⟩
    -- phases at distance zero have the same correlation as φ
    have h4 := h3 k
    have h5 := hcorr z k
    have h6 := hcorr z S
    have h7 : ∑ m, w S m * z m = 0 := by
      refine Finset.sum_eq_zero fun m _ => ?_
      have h8 : ∑ m, w S m ^ 2 = 0 := by rw [hw2, h0, mul_zero]
      have := (Finset.sum_eq_zero_iff_of_nonneg fun _ _ => sq_nonneg _).1 h8 m (Finset.mem_univ _)
      rw [pow_eq_zero_iff two_ne_zero |>.1 this, zero_mul]
    rw [h0, h7] at h6
    linarith
  · have hsub : {z : Fin x.length → ℝ | LockMisses pat x φ snr (List.ofFn z)}
        ⊆ ⋃ k ∈ (Finset.range pat.length).filter (fun k => phaseDistance pat φ k ≠ 0), {z | g / 2 * phaseDistance pat φ k ≤ ∑ m, w k m * z m} := by
      intro z hz
      rw [Set.mem_ofPred_eq, hmiss] at hz
      obtain ⟨S, h1, h3, -, h4⟩ := hz
      refine Set.mem_biUnion (Finset.mem_coe.2 (Finset.mem_filter.2 ⟨Finset.mem_range.2 h1, h4⟩)) ?_
      have h5 := h3 φ
      have h6 := hcorr z S
      rw [Set.mem_ofPred_eq]
      linarith
    refine (measureReal_mono hsub (measure_ne_top _ _)).trans ((measureReal_biUnion_finset_le _ _).trans (le_of_eq ?_))
    exact Finset.sum_congr rfl fun k hk => (hprob k (Finset.mem_filter.1 hk).2).1

/-- two phases of a two-level PRBS are always at the same distance -/
theorem prbs_phaseDistance (p : PrbsEnum) (seed : List Int) (hseed : seed.length = p.value) (hne : ∃ v ∈ seed, v % 2 = 1)
    (c : Constellation) (fs : Bool) (φ k : ℕ) :
    phaseDistance ((List.range (2 ^ p.value - 1)).map fun t => (getLevels c fs).getD (bitAt (getPolynomial p) seed t).toNat 0) φ k
      = if k % (2 ^ p.value - 1) = φ % (2 ^ p.value - 1) then 0
        else ((getLevels c fs).getD 1 0 - (getLevels c fs).getD 0 0) ^ 2 * 2 ^ (p.value - 1) := by
  obtain ⟨N, hN⟩ : ∃ N, N = 2 ^ p.value - 1 := ⟨_, rfl⟩
  have hN0 : 0 < N := by have := value_pos p; have := Nat.one_lt_two_pow (n := p.value) (by omega); omega
  have hper : ∀ t, bitAt (getPolynomial p) seed (t + N) = bitAt (getPolynomial p) seed t := fun t => by rw [hN]; exact bitAt_period p seed hseed t
  have hmod : ∀ t, bitAt (getPolynomial p) seed (t % N) = bitAt (getPolynomial p) seed t := fun t =>
    Function.Periodic.map_mod_nat (f := bitAt (getPolynomial p) seed) hper t
  have hshift : ∀ t j, bitAt (getPolynomial p) seed (t + j * N) = bitAt (getPolynomial p) seed t := by
    intro t j
    rw [← hmod, Nat.add_mul_mod_self_right, hmod]
  unfold phaseDistance
  rw [List.length_map, List.length_range, ← hN]
  have hget : ∀ j, ((List.range N).map fun t => (getLevels c fs).getD (bitAt (getPolynomial p) seed t).toNat 0).getD (j % N) 0
      = (getLevels c fs).getD (bitAt (getPolynomial p) seed j).toNat 0 := by
    intro j
    rw [List.getD_eq_getElem _ _ (by simpa using Nat.mod_lt j hN0)]
    simp [hmod]
  simp only [hget]
  have hdist : ∀ a b : ℤ, (a = 0 ∨ a = 1) → (b = 0 ∨ b = 1) →
      ((getLevels c fs).getD a.toNat 0 - (getLevels c fs).getD b.toNat 0) ^ 2
        = if a ≠ b then ((getLevels c fs).getD 1 0 - (getLevels c fs).getD 0 0) ^ 2 else 0 := by
    rintro a b (rfl | rfl) (rfl | rfl) <;> simp
    ring
  rw [Finset.sum_congr rfl fun i _ => hdist _ _ (bitAt_mem _ _ _) (bitAt_mem _ _ _), ← Finset.sum_filter, Finset.sum_const, nsmul_eq_mul]
  split
  · next h =>
    have : (Finset.range N).filter (fun t => bitAt (getPolynomial p) seed (φ + t) ≠ bitAt (getPolynomial p) seed (k + t)) = ∅ := by
      refine Finset.filter_eq_empty_iff.2 fun t _ => ?_
      rw [not_not, ← hmod (φ + t), ← hmod (k + t), Nat.add_mod φ, Nat.add_mod k, h]
    rw [this]
    simp
  · next h =>
    have hτ : ¬ (2 ^ p.value - 1) ∣ k + φ * (N - 1) := by
      rw [← hN]
      intro hd
      apply h
      have h1 : φ + (k + φ * (N - 1)) = k + φ * N := by
        obtain ⟨M, rfl⟩ : ∃ M, N = M + 1 := ⟨N - 1, by omega⟩
        rw [Nat.add_sub_cancel]; ring
      have h2 : (φ + (k + φ * (N - 1))) % N = φ % N := by
        rw [Nat.add_mod, Nat.mod_eq_zero_of_dvd hd, Nat.add_zero, Nat.mod_mod]
      rw [h1, Nat.add_mul_mod_self_right] at h2
      exact h2
    have h3 := bitAt_shift_distance p seed hseed hne _ hτ φ
    rw [← hN] at h3
    have h4 : ∀ t, bitAt (getPolynomial p) seed (φ + (k + φ * (N - 1)) + t) = bitAt (getPolynomial p) seed (k + t) := by
      intro t
      rw [← hshift (k + t) φ]
      congr 1
      obtain ⟨M, rfl⟩ : ∃ M, N = M + 1 := ⟨N - 1, by omega⟩
      rw [Nat.add_sub_cancel]; ring
    simp only [h4] at h3
    rw [h3]
    push_cast
    ring

/-- **C115.** Lock on a PRBS of two levels at distance `d`, received with gain `g > 0` and any offset in noise of standard
deviation `s`: the lock is wrong with probability between `Q` and `2^n - 2` times `Q`, for `Q = Q(g d √(2^(n-1)) / (2 s))`. -/
theorem C115_lock_prbs (p : PrbsEnum) (seed : List Int) (hseed : seed.length = p.value) (hne : ∃ v ∈ seed, v % 2 = 1)
    (c : Constellation) (hc : numLevels c = 2) (fs : Bool) (seq sd : List Int)
    (hseq : prbsGenerator (getPolynomial p) seed (2 ^ p.value - 1 : ℕ) = .ok (seq, sd)) (pat : List ℝ)
    (hpat : mapping seq c fs none false = .ok pat) (x : List ℝ) (hlen : pat.length ≤ x.length) (φ : ℕ) (g o : ℝ) (hg : 0 < g)
    (hx : ∀ i < pat.length, x.getD i 0 = g * pat.getD ((φ + i) % pat.length) 0 + o) (snr : ℝ) :
    ∃ s Q, awgnStd x snr = some s ∧ 0 < s ∧
      Q = qFunc (g * ((getLevels c fs).getD 1 0 - (getLevels c fs).getD 0 0) * √(2 ^ (p.value - 1)) / (2 * s)) ∧
      Q ≤ (normalDraws x.length).real {z | LockMisses pat x φ snr (List.ofFn z)} ∧
      (normalDraws x.length).real {z | LockMisses pat x φ snr (List.ofFn z)} ≤ (2 ^ p.value - 2) * Q := by
  rw [prbsGenerator_supported p seed hseed] at hseq
  obtain ⟨rfl, rfl⟩ := Prod.mk.inj (Except.ok.inj hseq)
  have hv : ∀ v ∈ (List.range (2 ^ p.value - 1)).map (bitAt (getPolynomial p) seed), 0 ≤ v ∧ v < numLevels c := by
    intro v hv
    obtain ⟨t, -, rfl⟩ := List.mem_map.1 hv
    rw [hc]
    rcases bitAt_mem (getPolynomial p) seed t with h | h <;> rw [h] <;> simp
  rw [mapping_values c fs _ hv, List.map_map] at hpat
  have hpat' := Except.ok.inj hpat
  have hlp : pat.length = 2 ^ p.value - 1 := by rw [← hpat']; simp
  have hN := period_ge p
  obtain ⟨d, hd⟩ : ∃ d, d = (getLevels c fs).getD 1 0 - (getLevels c fs).getD 0 0 := ⟨_, rfl⟩
  have hd0 : 0 < d := by rw [hd]; exact (levels_grid c fs).1
  have hΔ : ∀ k, phaseDistance pat φ k = if k % (2 ^ p.value - 1) = φ % (2 ^ p.value - 1) then 0 else d ^ 2 * 2 ^ (p.value - 1) := by
    intro k
    rw [hd, ← prbs_phaseDistance p seed hseed hne c fs φ k, ← hpat']
    rfl
  have hnz : ∃ v ∈ x, v ≠ 0 := by
    by_contra hc'
    push Not at hc'
    have hx0 : ∀ i < pat.length, x.getD i 0 = 0 := by
      intro i hi
      rw [List.getD_eq_getElem x 0 (by omega)]; exact hc' _ (List.getElem_mem _)
    have hconst : ∀ i, pat.getD (i % pat.length) 0 = -o / g := by
      intro i
      have h1 : ∀ j < pat.length, pat.getD ((φ + j) % pat.length) 0 = -o / g := by
        intro j hj
        have := hx j hj
        rw [hx0 j hj] at this
        rw [eq_div_iff hg.ne']
        linarith
      have h2 := h1 ((i + φ * (pat.length - 1)) % pat.length) (Nat.mod_lt _ (by omega))
      rw [Nat.add_mod_mod, show φ + (i + φ * (pat.length - 1)) = i + φ * pat.length by
        obtain ⟨M, hM⟩ : ∃ M, pat.length = M + 1 := ⟨pat.length - 1, by omega⟩
        rw [hM, Nat.add_sub_cancel]; ring, Nat.add_mul_mod_self_right] at h2
      exact h2
    have h3 : phaseDistance pat φ (φ + 1) = 0 := by
      unfold phaseDistance
      exact Finset.sum_eq_zero fun i _ => by rw [hconst, hconst, sub_self]; ring
    rw [hΔ, if_neg (by
      intro h
      have h4 : ((φ + 1) - φ) % (2 ^ p.value - 1) = 0 := Nat.sub_mod_eq_zero_of_mod_eq h
      rw [Nat.add_sub_cancel_left, Nat.mod_eq_of_lt (by omega)] at h4
      omega)] at h3
    have : 0 < d ^ 2 * 2 ^ (p.value - 1) := by positivity
    linarith
  obtain ⟨s, h1, h2, h3, h4⟩ := C115_lock pat x (by omega) hlen φ g o hx hnz snr
  have hsqrt : √(d ^ 2 * 2 ^ (p.value - 1)) = d * √(2 ^ (p.value - 1)) := by
    rw [Real.sqrt_mul (by positivity), Real.sqrt_sq hd0.le]
  have hval : ∀ k, phaseDistance pat φ k ≠ 0 → qFunc (g * √(phaseDistance pat φ k) / (2 * s)) = qFunc (g * d * √(2 ^ (p.value - 1)) / (2 * s)) := by
    intro k hk
    rw [hΔ] at hk ⊢
    split at hk
    · exact absurd rfl hk
    · next h => rw [if_neg h, hsqrt, mul_assoc]
  have hiff : ∀ k, phaseDistance pat φ k ≠ 0 ↔ k % (2 ^ p.value - 1) ≠ φ % (2 ^ p.value - 1) := by
    intro k
    have : d ^ 2 * 2 ^ (p.value - 1) ≠ 0 := by positivity
    rw [hΔ]
    split
    · next h => simp [h]
    · next h => exact ⟨fun _ => h, fun _ => this⟩
  refine ⟨s, _, h1, h2, rfl, ?_, ?_⟩
  · rw [← hd]
    have hk : phaseDistance pat φ (φ + 1) ≠ 0 := by
      rw [hiff]
      intro h
      have h4 : ((φ + 1) - φ) % (2 ^ p.value - 1) = 0 := Nat.sub_mod_eq_zero_of_mod_eq h
      rw [Nat.add_sub_cancel_left, Nat.mod_eq_of_lt (by omega)] at h4
      omega
    rw [← hval _ hk]
    exact h3 _ hk
  · refine h4.trans (le_of_eq ?_)
    rw [Finset.sum_congr rfl fun k hk => hval k (Finset.mem_filter.1 hk).2, Finset.sum_const, nsmul_eq_mul, ← hd]
    congr 1
    have e : (Finset.range pat.length).filter (fun k => phaseDistance pat φ k ≠ 0) = (Finset.range (2 ^ p.value - 1)).erase (φ % (2 ^ p.value - 1)) := by
      ext k
      rw [Finset.mem_filter, Finset.mem_erase, hiff, hlp, Finset.mem_range, and_comm]
      constructor
      · rintro ⟨a, b⟩; rw [Nat.mod_eq_of_lt b] at a; exact ⟨a, b⟩
      · rintro ⟨a, b⟩; rw [Nat.mod_eq_of_lt b]; exact ⟨a, b⟩
    rw [e, Finset.card_erase_of_mem (Finset.mem_range.2 (Nat.mod_lt _ (by omega))), Finset.card_range]
    have h5 : 2 ≤ 2 ^ p.value := by omega
    rw [Nat.sub_sub, Nat.cast_sub h5]
    push_cast
    ring

/-- **C115.** A PRBS through a channel, `q` periods and a symbol of it, in noise: with the first postcursor above the first
precursor the mean of the timing error is positive, and the step goes the wrong way with at most the probability of the tail at
that mean plus tolerance, over a spread that falls with the square root of the number of symbols. -/
theorem C115_timing_prbs (p : PrbsEnum) (c : Constellation) (fs bi pnPre gray pnPost : Bool) (hc : c ≠ .pam3) (a : ℤ → ℝ)
    (ha : a = periodic (2 ^ p.value - 1) (txLevel c fs bi pnPre gray pnPost (bitAt (getPolynomial p) (onesSeed p))))
    (h : List ℝ) (pre : ℕ) (hp : pre < h.length) (hl : h.length < if c = .pam4 then echo p bi gray else 2 ^ p.value - 1)
    (φ : ℤ) (q : ℕ) (hq : 0 < q) (x ref : List ℝ) (hxl : x.length = q * (2 ^ p.value - 1) + 1) (hrl : ref.length = x.length)
    (hx : ∀ t : ℕ, t < x.length → x.getD t 0 = chanOut h pre a (t + φ)) (hr : ∀ t : ℕ, t < x.length → ref.getD t 0 = a (t + φ))
    (tol snr : ℝ) (ht : 0 < tol) (hcur : cursor h pre (-1) < cursor h pre 1) :
    ∃ s e, awgnStd x snr = some s ∧ 0 < s ∧
      e = 2 ^ p.value / (2 ^ p.value - 1) * levelVariance c fs * (cursor h pre 1 - cursor h pre (-1)) ∧ 0 < e ∧
      (normalDraws x.length).real {z | StepOf x ref 1 1 tol snr (List.ofFn z) (-1)}
        ≤ qFunc ((tol + e) * (q * (2 ^ p.value - 1)) / (2 * peakLevel c fs * s * √(q * (2 ^ p.value - 1) + 1))) := by
  have hN := period_ge p
  have h0 := C101_estimate p c fs bi pnPre gray pnPost hc a ha h pre hp hl φ q 0 hq x ref (by omega) hrl 0
    (fun t ht => by rw [hx t ht, sub_self, abs_zero]) hr 1
  have hNr : ((2 ^ p.value - 1 : ℕ) : ℝ) = 2 ^ p.value - 1 := by rw [Nat.cast_sub Nat.one_le_two_pow]; push_cast; ring
  have hNp : (127 : ℝ) ≤ 2 ^ p.value - 1 := by rw [← hNr]; exact_mod_cast hN
  have hqp : (0 : ℝ) < q := by exact_mod_cast hq
  obtain ⟨e, he⟩ : ∃ e, e = 2 ^ p.value / (2 ^ p.value - 1) * levelVariance c fs * (cursor h pre 1 - cursor h pre (-1)) := ⟨_, rfl⟩
  have he1 : timingError x.length (fun k => x.getD k 0) (fun k => ref.getD k 0) 1 1 = e := by
    rw [hrl] at h0
    simp only [Nat.cast_zero, zero_div, zero_mul, mul_zero, add_zero, hNr, abs_nonpos_iff, one_mul] at h0
    have h1 := sub_eq_zero.1 h0
    rw [h1, he]
    have : (2 : ℝ) ^ p.value - 1 ≠ 0 := by linarith
    field_simp
  have hvar : 0 < levelVariance c fs := by
    unfold levelVariance
    have := unitScale_pos c fs
    cases c <;> simp at hc ⊢ <;> positivity
  have he0 : 0 < e := by
    rw [he]
    have h1 : 0 < cursor h pre 1 - cursor h pre (-1) := by linarith
    have h2 : (0 : ℝ) < 2 ^ p.value - 1 := by linarith
    positivity
  have hnz : ∃ v ∈ x, v ≠ 0 := by
    by_contra hc'
    push Not at hc'
    have hx0 : ∀ i, x.getD i 0 = 0 := by
      intro i
      by_cases hi : i < x.length
      · rw [List.getD_eq_getElem x 0 hi]; exact hc' _ (List.getElem_mem _)
      · exact List.getD_eq_default _ _ (by omega)
    have : timingError x.length (fun k => x.getD k 0) (fun k => ref.getD k 0) 1 1 = 0 := by
      unfold timingError
      simp only [hx0, mul_zero, Finset.sum_const_zero, zero_div, sub_zero]
    linarith
  have hA : ∀ v ∈ ref, |v| ≤ peakLevel c fs := by
    intro v hv
    obtain ⟨i, hi, rfl⟩ := List.mem_iff_getElem.1 hv
    rw [← List.getD_eq_getElem ref 0 hi, hr i (by omega), ha]
    rw [refZ_int]
    exact refZ_abs p fs bi pnPre gray pnPost c _
  have h2 : 2 ≤ x.length := by
    have : 1 * 127 ≤ q * (2 ^ p.value - 1) := Nat.mul_le_mul hq hN
    omega
  obtain ⟨s, h3, h4, h5⟩ := C115_wrong_way x ref tol snr hrl.symm h2 ht hnz e he1.symm (peakLevel c fs) hA (-1) (.inr ⟨rfl, he0.le⟩)
  refine ⟨s, e, h3, h4, he, he0, h5.trans (le_of_eq ?_)⟩
  have hlen : (x.length : ℝ) = q * (2 ^ p.value - 1) + 1 := by rw [hxl, ← hNr]; push_cast; ring
  rw [abs_of_pos he0, hlen, add_sub_cancel_right]

/-- four NRZ samples with a postcursor: steps of the timing loop -/
example (snr : ℝ) : ∃ s, awgnStd [1, 3 / 2, -1 / 2, -3 / 2] snr = some s ∧ 0 < s ∧
    (normalDraws 4).real {z | StepOf [1, 3 / 2, -1 / 2, -3 / 2] [1, 1, -1, -1] 1 1 (1 / 10) snr (List.ofFn z) (-1)}
      ≤ qFunc ((1 / 10 + 5 / 6) * 3 / (2 * s * √4)) := by
  have he : timingError 4 (fun k => ([1, 3 / 2, -1 / 2, -3 / 2] : List ℝ).getD k 0) (fun k => ([1, 1, -1, -1] : List ℝ).getD k 0) 1 1 = 5 / 6 := by
    norm_num [timingError, Finset.sum_range_succ]
  obtain ⟨s, h1, h2, h3⟩ := C115_wrong_way [1, 3 / 2, -1 / 2, -3 / 2] [1, 1, -1, -1] (1 / 10) snr rfl (by simp) (by norm_num)
    ⟨1, by simp, one_ne_zero⟩ (5 / 6) he.symm 1 (by simp) (-1) (.inr ⟨rfl, by norm_num⟩)
  refine ⟨s, h1, h2, h3.trans (le_of_eq ?_)⟩
  rw [abs_of_pos (by norm_num)]
  norm_num

example (snr : ℝ) : ∃ s, awgnStd [1, 3 / 2, -1 / 2, -3 / 2] snr = some s ∧ 0 < s ∧
    (normalDraws 4).real {z | StepOf [1, 3 / 2, -1 / 2, -3 / 2] [1, 1, -1, -1] 1 1 (1 / 10) snr (List.ofFn z) 1}
      = qFunc ((1 / 10 - 5 / 6) / (s * √(10 / 9))) := by
  have he : timingError 4 (fun k => ([1, 3 / 2, -1 / 2, -3 / 2] : List ℝ).getD k 0) (fun k => ([1, 1, -1, -1] : List ℝ).getD k 0) 1 1 = 5 / 6 := by
    norm_num [timingError, Finset.sum_range_succ]
  obtain ⟨s, h1, h2, -, h3, -⟩ := C115_timing [1, 3 / 2, -1 / 2, -3 / 2] [1, 1, -1, -1] 1 1 (1 / 10) snr rfl (by simp) (by norm_num)
    ⟨1, by simp, one_ne_zero⟩ (5 / 6) he.symm (10 / 9) (by norm_num [timingWeight, Finset.sum_range_succ]) (by norm_num)
  exact ⟨s, h1, h2, h3⟩

/-- a pattern of three symbols seen from phase 1 with gain 2 and offset 1 -/
example (snr : ℝ) : ∃ s, awgnStd [3, -1, -1] snr = some s ∧ 0 < s ∧
    qFunc (2 * √8 / (2 * s)) ≤ (normalDraws 3).real {z | LockMisses [-1, 1, -1] [3, -1, -1] 1 snr (List.ofFn z)} := by
  obtain ⟨s, h1, h2, h3, -⟩ := C115_lock [-1, 1, -1] [3, -1, -1] (by simp) (by simp) 1 2 1
    (fun i hi => by
      simp only [List.length_cons, List.length_nil] at hi
      interval_cases i <;> norm_num) ⟨3, by simp, by norm_num⟩ snr
  have hd : phaseDistance [-1, 1, -1] 1 0 = 8 := by norm_num [phaseDistance, Finset.sum_range_succ]
  have := h3 0 (by rw [hd]; norm_num)
  rw [hd] at this
  exact ⟨s, h1, h2, this⟩

/-- the hypotheses of `C115_lock_prbs` hold for PRBS7, NRZ and the all-ones seed at any phase, gain 1 and no offset -/
example (φ : ℕ) (snr : ℝ) : ∃ (pat x : List ℝ) (s Q : ℝ), pat.length = 127 ∧ (∀ i < pat.length, x.getD i 0 = pat.getD ((φ + i) % pat.length) 0) ∧
    awgnStd x snr = some s ∧ Q = qFunc (1 * 2 * √(2 ^ 6) / (2 * s)) ∧
    Q ≤ (normalDraws x.length).real {z | LockMisses pat x φ snr (List.ofFn z)} ∧
    (normalDraws x.length).real {z | LockMisses pat x φ snr (List.ofFn z)} ≤ (2 ^ 7 - 2) * Q := by
  have hl : getLevels .nrz false = [-1, 1] := by simp [getLevels, intLevels]
  have hgen := prbsGenerator_supported .prbs7 (onesSeed .prbs7) (by decide) (2 ^ 7 - 1)
  have hv : ∀ v ∈ (List.range (2 ^ 7 - 1)).map (bitAt (getPolynomial .prbs7) (onesSeed .prbs7)), 0 ≤ v ∧ v < numLevels .nrz := by
    intro v hv
    obtain ⟨t, -, rfl⟩ := List.mem_map.1 hv
    rcases bitAt_mem (getPolynomial .prbs7) (onesSeed .prbs7) t with h | h <;> rw [h] <;> decide
  have hm := mapping_values .nrz false _ hv
  obtain ⟨pat, hpat⟩ : ∃ pat, pat = ((List.range (2 ^ 7 - 1)).map (bitAt (getPolynomial .prbs7) (onesSeed .prbs7))).map
    fun v => (getLevels .nrz false).getD v.toNat 0 := ⟨_, rfl⟩
  rw [← hpat] at hm
  have hpl : pat.length = 127 := by rw [hpat]; simp
  have hx : ∀ i < pat.length, ((List.range pat.length).map fun i => pat.getD ((φ + i) % pat.length) 0).getD i 0
      = pat.getD ((φ + i) % pat.length) 0 := by
    intro i hi
    rw [List.getD_eq_getElem _ _ (by simpa using hi)]
    simp
  obtain ⟨s, Q, h1, -, h3, h4, h5⟩ := C115_lock_prbs .prbs7 (onesSeed .prbs7) (by decide) (by decide) .nrz rfl false _ _ hgen pat hm
    ((List.range pat.length).map fun i => pat.getD ((φ + i) % pat.length) 0) (by simp) φ 1 0 one_pos
    (fun i hi => by rw [hx i hi, one_mul, add_zero]) snr
  refine ⟨pat, _, s, Q, hpl, hx, h1, ?_, h4, h5⟩
  rw [h3, hl]
  norm_num [PrbsEnum.value]

/-- the hypotheses of `C115_timing_prbs`: PRBS7, NRZ, one period of the response `1, 1/2` -/
example (snr : ℝ) : ∃ (x ref : List ℝ) (s e : ℝ), x.length = 128 ∧ awgnStd x snr = some s ∧ 0 < e ∧
    (normalDraws x.length).real {z | StepOf x ref 1 1 (1 / 1000) snr (List.ofFn z) (-1)} ≤ qFunc ((1 / 1000 + e) * 127 / (2 * s * √128)) := by
  obtain ⟨a, ha⟩ : ∃ a, a = periodic (2 ^ PrbsEnum.prbs7.value - 1)
    (txLevel .nrz false false false false false (bitAt (getPolynomial .prbs7) (onesSeed .prbs7))) := ⟨_, rfl⟩
  have hget : ∀ f : ℕ → ℝ, ∀ t < 128, ((List.range 128).map f).getD t 0 = f t := by
    intro f t ht
    rw [List.getD_eq_getElem _ _ (by simpa using ht)]
    simp
  obtain ⟨s, e, h1, h2, -, h3, h4⟩ := C115_timing_prbs .prbs7 .nrz false false false false false (by decide) a ha [1, 1 / 2] 0 (by simp)
    (by rw [if_neg (by decide)]; norm_num [PrbsEnum.value]) 0 1 one_pos ((List.range 128).map fun t : ℕ => chanOut [1, 1 / 2] 0 a t) ((List.range 128).map fun t : ℕ => a t)
    (by simp [PrbsEnum.value]) (by simp) (fun t ht => by rw [hget _ t (by simpa using ht), add_zero])
    (fun t ht => by rw [hget _ t (by simpa using ht), add_zero]) (1 / 1000) snr (by norm_num) (by norm_num [cursor])
  refine ⟨_, _, s, e, by simp, h1, h3, h4.trans (le_of_eq ?_)⟩
  have hp : peakLevel .nrz false = 1 := by simp [peakLevel, unitScale]
  rw [hp]
  norm_num [PrbsEnum.value]

end Verif
