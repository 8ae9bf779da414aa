import Verif.Lemmas.EqNoise
import Verif.Spec.DfeNoise
import Mathlib.MeasureTheory.Integral.Marginal
import Mathlib.MeasureTheory.Constructions.BorelSpace.Order

/-! Decisions of a decision feedback equalizer as a random process. -/

open MeasureTheory ProbabilityTheory Set

namespace Verif
open Spec (qFunc decisionError wrongPast rightRun)

local notation "γ" => gaussianReal 0 1

theorem wrongPast_congr (h : List ℝ) (a d d' : ℕ → ℝ) (n : ℕ) (hd : ∀ k < n, d k = d' k) :
    wrongPast h a d n = wrongPast h a d' n := by
  unfold wrongPast
  refine Finset.sum_congr rfl fun j _ => ?_
  split
  · rw [hd _ (by omega)]
  · rfl

theorem rightRun_congr (L : ℕ) (a d d' : ℕ → ℝ) (n : ℕ) (hd : ∀ k < n, d k = d' k) : rightRun L a d n = rightRun L a d' n := by
  induction n with
  | zero => rfl
  | succ n ih =>
    rw [rightRun, rightRun, ih fun k hk => hd k (by omega), hd n (by omega)]

theorem rightRun_le (L : ℕ) (a d : ℕ → ℝ) (n : ℕ) : rightRun L a d n ≤ L := by
  cases n with
  | zero => exact le_rfl
  | succ n => rw [rightRun]; split <;> simp

theorem rightRun_right (L : ℕ) (a d : ℕ → ℝ) (n : ℕ) : ∀ j < rightRun L a d n, j < n → d (n - 1 - j) = a (n - 1 - j) := by
  induction n with
  | zero => intro j _ h; omega
  | succ n ih =>
    intro j hj hjn
    rw [rightRun] at hj
    split at hj
    · rename_i heq
      cases j with
      | zero => simpa using heq
      | succ j =>
        have := ih j (by omega) (by omega)
        rwa [show n + 1 - 1 - (j + 1) = n - 1 - j by omega]
    · omega

theorem wrongPast_zero (h : List ℝ) (a d : ℕ → ℝ) (n : ℕ) (hd : ∀ j < h.length, j < n → d (n - 1 - j) = a (n - 1 - j)) :
    wrongPast h a d n = 0 := by
  unfold wrongPast
  refine Finset.sum_eq_zero fun j hj => ?_
  split
  · rename_i hjn
    rw [hd j (Finset.mem_range.1 hj) hjn, sub_self, mul_zero]
  · rfl

theorem wrongPast_le (h : List ℝ) (a d : ℕ → ℝ) (n : ℕ) (S : ℝ) (hS : 0 ≤ S) (had : ∀ k < n, |a k - d k| ≤ S) :
    |wrongPast h a d n| ≤ S * ∑ j ∈ Finset.range h.length, |h.getD j 0| := by
  unfold wrongPast
  rw [Finset.mul_sum]
  refine (Finset.abs_sum_le_sum_abs _ _).trans (Finset.sum_le_sum fun j _ => ?_)
  split
  · rw [abs_mul, mul_comm]
    exact mul_le_mul_of_nonneg_right (had _ (by omega)) (abs_nonneg _)
  · rw [abs_zero]; positivity

/-- decisions `D z` for the noise `z` -/
structure DfeProcess (N : ℕ) (lv h : List ℝ) (a : ℕ → ℝ) (σ : ℝ) (D : (Fin N → ℝ) → ℕ → ℝ) : Prop where
  step : ∀ z (n : ℕ) (hn : n < N), D z n = sliceOne lv (a n + (wrongPast h a (D z) n + σ * z ⟨n, hn⟩))

variable {N : ℕ} {lv h : List ℝ} {a : ℕ → ℝ} {σ : ℝ} {D : (Fin N → ℝ) → ℕ → ℝ}

theorem DfeProcess.past (P : DfeProcess N lv h a σ D) (z z' : Fin N → ℝ) (n : ℕ) (hz : ∀ i : Fin N, (i : ℕ) < n → z i = z' i) :
    ∀ k, k < n → k < N → D z k = D z' k := by
  intro k
  induction k using Nat.strong_induction_on with
  | _ k ih =>
    intro hk hkN
    rw [P.step z k hkN, P.step z' k hkN, hz ⟨k, hkN⟩ hk, wrongPast_congr h a (D z) (D z') k fun i hi => ih i hi (by omega) (by omega)]

theorem sliceOne_measurable (lv : List ℝ) (hlv : lv ≠ []) : Measurable (sliceOne lv) :=
  Monotone.measurable fun _ _ hxy => sliceOne_mono lv hlv hxy

theorem DfeProcess.measurable (P : DfeProcess N lv h a σ D) (hlv : lv ≠ []) : ∀ k < N, Measurable fun z => D z k := by
  intro k
  induction k using Nat.strong_induction_on with
  | _ k ih =>
    intro hk
    have e : (fun z => D z k) = fun z => sliceOne lv (a k + (wrongPast h a (D z) k + σ * z ⟨k, hk⟩)) := by
      funext z; exact P.step z k hk
    rw [e]
    refine (sliceOne_measurable lv hlv).comp ?_
    have hw : Measurable fun z => wrongPast h a (D z) k := by
      unfold wrongPast
      refine Finset.measurable_sum _ fun j _ => ?_
      by_cases hj : j < k
      · simp only [hj, if_true]
        exact (measurable_const.sub (ih (k - 1 - j) (by omega) (by omega))).const_mul _
      · simp only [hj, if_false]
        exact measurable_const
    exact measurable_const.add (hw.add ((measurable_pi_apply _).const_mul _))

theorem DfeProcess.run_measurable (P : DfeProcess N lv h a σ D) (hlv : lv ≠ []) (L : ℕ) :
    ∀ n ≤ N, Measurable fun z => rightRun L a (D z) n := by
  intro n
  induction n with
  | zero => intro _; exact measurable_const
  | succ n ih =>
    intro hn
    have hs : MeasurableSet {z | D z n = a n} := (P.measurable hlv n (by omega)) (measurableSet_singleton (a n))
    have m1 : Measurable fun z => min L (rightRun L a (D z) n + 1) :=
      (Measurable.of_discrete (f := fun r : ℕ => min L (r + 1))).comp (ih (by omega))
    exact Measurable.ite hs m1 measurable_const

/-- potential of a state with `r` right decisions in the past -/
noncomputable def runCost (L : ℕ) (p : ℝ) (r : ℕ) : ℝ := ((1 - p) ^ L)⁻¹ * (1 - (1 - p) ^ (L - r))

theorem runCost_nonneg (L : ℕ) (p : ℝ) (h0 : 0 ≤ p) (h1 : p < 1) (r : ℕ) : 0 ≤ runCost L p r := by
  unfold runCost
  have : (1 - p) ^ (L - r) ≤ 1 := pow_le_one₀ (by linarith) (by linarith)
  have : (0 : ℝ) < (1 - p) ^ L := pow_pos (by linarith) _
  exact mul_nonneg (by positivity) (by linarith)

theorem runCost_le (L : ℕ) (p : ℝ) (h1 : p < 1) (r : ℕ) : runCost L p r ≤ ((1 - p) ^ L)⁻¹ := by
  unfold runCost
  have h2 : (0 : ℝ) < (1 - p) ^ L := pow_pos (by linarith) _
  have h3 : (0 : ℝ) < (1 - p) ^ (L - r) := pow_pos (by linarith) _
  have : (0 : ℝ) < ((1 - p) ^ L)⁻¹ := by positivity
  nlinarith

/-- one symbol: the expected potential grows at most by what the first error of a burst costs -/
theorem DfeProcess.potential (P : DfeProcess N lv h a σ D) (hlv : lv ≠ []) (p0 p1 : ℝ) (h0 : 0 ≤ p0) (h1 : 0 ≤ p1) (h1' : p1 < 1)
    (n : ℕ) (hn : n < N)
    (hp0 : (γ).real {u | sliceOne lv (a n + (0 + σ * u)) = a n}ᶜ ≤ p0)
    (hp1 : ∀ z, (γ).real {u | sliceOne lv (a n + (wrongPast h a (D z) n + σ * u)) = a n}ᶜ ≤ p1) :
    ∫⁻ z, (ENNReal.ofReal (runCost h.length p1 (rightRun h.length a (D z) (n + 1))) + {z | D z n ≠ a n}.indicator 1 z)
        ∂(Measure.pi fun _ : Fin N => γ)
      ≤ ∫⁻ z, (ENNReal.ofReal (runCost h.length p1 (rightRun h.length a (D z) n)) + ENNReal.ofReal (p0 * ((1 - p1) ^ h.length)⁻¹))
        ∂(Measure.pi fun _ : Fin N => γ) := by
  classical
  have hB : (0 : ℝ) < ((1 - p1) ^ h.length)⁻¹ := inv_pos.2 (pow_pos (by linarith) _)
  have hW : MeasurableSet {z | D z n ≠ a n} := ((P.measurable hlv n hn) (measurableSet_singleton (a n))).compl
  have hc : ∀ m ≤ N, Measurable fun z => ENNReal.ofReal (runCost h.length p1 (rightRun h.length a (D z) m)) := fun m hm =>
    ((Measurable.of_discrete (f := fun r : ℕ => runCost h.length p1 r)).comp (P.run_measurable hlv h.length m hm)).ennreal_ofReal
  refine lintegral_le_of_lmarginal_le (μ := fun _ : Fin N => γ) {⟨n, hn⟩} ((hc (n + 1) (by omega)).add (measurable_one.indicator hW))
    ((hc n (by omega)).add measurable_const) ?_
  rw [lmarginal_singleton, lmarginal_singleton]
  intro z
  -- the past does not see the present noise
  have hpast : ∀ u, ∀ k < n, D (Function.update z ⟨n, hn⟩ u) k = D z k := by
    intro u k hk
    refine P.past _ _ n (fun i hi => ?_) k hk (by omega)
    rw [Function.update_of_ne]
    intro hne
    rw [hne] at hi
    exact lt_irrefl _ hi
  have hD : ∀ u, D (Function.update z ⟨n, hn⟩ u) n = sliceOne lv (a n + (wrongPast h a (D z) n + σ * u)) := by
    intro u
    rw [P.step _ n hn, Function.update_self, wrongPast_congr h a _ (D z) n (hpast u)]
  have hrun : ∀ u, rightRun h.length a (D (Function.update z ⟨n, hn⟩ u)) n = rightRun h.length a (D z) n := fun u =>
    rightRun_congr _ _ _ _ _ (hpast u)
  obtain ⟨r, hr⟩ : ∃ r, r = rightRun h.length a (D z) n := ⟨_, rfl⟩
  obtain ⟨S, hS⟩ : ∃ S : Set ℝ, S = {u | sliceOne lv (a n + (wrongPast h a (D z) n + σ * u)) = a n}ᶜ := ⟨_, rfl⟩
  have hSm : MeasurableSet S := by
    rw [hS]
    refine MeasurableSet.compl ?_
    have : Measurable fun u : ℝ => sliceOne lv (a n + (wrongPast h a (D z) n + σ * u)) :=
      (sliceOne_measurable lv hlv).comp (by fun_prop)
    exact this (measurableSet_singleton (a n))
  have hrL : r ≤ h.length := by rw [hr]; exact rightRun_le _ _ _ _
  obtain ⟨f, hf⟩ : ∃ f, f = runCost h.length p1 (min h.length (r + 1)) := ⟨_, rfl⟩
  have hf0 : 0 ≤ f := by rw [hf]; exact runCost_nonneg _ _ h1 h1' _
  have hfB : f ≤ ((1 - p1) ^ h.length)⁻¹ := by rw [hf]; exact runCost_le _ _ h1' _
  have hcost0 : runCost h.length p1 0 + 1 = ((1 - p1) ^ h.length)⁻¹ := by
    unfold runCost
    have : ((1 - p1) ^ h.length) ≠ 0 := (pow_pos (by linarith) _).ne'
    rw [Nat.sub_zero]
    field_simp
    ring
  have hint : ∀ u, ENNReal.ofReal (runCost h.length p1 (rightRun h.length a (D (Function.update z ⟨n, hn⟩ u)) (n + 1)))
      + {z | D z n ≠ a n}.indicator 1 (Function.update z ⟨n, hn⟩ u)
        = ENNReal.ofReal (f + S.indicator (fun _ => ((1 - p1) ^ h.length)⁻¹ - f) u) := by
    intro u
    by_cases hu : sliceOne lv (a n + (wrongPast h a (D z) n + σ * u)) = a n
    · have e1 : u ∉ S := by rw [hS]; simpa using hu
      have e2 : Function.update z ⟨n, hn⟩ u ∉ {z | D z n ≠ a n} := by
        simp only [mem_setOf_eq, not_not, hD u]; exact hu
      rw [indicator_of_notMem e1, indicator_of_notMem e2, rightRun, hD u, if_pos hu, hrun u, ← hr, ← hf, add_zero, add_zero]
    · have e1 : u ∈ S := by rw [hS]; simpa using hu
      have e2 : Function.update z ⟨n, hn⟩ u ∈ {z | D z n ≠ a n} := by
        simp only [mem_setOf_eq, hD u]; exact hu
      rw [indicator_of_mem e1, indicator_of_mem e2, rightRun, hD u, if_neg hu, add_sub_cancel, ← hcost0,
        ENNReal.ofReal_add (runCost_nonneg _ _ h1 h1' _) zero_le_one]
      simp
  simp only [hint, hrun]
  rw [lintegral_const, measure_univ, mul_one, ← hr]
  have hi1 : Integrable (fun u => S.indicator (fun _ => ((1 - p1) ^ h.length)⁻¹ - f) u) γ := (integrable_const _).indicator hSm
  have hi : Integrable (fun u => f + S.indicator (fun _ => ((1 - p1) ^ h.length)⁻¹ - f) u) γ := (integrable_const _).add hi1
  rw [← ofReal_integral_eq_lintegral_ofReal hi (Filter.Eventually.of_forall fun u => add_nonneg hf0 (indicator_nonneg (fun _ _ => by linarith) u)),
    integral_add (integrable_const _) hi1, integral_indicator_const _ hSm, ← ENNReal.ofReal_add (runCost_nonneg _ _ h1 h1' _) (by positivity)]
  refine ENNReal.ofReal_le_ofReal ?_
  rw [integral_const, probReal_univ, one_smul, smul_eq_mul]
  by_cases hrl : r = h.length
  · have hz : wrongPast h a (D z) n = 0 := wrongPast_zero h a (D z) n fun j hj hjn => rightRun_right h.length a (D z) n j (by rw [← hr, hrl]; exact hj) hjn
    rw [hz] at hS
    have hSp : (γ).real S ≤ p0 := by rw [hS]; exact hp0
    have hf' : f = 0 := by rw [hf, hrl, Nat.min_eq_left (by omega)]; simp [runCost]
    have hc' : runCost h.length p1 r = 0 := by rw [hrl]; simp [runCost]
    rw [hf', hc']
    rw [sub_zero, zero_add, zero_add]
    exact mul_le_mul_of_nonneg_right hSp hB.le
  · have hSp : (γ).real S ≤ p1 := by rw [hS]; exact hp1 z
    have : f + p1 * (((1 - p1) ^ h.length)⁻¹ - f) = runCost h.length p1 r := by
      rw [hf, Nat.min_eq_right (by omega)]
      unfold runCost
      rw [show h.length - r = h.length - (r + 1) + 1 by omega, pow_succ]
      ring
    have h3 : (γ).real S * (((1 - p1) ^ h.length)⁻¹ - f) ≤ p1 * (((1 - p1) ^ h.length)⁻¹ - f) :=
      mul_le_mul_of_nonneg_right hSp (by linarith)
    have h4 : 0 ≤ p0 * ((1 - p1) ^ h.length)⁻¹ := by positivity
    linarith

/-- expected number of wrong decisions -/
theorem DfeProcess.errors (P : DfeProcess N lv h a σ D) (hlv : lv ≠ []) (p0 p1 : ℝ) (h0 : 0 ≤ p0) (h1 : 0 ≤ p1) (h1' : p1 < 1)
    (hp0 : ∀ n < N, (γ).real {u | sliceOne lv (a n + (0 + σ * u)) = a n}ᶜ ≤ p0)
    (hp1 : ∀ n < N, ∀ z, (γ).real {u | sliceOne lv (a n + (wrongPast h a (D z) n + σ * u)) = a n}ᶜ ≤ p1) :
    ∑ n ∈ Finset.range N, (Measure.pi fun _ : Fin N => γ).real {z | D z n ≠ a n} ≤ N * p0 / (1 - p1) ^ h.length := by
  have hB : (0 : ℝ) < ((1 - p1) ^ h.length)⁻¹ := inv_pos.2 (pow_pos (by linarith) _)
  have key : ∀ n ≤ N, ∫⁻ z, ENNReal.ofReal (runCost h.length p1 (rightRun h.length a (D z) n)) ∂(Measure.pi fun _ : Fin N => γ)
      + ∑ k ∈ Finset.range n, (Measure.pi fun _ : Fin N => γ) {z | D z k ≠ a k}
        ≤ n * ENNReal.ofReal (p0 * ((1 - p1) ^ h.length)⁻¹) := by
    intro n
    induction n with
    | zero =>
      intro _
      simp [rightRun, runCost]
    | succ n ih =>
      intro hn
      have hW : MeasurableSet {z | D z n ≠ a n} := ((P.measurable hlv n (by omega)) (measurableSet_singleton (a n))).compl
      have hs := P.potential hlv p0 p1 h0 h1 h1' n (by omega) (hp0 n (by omega)) (hp1 n (by omega))
      rw [lintegral_add_right _ (measurable_one.indicator hW), lintegral_indicator_one hW, lintegral_add_right _ measurable_const,
        lintegral_const, measure_univ, mul_one] at hs
      rw [Finset.sum_range_succ]
      calc _ = (∫⁻ z, ENNReal.ofReal (runCost h.length p1 (rightRun h.length a (D z) (n + 1))) ∂(Measure.pi fun _ : Fin N => γ)
            + (Measure.pi fun _ : Fin N => γ) {z | D z n ≠ a n})
            + ∑ k ∈ Finset.range n, (Measure.pi fun _ : Fin N => γ) {z | D z k ≠ a k} := by ring
        _ ≤ (∫⁻ z, ENNReal.ofReal (runCost h.length p1 (rightRun h.length a (D z) n)) ∂(Measure.pi fun _ : Fin N => γ)
            + ENNReal.ofReal (p0 * ((1 - p1) ^ h.length)⁻¹))
            + ∑ k ∈ Finset.range n, (Measure.pi fun _ : Fin N => γ) {z | D z k ≠ a k} := by gcongr
        _ = (∫⁻ z, ENNReal.ofReal (runCost h.length p1 (rightRun h.length a (D z) n)) ∂(Measure.pi fun _ : Fin N => γ)
            + ∑ k ∈ Finset.range n, (Measure.pi fun _ : Fin N => γ) {z | D z k ≠ a k})
            + ENNReal.ofReal (p0 * ((1 - p1) ^ h.length)⁻¹) := by ring
        _ ≤ n * ENNReal.ofReal (p0 * ((1 - p1) ^ h.length)⁻¹) + ENNReal.ofReal (p0 * ((1 - p1) ^ h.length)⁻¹) := by
            gcongr; exact ih (by omega)
        _ = _ := by push_cast; ring
  have h2 := key N le_rfl
  have h3 : ∑ k ∈ Finset.range N, (Measure.pi fun _ : Fin N => γ) {z | D z k ≠ a k}
      ≤ N * ENNReal.ofReal (p0 * ((1 - p1) ^ h.length)⁻¹) := le_trans le_add_self h2
  have h4 := ENNReal.toReal_mono (by finiteness) h3
  rw [ENNReal.toReal_sum (fun _ _ => measure_ne_top _ _), ENNReal.toReal_mul, ENNReal.toReal_natCast, ENNReal.toReal_ofReal (by positivity)] at h4
  rw [div_eq_mul_inv, mul_assoc]
  exact h4

/-- the first `n` decisions are right iff each is right without interference -/
theorem DfeProcess.prefix_iff (P : DfeProcess N lv h a σ D) (z : Fin N → ℝ) (n : ℕ) (hn : n ≤ N) :
    (∀ i < n, D z i = a i) ↔ ∀ i : Fin N, (i : ℕ) < n → z i ∈ {u | sliceOne lv (a i + (0 + σ * u)) = a i} := by
  have hstep : ∀ i (hi : i < N), (∀ k < i, D z k = a k) → (D z i = a i ↔ z ⟨i, hi⟩ ∈ {u | sliceOne lv (a i + (0 + σ * u)) = a i}) := by
    intro i hi hk
    rw [P.step z i hi, wrongPast_zero h a (D z) i fun j _ hj => hk _ (by omega)]
    rfl
  constructor
  · intro hr i hi
    exact (hstep i i.2 fun k hk => hr k (by omega)).1 (hr i hi)
  · intro hr i
    induction i using Nat.strong_induction_on with
    | _ i ih =>
      intro hi
      exact (hstep i (by omega) fun k hk => ih k hk (by omega)).2 (hr ⟨i, by omega⟩ hi)

theorem prefix_prob (R : ℕ → Set ℝ) (n : ℕ) (hn : n ≤ N) :
    (Measure.pi fun _ : Fin N => γ).real {z | ∀ i : Fin N, (i : ℕ) < n → z i ∈ R i} = ∏ i ∈ Finset.range n, (γ).real (R i) := by
  have e : {z : Fin N → ℝ | ∀ i : Fin N, (i : ℕ) < n → z i ∈ R i} = Set.pi univ fun i : Fin N => if (i : ℕ) < n then R i else univ := by
    ext z
    simp only [mem_ofPred_eq, Set.mem_pi, mem_univ, true_implies]
    refine forall_congr' fun i => ?_
    by_cases hi : (i : ℕ) < n <;> simp [hi]
  rw [e, measureReal_def, Measure.pi_pi, ENNReal.toReal_prod]
  have e2 : ∀ i : Fin N, ((γ) (if (i : ℕ) < n then R i else univ)).toReal = if (i : ℕ) < n then (γ).real (R i) else 1 := by
    intro i
    split
    · rfl
    · simp
  simp only [e2]
  rw [Fin.prod_univ_eq_prod_range (fun i => if i < n then (γ).real (R i) else 1) N, ← Finset.prod_filter]
  congr 1
  ext i
  simp only [Finset.mem_filter, Finset.mem_range]
  omega

end Verif
