import Verif.Props.EqNoiseLms
import Verif.Props.LeastSq

/-! # Mean of the LMS training on noisy records, and ridge regression (C113) -/

open MeasureTheory ProbabilityTheory

namespace Verif
open Spec

/-- taps after `k` passes, each on a record with fresh noise; empty if a pass raises -/
noncomputable def freshTaps (x d levels : List ℝ) (mu snr : ℝ) (t0 : List ℝ) : (k : ℕ) → (Fin k → Fin x.length → ℝ) → List ℝ
  | 0, _ => t0
  | k + 1, w =>
    match awgn (List.ofFn (w (Fin.last k))) x snr with
    | none => []
    | some y =>
      match lmsFfePass 0 y d levels mu (freshTaps x d levels mu snr t0 k fun i => w i.castSucc) with
      | .ok r => r.2
      | .error _ => []

/-- **C113.** LMS training, each pass on the same symbols in fresh noise. The taps in the mean over the noise approach, by
a fixed factor per pass, the taps of least mean squared error on the noisy record (the Wiener solution), which are not those
of least error on the record itself. -/
theorem C113_mean_training (x d levels t0 : List ℝ) (mu snr A : ℝ) (hmu : 0 < mu) (ht : 1 ≤ t0.length) (htN : t0.length ≤ x.length)
    (hx : 2 ≤ x.length) (hd : d.length = x.length) (hlv : levels ≠ []) (hA : ∀ u ∈ x, |u| ≤ A) :
    ∃ s v, awgnStd x snr = some s ∧ v.length = t0.length ∧
      (∀ u : List ℝ, u.length = v.length → noisyMse x d v s ≤ noisyMse x d u s ∧
        (0 < s → noisyMse x d u s = noisyMse x d v s → u = v)) ∧
      ((∃ u ∈ x, u ≠ 0) → 0 < s) ∧
      ∀ K, (∀ w, (freshTaps x d levels mu snr t0 K w).length = t0.length) ∧
        (∀ i < t0.length, Integrable (fun w => (freshTaps x d levels mu snr t0 K w).getD i 0)
          (Measure.pi fun _ : Fin K => normalDraws x.length)) ∧
        (mu * (t0.length * (A ^ 2 + s ^ 2)) ≤ 2 →
        ∑ i ∈ Finset.range t0.length, ((x.length - i : ℕ) : ℝ)
            * (∫ w, (freshTaps x d levels mu snr t0 K w).getD i 0 ∂(Measure.pi fun _ : Fin K => normalDraws x.length) - v.getD i 0) ^ 2
          ≤ (∑ i ∈ Finset.range t0.length, ((x.length - i : ℕ) : ℝ) * (t0.getD i 0 - v.getD i 0) ^ 2) / (1 + mu * s ^ 2 / 2) ^ K) := by
  obtain ⟨s, hs1, hs0, hs2, h⟩ := noisy_ffe x t0 snr hx ht
  choose y o h1 h2 h3 h4 h5 h6 using h
  obtain ⟨v, hv1, hv2⟩ := wiener_exists x d t0.length s
  have hx0 : 0 < x.length := by omega
  have hp : ∀ z (t : List ℝ), t.length = t0.length → ∃ l t', lmsFfePass 0 (y z) d levels mu t = .ok (l, t') ∧ t'.length = t0.length ∧
      ∀ i < t0.length, t'.getD i 0 = lmsTap 0 (y z) d t mu i := by
    intro z t htl
    obtain ⟨t', f1, f2, f3⟩ := pass_explicit 0 (y z) d levels t mu (by omega) (by rw [h2 z]; omega) (by rw [h2 z]; exact hd) hlv
    exact ⟨_, t', f1, by omega, fun i hi => f3 i (by omega)⟩
  -- one more pass
  have hstep : ∀ k (w : Fin (k + 1) → Fin x.length → ℝ), (freshTaps x d levels mu snr t0 k fun i => w i.castSucc).length = t0.length →
      (freshTaps x d levels mu snr t0 (k + 1) w).length = t0.length ∧ ∀ i < t0.length,
        (freshTaps x d levels mu snr t0 (k + 1) w).getD i 0
          = lmsTap 0 (y (w (Fin.last k))) d (freshTaps x d levels mu snr t0 k fun i => w i.castSucc) mu i := by
    intro k w hl
    obtain ⟨l, t', f1, f2, f3⟩ := hp (w (Fin.last k)) _ hl
    have e : freshTaps x d levels mu snr t0 (k + 1) w = t' := by
      rw [freshTaps]
      simp only [h1, f1]
    rw [e]
    exact ⟨f2, f3⟩
  have hlen : ∀ k (w : Fin k → Fin x.length → ℝ), (freshTaps x d levels mu snr t0 k w).length = t0.length := by
    intro k
    induction k with
    | zero => intro w; rfl
    | succ k ih => intro w; exact (hstep k w (ih _)).1
  have hgrip := fun i hi => grip_integrable x d t0.length mu s htN y h2 h3 i hi
  have hform : ∀ k i, i < t0.length → (fun w : Fin (k + 1) → Fin x.length → ℝ => (freshTaps x d levels mu snr t0 (k + 1) w).getD i 0)
      = fun w => ∑ j ∈ Finset.range t0.length, (freshTaps x d levels mu snr t0 k fun i => w i.castSucc).getD j 0
          * tapGrip (y (w (Fin.last k))) mu i j + tapDrive (y (w (Fin.last k))) d mu i := by
    intro k i hi
    funext w
    rw [(hstep k w (hlen k _)).2 i hi, lmsTap_affine _ _ _ _ _ (by rw [hlen]; exact hi), hlen]
  have hint : ∀ k, ∀ i < t0.length, Integrable (fun w => (freshTaps x d levels mu snr t0 k w).getD i 0)
      (Measure.pi fun _ : Fin k => normalDraws x.length) := by
    intro k
    induction k with
    | zero => intro i _; exact integrable_const (t0.getD i 0)
    | succ k ih =>
      intro i hi
      rw [hform k i hi]
      exact (fresh_pass (normalDraws x.length) k t0.length (fun j w => (freshTaps x d levels mu snr t0 k w).getD j 0)
        (fun j z => tapGrip (y z) mu i j) (fun z => tapDrive (y z) d mu i) ih (hgrip i hi).2 (hgrip i hi).1).1
  obtain ⟨m, hm⟩ : ∃ m : ℕ → List ℝ, m = fun k => List.ofFn fun i : Fin t0.length => ∫ w, (freshTaps x d levels mu snr t0 k w).getD i 0
      ∂(Measure.pi fun _ : Fin k => normalDraws x.length) := ⟨_, rfl⟩
  have hml : ∀ k, (m k).length = t0.length := fun k => by rw [hm]; simp
  have hmg : ∀ k i, i < t0.length → (m k).getD i 0 = ∫ w, (freshTaps x d levels mu snr t0 k w).getD i 0
      ∂(Measure.pi fun _ : Fin k => normalDraws x.length) := by
    intro k i hi
    rw [hm]
    exact ofFn_getD' _ (⟨i, hi⟩ : Fin t0.length)
  have hrec : ∀ k, ∀ i < t0.length, (m (k + 1)).getD i 0 = lmsTap 0 x d (m k) mu i - mu * s ^ 2 / 2 * (m k).getD i 0 := by
    intro k i hi
    rw [hmg (k + 1) i hi, hform k i hi]
    rw [(fresh_pass (normalDraws x.length) k t0.length (fun j w => (freshTaps x d levels mu snr t0 k w).getD j 0)
        (fun j z => tapGrip (y z) mu i j) (fun z => tapDrive (y z) d mu i) (hint k) (hgrip i hi).2 (hgrip i hi).1).2]
    rw [← (lmsTap_mean 0 x d (m k) mu s i (by rw [hml]; exact hi) (by rw [hml]; omega) y h2 h3).2]
    congr 1
    funext z
    rw [lmsTap_affine _ _ _ _ _ (by rw [hml]; exact hi), hml]
    congr 1
    refine Finset.sum_congr rfl fun j hj => ?_
    rw [hmg k j (Finset.mem_range.1 hj)]
  have hv2' : ∀ c < v.length, ∑ n ∈ Finset.range x.length, (tapOut x v n - d.getD n 0) * pastSample x n c
      + s ^ 2 * (x.length - c : ℕ) * v.getD c 0 = 0 := fun c hc => hv2 c (by omega)
  refine ⟨s, v, hs1, hv1, fun u hu => ?_, hs2, fun K => ⟨hlen K, hint K, fun hst => ?_⟩⟩
  · have hex := noisyMse_excess x d v u s hx0 hu hv2'
    have hN : (0 : ℝ) < x.length := by exact_mod_cast hx0
    have p1 := Finset.sum_nonneg fun n (_ : n ∈ Finset.range x.length) => sq_nonneg (tapOut x u n - tapOut x v n)
    have p2 := Finset.sum_nonneg fun c (_ : c ∈ Finset.range u.length) =>
      mul_nonneg (Nat.cast_nonneg (α := ℝ) (x.length - c)) (sq_nonneg (u.getD c 0 - v.getD c 0))
    refine ⟨?_, fun hs heq => ?_⟩
    · have : 0 ≤ s ^ 2 * ∑ c ∈ Finset.range u.length, ((x.length - c : ℕ) : ℝ) * (u.getD c 0 - v.getD c 0) ^ 2 := by positivity
      exact le_of_mul_le_mul_left (by linarith) hN
    · rw [heq] at hex
      have hs2 : 0 < s ^ 2 := by positivity
      have z2 : ∑ c ∈ Finset.range u.length, ((x.length - c : ℕ) : ℝ) * (u.getD c 0 - v.getD c 0) ^ 2 = 0 := by
        refine le_antisymm ?_ p2
        by_contra hc
        push Not at hc
        have := mul_pos hs2 hc
        linarith
      refine ext_getD 0 hu fun c hc => ?_
      have := (Finset.sum_eq_zero_iff_of_nonneg fun c (_ : c ∈ Finset.range u.length) =>
        mul_nonneg (Nat.cast_nonneg (α := ℝ) (x.length - c)) (sq_nonneg (u.getD c 0 - v.getD c 0))).1 z2 c (Finset.mem_range.2 hc)
      have hp : (0 : ℝ) < (x.length - c : ℕ) := by rw [Nat.cast_pos]; omega
      have := (mul_eq_zero.1 this).resolve_left hp.ne'
      exact sub_eq_zero.1 (pow_eq_zero_iff (two_ne_zero) |>.1 this)
  · have hg := leaky_geometric x d v s mu A hmu (by omega) hx0 hA (by rw [hv1]; exact hst) hv2' m (fun k => by rw [hml, hv1])
      (fun k i hi => hrec k i (by omega)) K
    rw [hv1] at hg
    have e0 : ∀ i < t0.length, (m 0).getD i 0 = t0.getD i 0 := by
      intro i hi
      rw [hmg 0 i hi]
      simp [freshTaps]
    rw [Finset.sum_congr rfl fun i hi => by rw [hmg K i (Finset.mem_range.1 hi)]] at hg
    have e1 : ∑ i ∈ Finset.range t0.length, ((x.length - i : ℕ) : ℝ) * ((m 0).getD i 0 - v.getD i 0) ^ 2
        = ∑ i ∈ Finset.range t0.length, ((x.length - i : ℕ) : ℝ) * (t0.getD i 0 - v.getD i 0) ^ 2 :=
      Finset.sum_congr rfl fun i hi => by rw [e0 i (Finset.mem_range.1 hi)]
    rw [e1] at hg
    exact hg

/-- loss of one pass on a record with the noise `z`, zero if the pass raises -/
noncomputable def noisyLoss (skip : ℕ) (x d levels : List ℝ) (mu snr : ℝ) (t : List ℝ) (z : Fin x.length → ℝ) : ℝ :=
  match awgn (List.ofFn z) x snr with
  | none => 0
  | some y =>
    match lmsFfePass skip y d levels mu t with
    | .ok (some l, _) => l
    | _ => 0

/-- **C113.** The taps of least mean loss in noise are what `ridge_regression_manual` returns for the record without noise,
with as regularization the noise power times the number of samples: the ridge parameter is the noise. -/
theorem C113_ridge (skip L : ℕ) (x d levels : List ℝ) (mu snr : ℝ) (hL : 1 ≤ L) (hs : L ≤ skip + 1) (hsx : skip + L ≤ x.length)
    (hx : ∃ v ∈ x, v ≠ 0) (hx2 : 2 ≤ x.length) (hd : d.length = x.length - skip) (hlv : levels ≠ []) :
    ∃ s w r, awgnStd x snr = some s ∧ 0 < s ∧
      ridgeManual (Matrix.of fun (i : Fin (x.length - skip)) (j : Fin L) => x.getD (skip + i - j) 0) (fun i => d.getD i 0)
        ((x.length - skip : ℕ) * s ^ 2) = .ok (w, r) ∧
      ∀ t : Fin L → ℝ, Integrable (noisyLoss skip x d levels mu snr (List.ofFn t)) (normalDraws x.length) ∧ (t ≠ w →
        ∫ z, noisyLoss skip x d levels mu snr (List.ofFn w) z ∂normalDraws x.length
          < ∫ z, noisyLoss skip x d levels mu snr (List.ofFn t) z ∂normalDraws x.length) := by
  obtain ⟨s, hs1, hs0, hs2, -⟩ := noisy_ffe x [1] snr hx2 (by simp)
  have hsp := hs2 hx
  have hN : (0 : ℝ) < (x.length - skip : ℕ) := by rw [Nat.cast_pos]; omega
  obtain ⟨w, r, hr, hmin, -⟩ := C60_ridge (Matrix.of fun (i : Fin (x.length - skip)) (j : Fin L) => x.getD (skip + i - j) 0)
    (fun i => d.getD i 0) ((x.length - skip : ℕ) * s ^ 2) (by positivity)
  have hval : ∀ t : Fin L → ℝ, Integrable (noisyLoss skip x d levels mu snr (List.ofFn t)) (normalDraws x.length) ∧
      ∫ z, noisyLoss skip x d levels mu snr (List.ofFn t) z ∂normalDraws x.length
        = ridgeCost (Matrix.of fun (i : Fin (x.length - skip)) (j : Fin L) => x.getD (skip + i - j) 0) (fun i => d.getD i 0)
          ((x.length - skip : ℕ) * s ^ 2) t / (x.length - skip : ℕ) := by
    intro t
    obtain ⟨s', l0, t0, e1, e2, -, l, t', f1, f2, f3, -⟩ := C113_pass skip x d levels (List.ofFn t) mu snr (by simpa using hL)
      (by simpa using hsx) hx2 hd hlv
    rw [hs1] at e1
    obtain rfl := Option.some.inj e1
    have el : noisyLoss skip x d levels mu snr (List.ofFn t) = l := by
      funext z
      obtain ⟨y, g1, g2, -⟩ := f1 z
      unfold noisyLoss
      simp only [g1, g2]
    rw [el]
    refine ⟨f2, ?_⟩
    rw [f3]
    obtain ⟨t1, p1, -, -⟩ := pass_explicit skip x d levels (List.ofFn t) mu (by simpa using hL) (by simpa using hsx) hd hlv
    rw [e2] at p1
    have hl0 := congrArg Prod.fst (Except.ok.inj p1)
    have hl0' := Option.some.inj hl0
    rw [hl0', ← add_div]
    congr 1
    unfold ridgeCost
    have eo : ∀ i : Fin (x.length - skip), tapOut x (List.ofFn t) (skip + i) = ∑ j : Fin L, x.getD (skip + i - j) 0 * t j := by
      intro i
      unfold tapOut
      rw [List.length_ofFn, ← Fin.sum_univ_eq_sum_range (fun k => (List.ofFn t).getD k 0 * pastSample x (skip + i) k)]
      refine Finset.sum_congr rfl fun j _ => ?_
      rw [ofFn_getD', pastSample, if_pos (by omega), mul_comm]
    have eg : ∀ n, skip ≤ n → tapGain (List.ofFn t) n = ∑ j, t j ^ 2 := by
      intro n hn
      unfold tapGain
      rw [List.length_ofFn, ← Fin.sum_univ_eq_sum_range (fun k => if k ≤ n then (List.ofFn t).getD k 0 ^ 2 else 0)]
      refine Finset.sum_congr rfl fun j _ => ?_
      rw [ofFn_getD', if_pos (by omega)]
    rw [Finset.sum_congr rfl fun n hn => eg n (Finset.mem_Ico.1 hn).1, Finset.sum_const, Nat.card_Ico, nsmul_eq_mul]
    congr 1
    · rw [Finset.sum_Ico_eq_sum_range, ← Fin.sum_univ_eq_sum_range
        (fun i => (tapOut x (List.ofFn t) (skip + i) - d.getD (skip + i - skip) 0) ^ 2)]
      refine Finset.sum_congr rfl fun i _ => ?_
      rw [eo i, Nat.add_sub_cancel_left]
      rfl
    · ring
  refine ⟨s, w, r, hs1, hsp, hr, fun t => ⟨(hval t).1, fun htw => ?_⟩⟩
  rw [(hval w).2, (hval t).2]
  exact div_lt_div_of_pos_right (hmin t htw) hN

/-- three symbols at 0 dB, one tap, learning rate 1/2: the noise power is 13/9 and the mean tap approaches the best one by
the factor 1 + 13/36 per pass -/
example : ∃ v : List ℝ, v.length = 1 ∧ ∀ K, ∑ i ∈ Finset.range 1, ((3 - i : ℕ) : ℝ)
      * (∫ w, (freshTaps [1, -1, 1] [1, -1, 1] [-1, 1] (1 / 2) 0 [1] K w).getD i 0 ∂(Measure.pi fun _ : Fin K => normalDraws 3)
        - v.getD i 0) ^ 2
    ≤ (∑ i ∈ Finset.range 1, ((3 - i : ℕ) : ℝ) * (([1] : List ℝ).getD i 0 - v.getD i 0) ^ 2) / (1 + 1 / 2 * (13 / 9) / 2) ^ K := by
  obtain ⟨s, v, h1, h2, -, -, h3⟩ := C113_mean_training [1, -1, 1] [1, -1, 1] [-1, 1] [1] (1 / 2) 0 1 (by norm_num) (by simp) (by simp)
    (by simp) rfl (by simp) (by simp)
  have hs : s ^ 2 = 13 / 9 := by
    rw [awgnStd, sigPowerHat, if_neg (by simp)] at h1
    have := Option.some.inj h1
    rw [← this, Real.sq_sqrt (by norm_num)]
    norm_num
  refine ⟨v, h2, fun K => ?_⟩
  have := (h3 K).2.2 (by rw [hs]; norm_num)
  rw [hs] at this
  exact this

/-- five symbols, two taps, the first sample skipped: the record meets the conditions of `C113_pass` and `C113_ridge` -/
example (snr : ℝ) : ∃ s w r, awgnStd [1, -1, 1, 1, 1 / 2] snr = some s ∧ 0 < s ∧
    ridgeManual (Matrix.of fun (i : Fin 4) (j : Fin 2) => ([1, -1, 1, 1, 1 / 2] : List ℝ).getD (1 + i - j) 0)
      (fun i => ([-1, 1, 1, 1] : List ℝ).getD i 0) ((4 : ℕ) * s ^ 2) = .ok (w, r) ∧
    ∀ t : Fin 2 → ℝ, t ≠ w → ∫ z, noisyLoss 1 [1, -1, 1, 1, 1 / 2] [-1, 1, 1, 1] [-1, 1] (1 / 10) snr (List.ofFn w) z ∂normalDraws 5
      < ∫ z, noisyLoss 1 [1, -1, 1, 1, 1 / 2] [-1, 1, 1, 1] [-1, 1] (1 / 10) snr (List.ofFn t) z ∂normalDraws 5 := by
  obtain ⟨s, w, r, h1, h2, h3, h4⟩ := C113_ridge 1 2 [1, -1, 1, 1, 1 / 2] [-1, 1, 1, 1] [-1, 1] (1 / 10) snr (by simp) (by simp)
    (by simp) ⟨1, by simp, by norm_num⟩ (by simp) (by simp) (by simp)
  exact ⟨s, w, r, h1, h2, h3, fun t ht => (h4 t).2 ht⟩

end Verif
