import Verif.Lemmas.ChanNoise
import Verif.Props.EstimPrbs
import Verif.Props.LeastSqNoise

/-!
# Channel estimation from a PRBS in Gaussian noise (C117)

The captured NRZ record goes through `awgn`; the samples behind `numpy.random.normal` are independent standard normal.
-/

open MeasureTheory ProbabilityTheory

namespace Verif
open Spec

/-- the PRBS as NRZ levels, repeated with its period -/
noncomputable def nrzRef (p : PrbsEnum) (fs bi pnPre gray : Bool) (b : ℕ → ℤ) : ℤ → ℝ :=
  periodic (2 ^ p.value - 1) (txLevel .nrz fs bi pnPre gray false b)

/-- only the phase `φ` correlates best with the first two periods of the record -/
def RightPhase (N : ℕ) (x : ℤ → ℝ) (y : List ℝ) (φ : ℤ) : Prop :=
  ∀ ph : ℤ, BestPhase x (fun t => y.getD t 0) (2 * N) ph → (N : ℤ) ∣ ph - φ

/-- variance of the average over the complete periods of length `N` -/
noncomputable def avgVar (N : ℕ) (y : List ℝ) : ℝ := popVar N (periodAvg N (y.length / N) (fun t => y.getD t 0))

/-- variance of a tap: `(N + 2 - W) / (reps (N + 1) (N + 1 - W))` -/
noncomputable def tapVar (N W reps : ℕ) : ℝ := ((N : ℝ) + 2 - W) / (reps * ((N : ℝ) + 1) * ((N : ℝ) + 1 - W))

/-- **C117.** Noise on a capture of the PRBS through an FIR channel of `W` taps: whenever the noisy record still locks at the right
phase, the estimated taps times the variance of the averaged record are `h` plus errors which are normally distributed with mean zero
and variance `s² (N + 2 - W) / (reps (N + 1) (N + 1 - W))`. With `normalize` they are divided by the largest instead. -/
theorem C117_taps (ls : Solver ℝ) (p : PrbsEnum) (fs bi pnPre gray pnPost : Bool) (b : ℕ → ℤ)
    (hb : LfsrStream (getPolynomial p) (List.replicate p.value 1) b) (h : List ℝ) (post pre : ℕ) (hl : h.length = post + pre + 1)
    (hW : post + pre + 1 ≤ 2 ^ p.value - 1) (φ : ℤ) (signal : List ℝ) (hlen : 2 * (2 ^ p.value - 1) ≤ signal.length)
    (hs : ∀ t < signal.length, signal.getD t 0 = chanOut h pre (nrzRef p fs bi pnPre gray b) (t + φ)) (hnz : ∃ v ∈ signal, v ≠ 0)
    (hls : IsLs (solveWith ls .none 0) (post + pre + 1)) (snr : ℝ) :
    ∃ (s : ℝ) (D : ℕ → (Fin signal.length → ℝ) → ℝ), awgnStd signal snr = some s ∧ 0 < s ∧
      (∀ k < post + pre + 1, (normalDraws signal.length).map (D k)
        = gaussianReal 0 (s ^ 2 * tapVar (2 ^ p.value - 1) (post + pre + 1) (signal.length / (2 ^ p.value - 1))).toNNReal) ∧
      ∀ z, ∃ y, awgn (List.ofFn z) signal snr = some y ∧
        (RightPhase (2 ^ p.value - 1) (nrzRef p fs bi pnPre gray b) y φ → 0 < avgVar (2 ^ p.value - 1) y →
          ∃ t : List ℝ, t.length = post + pre + 1 ∧ (∀ k < post + pre + 1, t.getD k 0 = h.getD k 0 + D k z) ∧
            (∃ e, channelEstimationPrbs ls p y .nrz fs post pre false bi pnPre gray pnPost
              = .ok (some (t.map (· / avgVar (2 ^ p.value - 1) y), e))) ∧
            ∃ g e, g ∈ t ∧ (∀ v ∈ t, v ≤ g) ∧ channelEstimationPrbs ls p y .nrz fs post pre true bi pnPre gray pnPost
              = .ok (some (t.map (· / g), e))) := by
  have hb' := lfsrStream_unique hb (lfsrStream_bitAt _ _ (by rw [poly_length]; simp))
  obtain ⟨N, hN⟩ : ∃ N, N = 2 ^ p.value - 1 := ⟨_, rfl⟩
  obtain ⟨W, hWd⟩ : ∃ W, W = post + pre + 1 := ⟨_, rfl⟩
  obtain ⟨x, hx⟩ : ∃ x, x = nrzRef p fs bi pnPre gray b := ⟨_, rfl⟩
  obtain ⟨q, hq⟩ : ∃ q, q = signal.length / N := ⟨_, rfl⟩
  have hN1 : 127 ≤ N := by rw [hN]; exact period_ge p
  obtain ⟨s, hs1, hs0, hy⟩ := noisy_record signal snr (by omega) hnz
  have hq0 : 0 < q := by rw [hq]; exact Nat.div_pos (by omega) (by omega)
  have hqn : q * N ≤ signal.length := by rw [hq]; exact Nat.div_mul_le_self _ _
  -- columns of the system
  obtain ⟨X, hX⟩ : ∃ X : Matrix (Fin N) (Fin W) ℝ, ∀ t k, X t k = x ((t : ℕ) + (φ + pre - (k : ℕ))) := ⟨fun t k => _, fun _ _ => rfl⟩
  have hG : ∀ j k, ∑ t, X t j * X t k = if j = k then (N : ℝ) else -1 := by
    intro j k
    simp only [hX]
    rw [Fin.sum_univ_eq_sum_range (fun t : ℕ => x ((t : ℤ) + (φ + pre - ((j : ℕ) : ℤ))) * x ((t : ℤ) + (φ + pre - ((k : ℕ) : ℤ)))) N]
    have hc := nrz_corr p fs bi pnPre gray (φ + pre - ((j : ℕ) : ℤ)) (φ + pre - ((k : ℕ) : ℤ))
    rw [hx, nrzRef, hb', hN]
    refine hc.trans ?_
    have hiff : (((φ + pre - ((j : ℕ) : ℤ) : ℤ)) : ZMod (2 ^ p.value - 1)) = (((φ + pre - ((k : ℕ) : ℤ) : ℤ)) : ZMod (2 ^ p.value - 1)) ↔ j = k := by
      constructor
      · intro he
        push_cast at he
        have he2 : ((j : ℕ) : ZMod (2 ^ p.value - 1)) = ((k : ℕ) : ZMod (2 ^ p.value - 1)) := by linear_combination -he
        rw [ZMod.natCast_eq_natCast_iff', Nat.mod_eq_of_lt (by have := j.2; omega), Nat.mod_eq_of_lt (by have := k.2; omega)] at he2
        exact Fin.ext he2
      · rintro rfl; rfl
    by_cases hjk : j = k
    · rw [if_pos hjk, if_pos (hiff.2 hjk)]
    · rw [if_neg hjk, if_neg (fun h => hjk (hiff.1 h))]
  have hWN : W ≤ N := by omega
  -- weights of the draws
  obtain ⟨c, hc⟩ : ∃ c : ℕ → ℕ → ℝ, c = fun k t => if hk : k < W then (if ht : t < N then lsWeight X ⟨k, hk⟩ ⟨t, ht⟩ else 0) else 0 := ⟨_, rfl⟩
  have hcw : ∀ (k : Fin W) (t : Fin N), c k t = lsWeight X k t := by
    intro k t
    rw [hc]
    simp only
    rw [dif_pos k.2, dif_pos t.2]
  obtain ⟨D, hD⟩ : ∃ D : ℕ → (Fin signal.length → ℝ) → ℝ, D = fun k z => ∑ i : Fin signal.length, (s * periodWeight N q (c k) i) * z i := ⟨_, rfl⟩
  refine ⟨s, D, hs1, hs0, fun k hk => ?_, fun z => ?_⟩
  · rw [hD]
    simp only
    rw [linear_law, ← hN, ← hWd, ← hq]
    congr 2
    rw [Fin.sum_univ_eq_sum_range (fun i => (s * periodWeight N q (c k) i) ^ 2) signal.length]
    simp only [mul_pow, ← Finset.mul_sum]
    rw [periodWeight_sq N q _ hq0 hqn]
    congr 1
    have e : ∑ t ∈ Finset.range N, c k t ^ 2 = ∑ t : Fin N, lsWeight X ⟨k, by omega⟩ t ^ 2 := by
      rw [← Fin.sum_univ_eq_sum_range (fun t => c k t ^ 2) N]
      exact Finset.sum_congr rfl fun t _ => by rw [← hcw]
    rw [e, two_weight X hG hWN, tapVar]
    have a1 : (q : ℝ) ≠ 0 := by exact_mod_cast hq0.ne'
    have a2 : (N : ℝ) + 1 - W ≠ 0 := by
      have : (W : ℝ) ≤ N := by exact_mod_cast hWN
      linarith
    have a3 : (N : ℝ) + 1 ≠ 0 := by positivity
    field_simp
  · obtain ⟨y, hy1, hy2, hy3⟩ := hy z
    refine ⟨y, hy1, fun hph hv => ?_⟩
    have hy2' : y.length / N = q := by rw [hy2, hq]
    have hyq : q = y.length / N := hy2'.symm
    obtain ⟨v, hvd⟩ : ∃ v, v = avgVar (2 ^ p.value - 1) y := ⟨_, rfl⟩
    rw [← hvd] at hv ⊢
    obtain ⟨m, hm⟩ : ∃ m, m = periodAvg N q (fun t => y.getD t 0) := ⟨_, rfl⟩
    have hvm : v = popVar N m := by rw [hvd, avgVar, hm, ← hN, hy2']
    -- the averaged record
    obtain ⟨u, hu⟩ : ∃ u : ℕ → ℝ, u = fun i => if hi : i < signal.length then z ⟨i, hi⟩ else 0 := ⟨_, rfl⟩
    have hzu : ∀ i : Fin signal.length, z i = u i := fun i => by rw [hu]; simp only; rw [dif_pos i.2]
    have hper : ∀ (t : ℤ) (r : ℕ), x (t + r * (N : ℕ)) = x t := by
      intro t r
      rw [hx, nrzRef, hb', hN, refZ_int, refZ_int]
      congr 1
      push_cast [ZMod.natCast_self]
      rw [mul_zero, add_zero]
    have hmt : ∀ t : Fin N, m t = ∑ k : Fin W, X t k * h.getD k 0 + s * periodAvg N q u t := by
      intro t
      have hyt : ∀ r ∈ Finset.range q, y.getD (r * N + t) 0 = ∑ k : Fin W, X t k * h.getD k 0 + s * u (r * N + t) := by
        intro r hr
        have hrt : r * N + (t : ℕ) < signal.length := by
          have h1 := Finset.mem_range.1 hr
          calc r * N + (t : ℕ) < r * N + N := by have := t.2; omega
            _ = (r + 1) * N := by ring
            _ ≤ q * N := Nat.mul_le_mul_right _ (by omega)
            _ ≤ _ := hqn
        have h1 := hy3 ⟨r * N + t, hrt⟩
        rw [hzu] at h1
        simp only at h1
        rw [h1, hs _ hrt, ← hx]
        congr 1
        rw [chanOut, hl, ← hWd, ← Fin.sum_univ_eq_sum_range (fun k => h.getD k 0 * x (((r * N + (t : ℕ) : ℕ) : ℤ) + φ + pre - k)) W]
        refine Finset.sum_congr rfl fun k _ => ?_
        rw [hX, ← hper (((t : ℕ) : ℤ) + (φ + pre - ((k : ℕ) : ℤ))) r, mul_comm]
        congr 2
        push_cast
        ring
      rw [hm, periodAvg, Finset.sum_congr rfl hyt, Finset.sum_add_distrib, Finset.sum_const, Finset.card_range, nsmul_eq_mul, periodAvg,
        ← Finset.mul_sum]
      have a1 : (q : ℝ) ≠ 0 := by exact_mod_cast hq0.ne'
      field_simp
    have hDz : ∀ k : Fin W, D k z = ∑ t : Fin N, lsWeight X k t * (s * periodAvg N q u t) := by
      intro k
      rw [hD]
      simp only [hzu]
      rw [Fin.sum_univ_eq_sum_range (fun i => (s * periodWeight N q (c k) i) * u i) signal.length]
      have e1 : ∑ i ∈ Finset.range signal.length, (s * periodWeight N q (c k) i) * u i
          = s * ∑ i ∈ Finset.range signal.length, periodWeight N q (c k) i * u i := by
        rw [Finset.mul_sum]; exact Finset.sum_congr rfl fun i _ => by ring
      rw [e1, periodWeight_sum N q _ hqn, Finset.mul_sum, ← Fin.sum_univ_eq_sum_range (fun t => s * (c k t * periodAvg N q u t)) N]
      refine Finset.sum_congr rfl fun t _ => ?_
      rw [hcw]; ring
    have hsol : ∀ k : Fin W, ∑ t : Fin N, lsWeight X k t * m t = h.getD k 0 + D k z := by
      intro k
      simp only [hmt, mul_add, Finset.sum_add_distrib]
      rw [two_recover X hG hWN (fun j => h.getD j 0) k, hDz]
    -- what the code returns
    have hopt := fun nrm => C68_optimal ls p .nrz (by decide) fs bi pnPre gray pnPost nrm b hb post pre hW y (by rw [hy2]; omega) hls
      (by rw [← hN, ← hyq, ← hm, ← hvm]; exact hv)
    have huniq : ∀ nrm, ∃ (e : List ℝ) (w : List ℝ), w.length = W ∧ (∀ k : Fin W, w.getD k 0 = (h.getD k 0 + D k z) / v) ∧
        ∃ g, g ∈ w ∧ (∀ v ∈ w, v ≤ g) ∧ channelEstimationPrbs ls p y .nrz fs post pre nrm bi pnPre gray pnPost
          = .ok (some (if nrm then w.map (· / g) else w, e)) := by
      intro nrm
      obtain ⟨ph, w, e, k1, k2, k3, g, k4, k5, k6⟩ := hopt nrm
      refine ⟨e, w, by omega, ?_, g, k4, k5, k6⟩
      rw [← hN, ← hyq, ← hm, ← hvm, ← hWd] at k3
      have hph' := hph ph (by
        have e2 : min ((if Constellation.nrz = Constellation.pam4 then 1 else 2) * (2 ^ p.value - 1)) y.length = 2 * (2 ^ p.value - 1) := by
          rw [if_neg (by decide), hy2]; omega
        rw [e2] at k1
        exact k1)
      have hxph : ∀ t : ℤ, x (t + ph) = x (t + φ) := by
        intro t
        rw [hx, nrzRef, hb', refZ_int, refZ_int]
        congr 1
        obtain ⟨j, hj⟩ := hph'
        rw [show ph = φ + ((2 ^ p.value - 1 : ℕ) : ℤ) * j by omega]
        push_cast [ZMod.natCast_self]
        ring
      have hcost : ∀ w' : List ℝ, w'.length = W →
          ∑ t ∈ Finset.range N, (chanOut w' pre (fun s => x (s + ph)) t - m t / v) ^ 2
            = ridgeCost X (fun t : Fin N => m t / v) 0 (fun k : Fin W => w'.getD k 0) := by
        intro w' hw'
        unfold ridgeCost
        rw [zero_mul, add_zero, ← Fin.sum_univ_eq_sum_range (fun t : ℕ => (chanOut w' pre (fun s => x (s + ph)) t - m t / v) ^ 2) N]
        refine Finset.sum_congr rfl fun t _ => ?_
        congr 2
        rw [chanOut, hw', ← Fin.sum_univ_eq_sum_range (fun k => w'.getD k 0 * x (((t : ℕ) : ℤ) + pre - k + ph)) W]
        refine Finset.sum_congr rfl fun k _ => ?_
        rw [hxph, hX, mul_comm]
        congr 2
        ring
      have hmin := two_unique X hG hWN (fun t : Fin N => m t / v)
      have hwl : w.length = W := by omega
      have hfun : (fun k : Fin W => w.getD k 0) = fun k => ∑ t, lsWeight X k t * (m t / v) := by
        by_contra hne
        have a1 := hmin _ hne
        have a2 := k3 (List.ofFn fun k : Fin W => ∑ t : Fin N, lsWeight X k t * (m t / v)) (by simp)
        rw [show (periodic N (txLevel .nrz fs bi pnPre gray false b)) = x by rw [hx, nrzRef, hN]] at a2
        rw [hcost w hwl, hcost _ (by simp)] at a2
        have e3 : (fun k : Fin W => (List.ofFn fun k : Fin W => ∑ t : Fin N, lsWeight X k t * (m t / v)).getD k 0)
            = fun k => ∑ t : Fin N, lsWeight X k t * (m t / v) := by
          funext k
          simp
        rw [e3] at a2
        linarith
      intro k
      rw [show w.getD k 0 = (fun k : Fin W => w.getD k 0) k from rfl, hfun, ← hsol k, Finset.sum_div]
      exact Finset.sum_congr rfl fun t _ => by ring
    obtain ⟨t, ht⟩ : ∃ t : List ℝ, t = List.ofFn fun k : Fin W => h.getD k 0 + D k z := ⟨_, rfl⟩
    have htl : t.length = W := by rw [ht]; simp
    have htg : ∀ k : Fin W, t.getD k 0 = h.getD k 0 + D k z := by
      intro k; rw [ht]; simp
    have hw : ∀ w : List ℝ, w.length = W → (∀ k : Fin W, w.getD k 0 = (h.getD k 0 + D k z) / v) → w = t.map (· / v) := by
      intro w hwl hwk
      refine ext_getD 0 (by simp [hwl, htl]) fun k hk => ?_
      have h1 := hwk ⟨k, by omega⟩
      simp only at h1
      rw [h1, map_div_getD, htg ⟨k, by omega⟩]
    refine ⟨t, by omega, fun k hk => htg ⟨k, by omega⟩, ?_, ?_⟩
    · obtain ⟨e, w, a1, a2, g, -, -, a3⟩ := huniq false
      refine ⟨e, ?_⟩
      rw [a3, hw w a1 a2]
      rfl
    · obtain ⟨e, w, a1, a2, g, a4, a5, a3⟩ := huniq true
      obtain rfl := hw w a1 a2
      obtain ⟨g', hg', rfl⟩ := List.mem_map.1 a4
      refine ⟨g', e, hg', fun r hr => ?_, ?_⟩
      · exact (div_le_div_iff_of_pos_right hv).1 (a5 _ (List.mem_map.2 ⟨r, hr, rfl⟩))
      · rw [a3]
        simp only [if_true, List.map_map]
        congr 4
        funext r
        exact div_div_div_cancel_right₀ hv.ne' r g'

theorem linear_point {n : ℕ} (c : Fin n → ℝ) (τ : ℝ) (hτ : 0 < τ) (h : τ ^ 2 = ∑ i, c i ^ 2) (a : ℝ) :
    (normalDraws n).real {z | ∑ i, c i * z i = a} = 0 := by
  have : IsProbabilityMeasure (normalDraws n) := by unfold normalDraws; infer_instance
  obtain ⟨h1, h2, -⟩ := linear_tail c τ hτ h a
  have e : {z : Fin n → ℝ | a ≤ ∑ i, c i * z i} = {z | a < ∑ i, c i * z i} ∪ {z | ∑ i, c i * z i = a} := by
    ext z
    simp only [Set.mem_ofPred_eq, Set.mem_union]
    rw [le_iff_lt_or_eq, @eq_comm _ a]
  rw [e, measureReal_union (by
    rw [Set.disjoint_left]
    intro z k1 k2
    rw [Set.mem_ofPred_eq] at k1 k2
    linarith) (measurableSet_eq_fun (by fun_prop) measurable_const), h2] at h1
  linarith

/-- the noisy record does not lock at the right phase -/
def PhaseMisses (N : ℕ) (x : ℤ → ℝ) (signal : List ℝ) (φ : ℤ) (snr : ℝ) (noise : List ℝ) : Prop :=
  ∃ y, awgn noise signal snr = some y ∧ ¬ RightPhase N x y φ

/-- **C117.** If the main tap exceeds every other tap, and zero, by `δ`, then some other phase correlates as well with the noisy record
with at most the probability `(N - 1) Q(√(N + 1) δ / s)`. -/
theorem C117_phase (p : PrbsEnum) (fs bi pnPre gray : Bool) (b : ℕ → ℤ)
    (hb : LfsrStream (getPolynomial p) (List.replicate p.value 1) b) (h : List ℝ) (post pre : ℕ) (hl : h.length = post + pre + 1)
    (hW : post + pre + 1 ≤ 2 ^ p.value - 1) (δ : ℝ) (hδ : 0 < δ) (hmain : δ ≤ h.getD pre 0)
    (hgap : ∀ k < h.length, k ≠ pre → h.getD k 0 + δ ≤ h.getD pre 0)
    (φ : ℤ) (signal : List ℝ) (hlen : 2 * (2 ^ p.value - 1) ≤ signal.length)
    (hs : ∀ t < signal.length, signal.getD t 0 = chanOut h pre (nrzRef p fs bi pnPre gray b) (t + φ)) (snr : ℝ) :
    (∃ v ∈ signal, v ≠ 0) ∧ ∃ s, awgnStd signal snr = some s ∧ 0 < s ∧
      (normalDraws signal.length).real {z | PhaseMisses (2 ^ p.value - 1) (nrzRef p fs bi pnPre gray b) signal φ snr (List.ofFn z)}
        ≤ ((2 ^ p.value - 1 : ℕ) - 1 : ℝ) * qFunc (√((2 ^ p.value - 1 : ℕ) + 1 : ℝ) * δ / s) := by
  have hb' := lfsrStream_unique hb (lfsrStream_bitAt _ _ (by rw [poly_length]; simp))
  obtain ⟨N, hN⟩ : ∃ N, N = 2 ^ p.value - 1 := ⟨_, rfl⟩
  obtain ⟨x, hx⟩ : ∃ x, x = nrzRef p fs bi pnPre gray b := ⟨_, rfl⟩
  have hN1 : 127 ≤ N := by rw [hN]; exact period_ge p
  have hNp : (0 : ℝ) < (N : ℝ) + 1 := by positivity
  have hcorr : ∀ a c : ℤ, ∑ t ∈ Finset.range N, x (t + a) * x (t + c) = if (a : ZMod N) = (c : ZMod N) then (N : ℝ) else -1 := by
    intro a c
    have := nrz_corr p fs bi pnPre gray a c
    subst hN
    rw [hx, nrzRef, hb']
    exact this
  have hper : ∀ (t : ℤ) (r : ℤ), x (t + N * r) = x t := by
    intro t r
    subst hN
    rw [hx, nrzRef, hb', refZ_int, refZ_int]
    congr 1
    push_cast [ZMod.natCast_self]
    ring
  have hcorr2 : ∀ a c : ℤ, ∑ t ∈ Finset.range (2 * N), x (t + a) * x (t + c) = 2 * if (a : ZMod N) = (c : ZMod N) then (N : ℝ) else -1 := by
    intro a c
    rw [sum_periods N (fun t : ℕ => x (t + a) * x (t + c)) 2, ← hcorr, Finset.mul_sum]
    refine Finset.sum_congr rfl fun t _ => ?_
    have : ∀ (r : ℕ) (a : ℤ), x (((r * N + t : ℕ) : ℤ) + a) = x ((t : ℤ) + a) := by
      intro r a
      rw [← hper ((t : ℤ) + a) r]
      congr 1
      push_cast
      ring
    simp only [this]
    rw [Finset.sum_const, Finset.card_range, nsmul_eq_mul]
    norm_num
  have hxs : ∀ k : ℤ, ∑ t ∈ Finset.range (2 * N), x (t + k) * signal.getD t 0
      = 2 * (((N : ℝ) + 1) * tapZ N h pre ((k : ZMod N) - φ) - ∑ j ∈ Finset.range h.length, h.getD j 0) := by
    intro k
    have := nrz_chan_corr p fs bi pnPre gray h pre φ k 2
    subst hN
    rw [← hb'] at this
    rw [Finset.sum_congr rfl fun t ht => by rw [hs t (by have := Finset.mem_range.1 ht; omega)], hx]
    refine Eq.trans ?_ (this.trans (by push_cast; ring))
    rfl
  have htap : ∀ r : ZMod N, r ≠ 0 → tapZ N h pre r + δ ≤ tapZ N h pre 0 := by
    have : NeZero N := ⟨by omega⟩
    intro r hr
    rw [tapZ_zero h pre (by omega) (by omega)]
    by_cases hk : ∃ k < h.length, (pre : ZMod N) - k = r
    · obtain ⟨k, hk1, rfl⟩ := hk
      rw [tapZ_at h pre (by omega) k hk1]
      refine hgap k hk1 fun e => hr ?_
      rw [e, sub_self]
    · push Not at hk
      rw [tapZ_else h pre r hk, zero_add]
      exact hmain
  have hres : ∀ k : ℕ, k < N - 1 → ((k + 1 : ℕ) : ZMod N) ≠ 0 := by
    intro k hk he
    have := Nat.le_of_dvd (by omega) ((ZMod.natCast_eq_zero_iff _ _).1 he)
    omega
  have hnz : ∃ v ∈ signal, v ≠ 0 := by
    by_contra hc
    push Not at hc
    have h0 : ∀ t < signal.length, signal.getD t 0 = 0 := fun t ht => by
      rw [List.getD_eq_getElem _ _ ht]; exact hc _ (List.getElem_mem _)
    have h1 := hxs φ
    have h2 := hxs (φ + ((0 + 1 : ℕ) : ℤ))
    rw [Finset.sum_eq_zero fun t ht => by rw [h0 t (by have := Finset.mem_range.1 ht; omega), mul_zero]] at h1 h2
    have h3 := htap ((0 + 1 : ℕ) : ZMod N) (hres 0 (by omega))
    rw [sub_self] at h1
    rw [show ((φ + ((0 + 1 : ℕ) : ℤ) : ℤ) : ZMod N) - φ = ((0 + 1 : ℕ) : ZMod N) by push_cast; ring] at h2
    nlinarith
  obtain ⟨s, hs1, hs0, hy⟩ := noisy_record signal snr (by omega) hnz
  refine ⟨hnz, s, hs1, hs0, ?_⟩
  have : IsProbabilityMeasure (normalDraws signal.length) := by unfold normalDraws; infer_instance
  rw [← hN, ← hx]
  -- difference of the correlations
  obtain ⟨w, hw⟩ : ∃ w : ℕ → ℕ → ℝ, w = fun k i => s * if i < 2 * N then x (i + (φ + ((k + 1 : ℕ) : ℤ))) - x (i + φ) else 0 := ⟨_, rfl⟩
  have hw2 : ∀ k < N - 1, (2 * s * √((N : ℝ) + 1)) ^ 2 = ∑ i : Fin signal.length, w k i ^ 2 := by
    intro k hk
    rw [Fin.sum_univ_eq_sum_range (fun i => w k i ^ 2) signal.length, hw]
    simp only
    rw [← Finset.sum_subset (Finset.range_subset_range.2 (show 2 * N ≤ signal.length by omega)) (fun i _ hi => by
      rw [if_neg (by simpa using hi)]; ring)]
    have e1 : ∀ i ∈ Finset.range (2 * N), (s * if i < 2 * N then x (i + (φ + ((k + 1 : ℕ) : ℤ))) - x (i + φ) else 0) ^ 2
        = s ^ 2 * (x (i + (φ + ((k + 1 : ℕ) : ℤ))) * x (i + (φ + ((k + 1 : ℕ) : ℤ))) - 2 * (x (i + (φ + ((k + 1 : ℕ) : ℤ))) * x (i + φ)) + x (i + φ) * x (i + φ)) := by
      intro i hi
      rw [if_pos (Finset.mem_range.1 hi)]
      ring
    have hne : ((φ + ((k + 1 : ℕ) : ℤ) : ℤ) : ZMod N) ≠ (φ : ZMod N) := by
      intro he
      apply hres k hk
      have : ((φ + ((k + 1 : ℕ) : ℤ) : ℤ) : ZMod N) = (φ : ZMod N) + ((k + 1 : ℕ) : ZMod N) := by push_cast; ring
      rw [this] at he
      simpa using he
    rw [Finset.sum_congr rfl e1, ← Finset.mul_sum, Finset.sum_add_distrib, Finset.sum_sub_distrib, ← Finset.mul_sum, hcorr2, hcorr2, hcorr2,
      if_pos rfl, if_pos rfl, if_neg hne, mul_pow, Real.sq_sqrt hNp.le]
    ring
  have hsub : {z : Fin signal.length → ℝ | PhaseMisses N x signal φ snr (List.ofFn z)}
      ⊆ ⋃ k ∈ Finset.range (N - 1), {z | 2 * ((N : ℝ) + 1) * δ ≤ ∑ i : Fin signal.length, w k i * z i} := by
    intro z hz
    obtain ⟨y, hy1, hph⟩ := hz
    obtain ⟨y', k1, k2, k3⟩ := hy z
    rw [k1] at hy1
    obtain rfl := Option.some.inj hy1
    unfold RightPhase at hph
    push Not at hph
    obtain ⟨ph, hbest, hnd⟩ := hph
    have hN0 : (0 : ℤ) < N := by omega
    have hmod0 := Int.emod_nonneg (ph - φ) hN0.ne'
    have hmodl := Int.emod_lt_of_pos (ph - φ) hN0
    have hmodn : (ph - φ) % N ≠ 0 := fun h => hnd (Int.dvd_of_emod_eq_zero h)
    obtain ⟨k, hk⟩ : ∃ k : ℕ, ((k + 1 : ℕ) : ℤ) = (ph - φ) % N := ⟨((ph - φ) % N).toNat - 1, by omega⟩
    have hkN : k < N - 1 := by omega
    refine Set.mem_iUnion₂.2 ⟨k, Finset.mem_range.2 hkN, ?_⟩
    rw [Set.mem_ofPred_eq]
    have hxph : ∀ t : ℤ, x (t + ph) = x (t + (φ + ((k + 1 : ℕ) : ℤ))) := by
      intro t
      rw [← hper (t + (φ + ((k + 1 : ℕ) : ℤ))) ((ph - φ) / N), hk]
      congr 1
      have := Int.emod_add_mul_ediv (ph - φ) N
      linarith
    have h1 := hbest φ
    simp only [hxph] at h1
    obtain ⟨u, hu⟩ : ∃ u : ℕ → ℝ, u = fun i => if hi : i < signal.length then z ⟨i, hi⟩ else 0 := ⟨_, rfl⟩
    have hzu : ∀ i : Fin signal.length, z i = u i := fun i => by rw [hu]; simp only; rw [dif_pos i.2]
    have hyu : ∀ i ∈ Finset.range (2 * N), y'.getD i 0 = signal.getD i 0 + s * u i := by
      intro i hi
      have hi' := Finset.mem_range.1 hi
      have := k3 ⟨i, by omega⟩
      rw [hzu] at this
      exact this
    have hsplit : ∀ a : ℤ, ∑ i ∈ Finset.range (2 * N), x (i + a) * y'.getD i 0
        = ∑ i ∈ Finset.range (2 * N), x (i + a) * signal.getD i 0 + s * ∑ i ∈ Finset.range (2 * N), x (i + a) * u i := by
      intro a
      rw [Finset.mul_sum, ← Finset.sum_add_distrib]
      exact Finset.sum_congr rfl fun i hi => by rw [hyu i hi]; ring
    rw [hsplit, hsplit, hxs, hxs, sub_self] at h1
    have e4 : ∑ i : Fin signal.length, w k i * z i
        = s * ∑ i ∈ Finset.range (2 * N), x (i + (φ + ((k + 1 : ℕ) : ℤ))) * u i - s * ∑ i ∈ Finset.range (2 * N), x (i + φ) * u i := by
      rw [hw]
      simp only [hzu]
      rw [Fin.sum_univ_eq_sum_range (fun i : ℕ => (s * if i < 2 * N then x ((i : ℤ) + (φ + ((k + 1 : ℕ) : ℤ))) - x ((i : ℤ) + φ) else 0) * u i) signal.length,
        ← Finset.sum_subset (Finset.range_subset_range.2 (show 2 * N ≤ signal.length by omega)) (fun i _ hi => by
          rw [if_neg (by simpa using hi)]; ring), Finset.mul_sum, Finset.mul_sum, ← Finset.sum_sub_distrib]
      exact Finset.sum_congr rfl fun i hi => by rw [if_pos (Finset.mem_range.1 hi)]; ring
    rw [e4]
    have h3 := htap ((k + 1 : ℕ) : ZMod N) (hres k hkN)
    rw [show ((φ + ((k + 1 : ℕ) : ℤ) : ℤ) : ZMod N) - φ = ((k + 1 : ℕ) : ZMod N) by push_cast; ring] at h1
    have h4 := mul_le_mul_of_nonneg_left h3 hNp.le
    linarith
  refine (measureReal_mono hsub (measure_ne_top _ _)).trans ((measureReal_biUnion_finset_le _ _).trans ?_)
  have hτ : 0 < 2 * s * √((N : ℝ) + 1) := by have := Real.sqrt_pos.2 hNp; positivity
  have hterm : ∀ k ∈ Finset.range (N - 1), (normalDraws signal.length).real {z | 2 * ((N : ℝ) + 1) * δ ≤ ∑ i : Fin signal.length, w k i * z i}
      = qFunc (√((N : ℝ) + 1) * δ / s) := by
    intro k hk
    rw [(linear_tail (fun i : Fin signal.length => w k i) _ hτ (hw2 k (Finset.mem_range.1 hk)) _).1]
    congr 1
    have h5 := Real.sq_sqrt hNp.le
    have h6 := Real.sqrt_pos.2 hNp
    rw [div_eq_div_iff hτ.ne' hs0.ne']
    linear_combination (-2 * s * δ) * h5
  rw [Finset.sum_congr rfl hterm, Finset.sum_const, Finset.card_range, nsmul_eq_mul, Nat.cast_sub (by omega), Nat.cast_one]

/-- the estimate from the noisy record fails, or a tap misses by `ε` or more -/
def EstimateMisses (ls : Solver ℝ) (p : PrbsEnum) (fs : Bool) (post pre : ℕ) (bi pnPre gray pnPost : Bool) (h signal : List ℝ) (snr ε : ℝ)
    (noise : List ℝ) : Prop :=
  ¬ ∃ y est e, awgn noise signal snr = some y ∧
    channelEstimationPrbs ls p y .nrz fs post pre false bi pnPre gray pnPost = .ok (some (est, e)) ∧ est.length = h.length ∧
    ∀ k < h.length, |est.getD k 0 * avgVar (2 ^ p.value - 1) y - h.getD k 0| < ε

/-- **C117.** The channel estimate in noise: with the main tap ahead of every other tap, and of zero, by `δ`, the estimate misses some
tap by `ε` or more, up to the documented factor, with at most the probability `(N - 1) Q(√(N + 1) δ / s) + 2 W Q(ε / σ)`. Here `σ` is `s`
times the root of `(N + 2 - W) / (reps (N + 1) (N + 1 - W))`. -/
theorem C117_estimate (ls : Solver ℝ) (p : PrbsEnum) (fs bi pnPre gray pnPost : Bool) (b : ℕ → ℤ)
    (hb : LfsrStream (getPolynomial p) (List.replicate p.value 1) b) (h : List ℝ) (post pre : ℕ) (hl : h.length = post + pre + 1)
    (hW : post + pre + 1 ≤ 2 ^ p.value - 1) (δ : ℝ) (hδ : 0 < δ) (hmain : δ ≤ h.getD pre 0)
    (hgap : ∀ k < h.length, k ≠ pre → h.getD k 0 + δ ≤ h.getD pre 0)
    (φ : ℤ) (signal : List ℝ) (hlen : 2 * (2 ^ p.value - 1) ≤ signal.length)
    (hs : ∀ t < signal.length, signal.getD t 0 = chanOut h pre (nrzRef p fs bi pnPre gray b) (t + φ))
    (hls : IsLs (solveWith ls .none 0) (post + pre + 1)) (snr ε : ℝ) :
    ∃ s, awgnStd signal snr = some s ∧ 0 < s ∧
      (normalDraws signal.length).real {z | EstimateMisses ls p fs post pre bi pnPre gray pnPost h signal snr ε (List.ofFn z)}
        ≤ ((2 ^ p.value - 1 : ℕ) - 1 : ℝ) * qFunc (√((2 ^ p.value - 1 : ℕ) + 1 : ℝ) * δ / s)
          + 2 * h.length * qFunc (ε / (s * √(tapVar (2 ^ p.value - 1) h.length (signal.length / (2 ^ p.value - 1))))) := by
  obtain ⟨hnz, s, hs1, hs0, hP⟩ := C117_phase p fs bi pnPre gray b hb h post pre hl hW δ hδ hmain hgap φ signal hlen hs snr
  obtain ⟨s', D, hs2, -, hlaw, hest⟩ := C117_taps ls p fs bi pnPre gray pnPost b hb h post pre hl hW φ signal hlen hs hnz hls snr
  rw [hs1] at hs2
  obtain rfl := Option.some.inj hs2
  refine ⟨s, hs1, hs0, ?_⟩
  have : IsProbabilityMeasure (normalDraws signal.length) := by unfold normalDraws; infer_instance
  obtain ⟨N, hN⟩ : ∃ N, N = 2 ^ p.value - 1 := ⟨_, rfl⟩
  obtain ⟨x, hx⟩ : ∃ x, x = nrzRef p fs bi pnPre gray b := ⟨_, rfl⟩
  obtain ⟨q, hq⟩ : ∃ q, q = signal.length / N := ⟨_, rfl⟩
  have hN1 : 127 ≤ N := by rw [hN]; exact period_ge p
  have hq0 : 0 < q := by rw [hq]; exact Nat.div_pos (by omega) (by omega)
  have hqn : q * N ≤ signal.length := by rw [hq]; exact Nat.div_mul_le_self _ _
  -- the variance of the average vanishes with probability zero
  obtain ⟨s'', hs3, -, hy⟩ := noisy_record signal snr (by omega) hnz
  rw [hs1] at hs3
  obtain rfl := Option.some.inj hs3
  obtain ⟨c, hc⟩ : ∃ c : ℕ → ℝ, c = fun t => if t = 1 then 1 else if t = 0 then -1 else 0 := ⟨_, rfl⟩
  have hcs : ∀ f : ℕ → ℝ, ∑ t ∈ Finset.range N, c t * f t = f 1 - f 0 := by
    intro f
    obtain ⟨M, hM⟩ : ∃ M, N = M + 2 := ⟨N - 2, by omega⟩
    rw [hM, Finset.sum_range_succ', Finset.sum_range_succ', Finset.sum_eq_zero fun t _ => by
      rw [hc]; simp]
    rw [hc]
    simp
    ring
  have hc2 : ∑ i : Fin signal.length, (s * periodWeight N q c i) ^ 2 = s ^ 2 * (2 / q) := by
    rw [Fin.sum_univ_eq_sum_range (fun i => (s * periodWeight N q c i) ^ 2) signal.length]
    simp only [mul_pow, ← Finset.mul_sum]
    rw [periodWeight_sq N q _ hq0 hqn]
    have : ∑ t ∈ Finset.range N, c t ^ 2 = 2 := by
      simp only [sq]
      rw [hcs, hc]
      norm_num
    rw [this]
  have hq' : (0 : ℝ) < q := by exact_mod_cast hq0
  have hv0 : (normalDraws signal.length).real {z | ∃ y, awgn (List.ofFn z) signal snr = some y ∧ ¬ 0 < avgVar N y} = 0 := by
    obtain ⟨a, ha⟩ : ∃ a : ℝ, a = periodAvg N q (fun t => signal.getD t 0) 0 - periodAvg N q (fun t => signal.getD t 0) 1 := ⟨_, rfl⟩
    have hnull := linear_point (fun i : Fin signal.length => s * periodWeight N q c i) (s * √(2 / q)) (by positivity)
      (by rw [hc2, mul_pow, Real.sq_sqrt (by positivity)]) a
    refine le_antisymm ((measureReal_mono fun z hz => ?_).trans hnull.le) measureReal_nonneg
    obtain ⟨y, hy1, hv⟩ := hz
    obtain ⟨y', k1, k2, k3⟩ := hy z
    rw [k1] at hy1
    obtain rfl := Option.some.inj hy1
    rw [Set.mem_ofPred_eq]
    have hconst : periodAvg N q (fun t => y'.getD t 0) 1 = periodAvg N q (fun t => y'.getD t 0) 0 := by
      by_contra hne
      refine hv ?_
      rw [avgVar, k2, ← hq]
      exact popVar_pos N (by omega) _ ⟨1, by omega, hne⟩
    obtain ⟨u, hu⟩ : ∃ u : ℕ → ℝ, u = fun i => if hi : i < signal.length then z ⟨i, hi⟩ else 0 := ⟨_, rfl⟩
    have hzu : ∀ i : Fin signal.length, z i = u i := fun i => by rw [hu]; simp only; rw [dif_pos i.2]
    have havg : ∀ t < N, periodAvg N q (fun t => y'.getD t 0) t = periodAvg N q (fun t => signal.getD t 0) t + s * periodAvg N q u t := by
      intro t ht
      unfold periodAvg
      rw [mul_div_assoc', ← add_div, Finset.mul_sum, ← Finset.sum_add_distrib]
      congr 1
      refine Finset.sum_congr rfl fun r hr => ?_
      have hrt : r * N + t < signal.length := by
        have h1 := Finset.mem_range.1 hr
        calc r * N + t < r * N + N := by omega
          _ = (r + 1) * N := by ring
          _ ≤ q * N := Nat.mul_le_mul_right _ (by omega)
          _ ≤ _ := hqn
      have := k3 ⟨r * N + t, hrt⟩
      rw [hzu] at this
      exact this
    rw [havg 0 (by omega), havg 1 (by omega)] at hconst
    simp only [hzu]
    rw [Fin.sum_univ_eq_sum_range (fun i => (s * periodWeight N q c i) * u i) signal.length]
    have e1 : ∑ i ∈ Finset.range signal.length, (s * periodWeight N q c i) * u i
        = s * ∑ i ∈ Finset.range signal.length, periodWeight N q c i * u i := by
      rw [Finset.mul_sum]; exact Finset.sum_congr rfl fun i _ => by ring
    rw [e1, periodWeight_sum N q _ hqn, hcs, ha]
    linarith
  -- the tap errors
  have hWN : (h.length : ℝ) ≤ N := by exact_mod_cast (show h.length ≤ N by omega)
  have hτ0 : 0 < tapVar N h.length q := by
    unfold tapVar
    refine div_pos (by linarith) (mul_pos (by positivity) (by linarith))
  have hσ : 0 < s * √(tapVar N h.length q) := mul_pos hs0 (Real.sqrt_pos.2 hτ0)
  have htail : ∀ k ∈ Finset.range h.length, (normalDraws signal.length).real {z | ε ≤ |D k z|} ≤ 2 * qFunc (ε / (s * √(tapVar N h.length q))) := by
    intro k hk
    have hk' := Finset.mem_range.1 hk
    have hl1 := hlaw k (by omega)
    rw [← hl, ← hN, ← hq] at hl1
    have hl2 := linear_law (n := 1) (fun _ => s * √(tapVar N h.length q))
    have e0 : ∑ i : Fin 1, (fun _ : Fin 1 => s * √(tapVar N h.length q)) i ^ 2 = s ^ 2 * tapVar N h.length q := by
      simp [mul_pow, Real.sq_sqrt hτ0.le]
    rw [e0, ← hl1] at hl2
    have hDm : AEMeasurable (D k) (normalDraws signal.length) := by
      by_contra hcon
      rw [Measure.map_of_not_aemeasurable hcon] at hl1
      have := congrArg (fun μ => μ Set.univ) hl1
      simp at this
    have hmeas : MeasurableSet {v : ℝ | ε ≤ |v|} := measurableSet_le measurable_const (by fun_prop)
    have e1 : (normalDraws signal.length).real {z | ε ≤ |D k z|} = (normalDraws 1).real {z | ε ≤ |∑ i, (fun _ : Fin 1 => s * √(tapVar N h.length q)) i * z i|} := by
      have a1 := Measure.map_apply_of_aemeasurable hDm hmeas
      have a2 := Measure.map_apply_of_aemeasurable (μ := normalDraws 1) (f := fun z : Fin 1 → ℝ => ∑ i, (fun _ : Fin 1 => s * √(tapVar N h.length q)) i * z i)
        (Measurable.aemeasurable (by fun_prop)) hmeas
      rw [hl2] at a2
      rw [measureReal_def, measureReal_def]
      congr 1
      exact a1.symm.trans a2
    rw [e1]
    obtain ⟨t1, -, t3⟩ := linear_tail (n := 1) (fun _ => s * √(tapVar N h.length q)) _ hσ (by rw [e0, mul_pow, Real.sq_sqrt hτ0.le]) ε
    have : IsProbabilityMeasure (normalDraws 1) := by unfold normalDraws; infer_instance
    calc _ ≤ (normalDraws 1).real ({z | ε ≤ ∑ i, (fun _ : Fin 1 => s * √(tapVar N h.length q)) i * z i}
          ∪ {z | ∑ i, (fun _ : Fin 1 => s * √(tapVar N h.length q)) i * z i ≤ -ε}) := by
          refine measureReal_mono fun z hz => ?_
          rw [Set.mem_ofPred_eq] at hz
          rcases le_abs.1 hz with h | h
          · exact .inl h
          · exact .inr (by rw [Set.mem_ofPred_eq]; linarith)
      _ ≤ _ := measureReal_union_le _ _
      _ = _ := by rw [t1, t3]; ring
  have hsub : {z : Fin signal.length → ℝ | EstimateMisses ls p fs post pre bi pnPre gray pnPost h signal snr ε (List.ofFn z)}
      ⊆ ({z | PhaseMisses N x signal φ snr (List.ofFn z)} ∪ {z | ∃ y, awgn (List.ofFn z) signal snr = some y ∧ ¬ 0 < avgVar N y})
        ∪ ⋃ k ∈ Finset.range h.length, {z | ε ≤ |D k z|} := by
    intro z hz
    by_contra hcon
    simp only [Set.mem_union, Set.mem_ofPred_eq, Set.mem_iUnion, Finset.mem_range, not_or, not_exists, not_le] at hcon
    obtain ⟨⟨c1, c2⟩, c3⟩ := hcon
    obtain ⟨y, hy1, hy2⟩ := hest z
    have hr : RightPhase (2 ^ p.value - 1) (nrzRef p fs bi pnPre gray b) y φ := by
      by_contra hr
      rw [← hN, ← hx] at hr
      exact c1 ⟨y, hy1, hr⟩
    have hv : 0 < avgVar (2 ^ p.value - 1) y := by
      by_contra hv
      rw [← hN] at hv
      exact c2 y ⟨hy1, hv⟩
    obtain ⟨t, ht1, ht2, ⟨e, he⟩, -⟩ := hy2 hr hv
    refine hz ⟨y, _, e, hy1, he, by rw [List.length_map, ht1, hl], fun k hk => ?_⟩
    rw [map_div_getD, div_mul_cancel₀ _ hv.ne', ht2 k (by omega), add_sub_cancel_left]
    exact c3 k hk
  rw [← hN, ← hq]
  rw [← hN, ← hx] at hP
  refine (measureReal_mono hsub (measure_ne_top _ _)).trans ((measureReal_union_le _ _).trans (add_le_add ((measureReal_union_le _ _).trans ?_) ?_))
  · rw [hv0, add_zero]
    exact hP
  · refine (measureReal_biUnion_finset_le _ _).trans ((Finset.sum_le_sum htail).trans (le_of_eq ?_))
    rw [Finset.sum_const, Finset.card_range, nsmul_eq_mul]
    ring

/-- A channel of four taps with one precursor, captured over two periods of PRBS7 from any phase; the main tap is ahead by `3/4`. -/
example (φ : ℤ) (snr : ℝ) : ∃ (ls : Solver ℝ) (signal : List ℝ) (s : ℝ), signal.length = 254 ∧ awgnStd signal snr = some s ∧ 0 < s ∧
    (normalDraws signal.length).real {z | EstimateMisses ls .prbs7 false 2 1 false false false false [1 / 10, 1, 1 / 4, -1 / 8] signal snr (1 / 20)
      (List.ofFn z)} ≤ 126 * qFunc (√128 * (3 / 4) / s) + 8 * qFunc (1 / 20 / (s * √(125 / 31744))) := by
  obtain ⟨ls, hls⟩ := C58_solver (K := ℝ) 4
  obtain ⟨b, hb⟩ : ∃ b, LfsrStream (getPolynomial .prbs7) (List.replicate 7 1) b := ⟨_, lfsrStream_bitAt _ _ (by rw [poly_length]; simp; rfl)⟩
  obtain ⟨signal, hsig⟩ : ∃ signal : List ℝ, signal = (List.range 254).map fun t : ℕ =>
      chanOut [1 / 10, 1, 1 / 4, -1 / 8] 1 (nrzRef .prbs7 false false false false b) (t + φ) := ⟨_, rfl⟩
  have hlen : signal.length = 254 := by rw [hsig]; simp
  obtain ⟨s, h1, h2, h3⟩ := C117_estimate ls .prbs7 false false false false false b hb [1 / 10, 1, 1 / 4, -1 / 8] 2 1 rfl (by decide) (3 / 4)
    (by norm_num) (by norm_num) (by
      intro k hk hk1
      have : k = 0 ∨ k = 2 ∨ k = 3 := by simp at hk; omega
      rcases this with rfl | rfl | rfl <;> norm_num) φ signal (by rw [hlen]; decide) (by
      intro t ht
      rw [List.getD_eq_getElem _ _ ht]
      simp [hsig]) hls snr (1 / 20)
  refine ⟨ls, signal, s, hlen, h1, h2, h3.trans (le_of_eq ?_)⟩
  have e1 : ((2 ^ PrbsEnum.prbs7.value - 1 : ℕ) : ℝ) = 127 := by norm_num [PrbsEnum.value]
  have e2 : tapVar (2 ^ PrbsEnum.prbs7.value - 1) [(1 : ℝ) / 10, 1, 1 / 4, -1 / 8].length (signal.length / (2 ^ PrbsEnum.prbs7.value - 1)) = 125 / 31744 := by
    rw [tapVar, e1, hlen]
    norm_num [PrbsEnum.value]
  rw [e2, e1]
  norm_num

end Verif
