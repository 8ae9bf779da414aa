import Verif.Model.LmsTests
import Verif.Lemmas.LmsTest
import Verif.Props.Ffe
import Verif.Props.Lms
import Verif.Props.ChanTests

open Finset
namespace Verif
open Spec (txLevel periodic chanOut BestPhase withPast)

theorem py_ok_bind {α β : Type} (a : α) (f : α → Py β) : ((Except.ok a : Py α) >>= f) = f a := rfl

/-- a DFE whose tap errors leave the eye open makes no errors, from rest -/
theorem dfe_open_eye (y : List ℝ) (h a : List ℝ) (hl : a.length = h.length) (hpos : 0 < h.length) (hy0 : 0 < y.length) (D : ℤ → ℝ)
    (hD : ∀ t, D t = 0 ∨ D t = 1)
    (hy : ∀ n : ℕ, n < y.length → y.getD n 0 = D n + ∑ j ∈ range h.length, h.getD j 0 * D ((n : ℤ) - 1 - j))
    (hopen : ∑ j ∈ range h.length, max |h.getD j 0| |h.getD j 0 - a.getD j 0| < 1 / 2) :
    ∃ r, ffeDfe y [1] (some a) (some [0, 1]) 1 0 none none = .ok r ∧ r.signal.length = y.length ∧
      ∀ n : ℕ, n < y.length → h.length ≤ n →
        r.signal.getD n 0 = D n + ∑ j ∈ range h.length, (h.getD j 0 - a.getD j 0) * D ((n : ℤ) - 1 - j) := by
  obtain ⟨A, hA⟩ : ∃ A : List ℝ, A = (List.range y.length).map (fun n : ℕ => D n) := ⟨_, rfl⟩
  have hAl : A.length = y.length := by simp [hA]
  have hAg : ∀ n, n < y.length → A.getD n 0 = D n := fun n hn => by rw [hA, map_range_getD _ _ _ _ hn]
  obtain ⟨w, hw⟩ : ∃ w : List ℝ, w = (List.range y.length).map (fun n : ℕ => ∑ j ∈ range h.length, h.getD j 0 * D ((n : ℤ) - 1 - j)
      - ∑ j ∈ range h.length, a.getD j 0 * withPast [] A ((n : ℤ) - 1 - j)) := ⟨_, rfl⟩
  have hwl : w.length = y.length := by simp [hw]
  have hwg : ∀ n, n < y.length → w.getD n 0 = ∑ j ∈ range h.length, h.getD j 0 * D ((n : ℤ) - 1 - j)
      - ∑ j ∈ range h.length, a.getD j 0 * withPast [] A ((n : ℤ) - 1 - j) := fun n hn => by
    rw [hw, map_range_getD _ _ _ _ hn]
  have hpast : ∀ n j : ℕ, n < y.length → withPast [] A ((n : ℤ) - 1 - j) = if j < n then D ((n : ℤ) - 1 - j) else 0 := by
    intro n j hn
    unfold withPast
    by_cases hj : j < n
    · rw [if_pos (by omega), if_pos hj, hAg _ (by omega)]
      congr 1
      omega
    · rw [if_neg (by omega), if_neg hj]
      simp
  have hsmall : ∀ n, n < y.length → |w.getD n 0| < 1 / 2 := by
    intro n hn
    rw [hwg n hn, ← sum_sub_distrib]
    refine lt_of_le_of_lt ((abs_sum_le_sum_abs _ _).trans (sum_le_sum fun j _ => ?_)) hopen
    rw [hpast n j hn]
    split_ifs
    · rw [← sub_mul, abs_mul]
      refine le_trans (mul_le_of_le_one_right (abs_nonneg _) ?_) (le_max_right _ _)
      rcases hD ((n : ℤ) - 1 - j) with e | e <;> rw [e] <;> simp
    · rw [mul_zero, sub_zero, abs_mul]
      refine le_trans (mul_le_of_le_one_right (abs_nonneg _) ?_) (le_max_left _ _)
      rcases hD ((n : ℤ) - 1 - j) with e | e <;> rw [e] <;> simp
  obtain ⟨r, e1, e2, e3, -⟩ := C48_equalized y [1] a [0, 1] A w 0 (by omega) (by simp) hy0 hAl hwl none none (by simp) (by simp)
    (fun n hn => by rw [hAg n hn]; rcases hD n with e | e <;> rw [e] <;> simp)
    (fun n hn l hlm hne => by
      have h1 := hsmall n hn
      rw [hAg n hn] at hne ⊢
      generalize w.getD n 0 = W at h1 ⊢
      simp only [List.mem_cons, List.not_mem_nil, or_false] at hlm
      rcases hD n with e | e <;> rw [e] at hne ⊢ <;> rcases hlm with rfl | rfl <;> first | exact absurd rfl hne | (norm_num; linarith))
    (fun n hn => by
      rw [hAg n hn, hwg n hn, hl]
      simp only [List.length_singleton, sum_range_one, List.getD_cons_zero, Nat.cast_zero, sub_zero, one_mul, withPast_nat,
        Option.getD_none]
      rw [hy n hn]
      ring)
  refine ⟨r, e1, e2, fun n hn hn' => ?_⟩
  rw [e3 n hn, hAg n hn, hwg n hn, ← sum_sub_distrib]
  congr 1
  refine sum_congr rfl fun j hj => ?_
  rw [mem_range] at hj
  rw [hpast n j hn, if_pos (by omega)]
  ring

/-- one period of the pattern, aligned with a signal of one best phase and repeated, is the sequence from this phase -/
theorem alignedReference_lock (p : PrbsEnum) (M : ℕ) (φ : ℤ) (sig : List ℝ) (hs1 : 2 ^ p.value - 1 ≤ sig.length)
    (hs2 : sig.length ≤ M)
    (hbest : ∀ s : ℕ, BestPhase (fun t : ℤ => refZ p .ook false false false false false (t : ZMod (2 ^ p.value - 1)))
      (fun t => sig.getD t 0) (2 ^ p.value - 1) s → ((s : ℤ) : ZMod (2 ^ p.value - 1)) = (φ : ZMod (2 ^ p.value - 1))) :
    alignedReference ((List.range M).map (txLevel .ook false false false false false (bitAt (getPolynomial p) (onesSeed p))))
        (2 ^ p.value - 1) sig
      = .ok ((List.range sig.length).map fun n : ℕ =>
          refZ p .ook false false false false false ((n + φ : ℤ) : ZMod (2 ^ p.value - 1))) := by
  have hN : 0 < 2 ^ p.value - 1 := by have := period_ge p; omega
  obtain ⟨ref, href⟩ : ∃ ref, ref = refZ p .ook false false false false false := ⟨_, rfl⟩
  have htake : ((List.range M).map (txLevel .ook false false false false false (bitAt (getPolynomial p) (onesSeed p)))).take
      (2 ^ p.value - 1) = (List.range (1 * (2 ^ p.value - 1))).map (fun t : ℕ => ref (t : ZMod (2 ^ p.value - 1))) := by
    rw [one_mul, ← List.map_take, List.take_range, Nat.min_eq_left (by omega)]
    exact List.map_congr_left fun t _ => by rw [href, refZ_cast]
  obtain ⟨s, c, hs, hlock, hb⟩ := lock_any ref 1 one_pos sig (by omega) (fun t : ℤ => ref (t : ZMod (2 ^ p.value - 1))) (fun t => rfl)
  rw [Nat.min_eq_left (by omega), one_mul] at hb
  rw [href] at hb
  have hphase := hbest s hb
  rw [alignedReference, htake, hlock]
  show Except.ok _ = _
  congr 1
  have hq : ((List.range M).map (txLevel .ook false false false false false (bitAt (getPolynomial p) (onesSeed p)))).length = M := by
    simp
  have hle : sig.length ≤ (M + (2 ^ p.value - 1) - 1) / (2 ^ p.value - 1) * (2 ^ p.value - 1) := by
    have h2 := Nat.lt_div_mul_add hN (a := M + (2 ^ p.value - 1) - 1)
    omega
  rw [hq, one_mul, range_getD_tile (fun t : ℕ => ref ((t : ZMod (2 ^ p.value - 1)) + s)) _ _ _ hN
    (fun t => by rw [ZMod.natCast_mod]) hle]
  refine List.map_congr_left fun t _ => ?_
  rw [href]
  congr 1
  push_cast
  rw [← hphase]
  push_cast
  rfl

/-- one period of the pattern, aligned with the equalized signal and repeated, is the transmitted sequence -/
theorem alignedReference_run (p : PrbsEnum) (E : List ℝ) (hE : ∀ v ∈ E, |v| ≤ 1 / 2) (hEN : 2 * (E.length + 1) ≤ 2 ^ p.value - 1)
    (M : ℕ) (φ : ℤ) (sig : List ℝ) (hs1 : 2 ^ p.value - 1 ≤ sig.length) (hs2 : sig.length ≤ M)
    (hsig : ∀ n : ℕ, n < sig.length → sig.getD n 0
      = refZ p .ook false false false false false ((n + φ : ℤ) : ZMod (2 ^ p.value - 1))
        + ∑ j ∈ range E.length, E.getD j 0 * refZ p .ook false false false false false ((n - 1 - j + φ : ℤ) : ZMod (2 ^ p.value - 1))) :
    alignedReference ((List.range M).map (txLevel .ook false false false false false (bitAt (getPolynomial p) (onesSeed p))))
        (2 ^ p.value - 1) sig
      = .ok ((List.range sig.length).map fun n : ℕ =>
          refZ p .ook false false false false false ((n + φ : ℤ) : ZMod (2 ^ p.value - 1))) := by
  refine alignedReference_lock p M φ sig hs1 hs2 fun s hb => ?_
  obtain ⟨ref, href⟩ : ∃ ref, ref = refZ p .ook false false false false false := ⟨_, rfl⟩
  obtain ⟨x, hx⟩ : ∃ x : ℤ → ℝ, x = fun t : ℤ => ref (t : ZMod (2 ^ p.value - 1)) := ⟨_, rfl⟩
  rw [← href, ← hx] at hb
  refine bestPhase_unique ref (tapZ (2 ^ p.value - 1) ([] ++ [1] ++ E) ([] : List ℝ).length) φ 1 one_pos ?_ x
    (fun t => by rw [hx]) _ (fun t ht => ?_) s (by rw [one_mul]; exact hb)
  · rw [href]
    exact test_lock p .ook (by decide) [] E (by simpa using hE) (by simp only [List.length_nil]; omega)
  · have h1 := chanOut_zmod ([] ++ [1] ++ E) ([] : List ℝ).length x ref (fun t => by rw [hx]) (t + φ)
    push_cast at h1
    rw [← h1, hsig t (by omega), chanOut]
    simp only [List.nil_append, List.singleton_append, List.length_cons, List.length_nil]
    rw [sum_range_succ', add_comm]
    congr 1
    · refine sum_congr rfl fun j _ => ?_
      rw [List.getD_cons_succ, hx, href]
      simp only
      congr 3
      push_cast
      ring
    · rw [List.getD_cons_zero, hx, href]
      simp

/-- the samples seen by a feedback tap -/
theorem tapSamples_sum_nat (L j : ℕ) (f : ℤ → ℝ) :
    ∑ n ∈ Spec.tapSamples L ((j : ℤ) + 1), f n = ∑ n ∈ Ico (j + 1) L, f n ∧
      (Spec.tapSamples L ((j : ℤ) + 1)).card = L - (j + 1) := by
  have h : Spec.tapSamples L ((j : ℤ) + 1) = (Ico (j + 1) L).map Nat.castEmbedding := by
    ext n
    simp only [Spec.tapSamples, mem_filter, mem_Ico, mem_map, Nat.castEmbedding_apply]
    constructor
    · rintro ⟨⟨h1, h2⟩, h3, h4⟩
      exact ⟨n.toNat, ⟨by omega, by omega⟩, by omega⟩
    · rintro ⟨m, ⟨h1, h2⟩, rfl⟩
      omega
  rw [h, sum_map, card_map, Nat.card_Ico]
  exact ⟨rfl, rfl⟩

/-- one pass of the DFE training of the test, on a record whose eye is open -/
theorem lmsDfeTestPass_run (p : PrbsEnum) (h a : List ℝ) (hl : a.length = h.length) (hJ : 0 < h.length) (M : ℕ)
    (hJN : 2 * (h.length + 1) ≤ 2 ^ p.value - 1) (hM : 2 ^ p.value - 1 + (2 * h.length + 2) ≤ M) (y : List ℝ)
    (hyl : y.length = M - (h.length + 2))
    (hy : ∀ n : ℕ, n < y.length → y.getD n 0
      = refZ p .ook false false false false false ((n + (h.length + 2) : ℤ) : ZMod (2 ^ p.value - 1))
        + ∑ j ∈ range h.length, h.getD j 0
          * refZ p .ook false false false false false ((n - 1 - j + (h.length + 2) : ℤ) : ZMod (2 ^ p.value - 1)))
    (x : ℤ → ℝ) (hx : ∀ t : ℤ, x t
      = refZ p .ook false false false false false ((t + (2 * h.length + 2) : ℤ) : ZMod (2 ^ p.value - 1)))
    (hopen : ∑ j ∈ range h.length, max |h.getD j 0| |h.getD j 0 - a.getD j 0| < 1 / 2) :
    ∃ a' : List ℝ, a'.length = h.length ∧ lmsDfeTestPass false
        ((List.range M).map (txLevel .ook false false false false false (bitAt (getPolynomial p) (onesSeed p))))
        (2 ^ p.value - 1) y (getLevels .ook false) (5 / 1000) a
      = .ok (some (lossQ x (M - (2 * h.length + 2)) h.length (fun j => h.getD j 0 - a.getD j 0)), a') ∧
      ∀ j < h.length, h.getD j 0 - a'.getD j 0
        = dfeStep x (M - (2 * h.length + 2)) h.length (fun j => h.getD j 0 - a.getD j 0) j := by
  obtain ⟨J, hJd⟩ : ∃ J, J = h.length := ⟨_, rfl⟩
  obtain ⟨N, hNd⟩ : ∃ N, N = 2 ^ p.value - 1 := ⟨_, rfl⟩
  obtain ⟨L, hL⟩ : ∃ L, L = M - (2 * h.length + 2) := ⟨_, rfl⟩
  have hlev : getLevels .ook false = [0, 1] := by simp [getLevels, intLevels]
  have hr01 : ∀ z, refZ p .ook false false false false false z = 0 ∨ refZ p .ook false false false false false z = 1 := by
    intro z
    rw [refZ_ook]
    rcases uSeq_cases p (onesSeed p) z with e | e <;> rw [e] <;> norm_num
  obtain ⟨r, e1, e2, e3⟩ := dfe_open_eye y h a hl hJ (by omega)
    (fun t => refZ p .ook false false false false false ((t + (h.length + 2) : ℤ) : ZMod (2 ^ p.value - 1)))
    (fun t => hr01 _) hy hopen
  -- the slicer inputs of the pass
  obtain ⟨sig, hsd⟩ : ∃ sig, sig = r.signal.drop a.length := ⟨_, rfl⟩
  have hsl : sig.length = L := by rw [hsd, List.length_drop, e2, hyl, hl, hL]; omega
  have hdl : (y.drop a.length).length = L := by rw [List.length_drop, hyl, hl, hL]; omega
  obtain ⟨E, hE⟩ : ∃ E : ℕ → ℝ, E = fun j => h.getD j 0 - a.getD j 0 := ⟨_, rfl⟩
  have hsig : ∀ n : ℕ, n < L → sig.getD n 0 = x n + errSig x h.length E n := by
    intro n hn
    rw [hsd, drop_getD, e3 _ (by omega) (by omega), errSig, hx]
    congr 1
    · congr 2
      push_cast [hl]
      ring
    · refine sum_congr rfl fun j _ => ?_
      rw [hx, hE]
      congr 3
      push_cast [hl]
      ring
  obtain ⟨EL, hEL⟩ : ∃ EL : List ℝ, EL = (List.range h.length).map E := ⟨_, rfl⟩
  have hELl : EL.length = h.length := by simp [hEL]
  have hmem : ∀ v ∈ EL, |v| ≤ 1 / 2 := by
    intro v hv
    rw [hEL, List.mem_map] at hv
    obtain ⟨j, hj, rfl⟩ := hv
    rw [List.mem_range] at hj
    rw [hE]
    refine le_trans (le_max_right |h.getD j 0| _) (le_trans ?_ hopen.le)
    exact single_le_sum (f := fun j => max |h.getD j 0| |h.getD j 0 - a.getD j 0|)
      (fun i _ => (abs_nonneg _).trans (le_max_left _ _)) (mem_range.2 hj)
  have hrep := alignedReference_run p EL hmem (by omega) M (2 * h.length + 2) sig (by omega) (by omega) (fun n hn => by
    rw [hsig n (by omega), hx, errSig, hELl]
    congr 1
    refine sum_congr rfl fun j hj => ?_
    rw [hx, hEL, map_range_getD _ _ _ _ (mem_range.1 hj)])
  obtain ⟨rep, hrepd⟩ : ∃ rep : List ℝ, rep = (List.range sig.length).map fun n : ℕ =>
      refZ p .ook false false false false false ((n + (2 * h.length + 2) : ℤ) : ZMod (2 ^ p.value - 1)) := ⟨_, rfl⟩
  rw [← hrepd] at hrep
  have hrl : rep.length = L := by simp [hrepd, hsl]
  have hrg : ∀ n : ℕ, n < L → rep.getD n 0 = x n := by
    intro n hn
    rw [hrepd, map_range_getD _ _ _ _ (by omega), hx]
  -- the gradients
  have hrun := ddlmsGrad_run (y.drop a.length) sig rep [0, 1] (some rep) [] ((List.range a.length).map (fun i : ℕ => (i : ℤ) + 1))
    (by omega) ⟨by omega, Or.inl rfl⟩ (by simp) (by
      intro j hj
      rw [List.mem_map] at hj
      obtain ⟨i, -, rfl⟩ := hj
      omega)
  obtain ⟨e, he⟩ : ∃ e, e = List.zipWith (· - ·) sig rep := ⟨_, rfl⟩
  rw [← he] at hrun
  have hel : e.length = L := by rw [he, List.length_zipWith, hsl, hrl, min_self]
  have heg : ∀ n : ℕ, n < L → e.getD n 0 = errSig x h.length E n := by
    intro n hn
    rw [he, zipWith_getD _ 0 0 0 _ _ (by omega) (by omega), hsig n hn, hrg n hn, add_sub_cancel_left]
  have hLpos : 0 < L := by omega
  have hval : meanOpt (e.map (fun v => v ^ 2)) = some (lossQ x L h.length E) := by
    rw [meanOpt, List.length_map, if_neg (by omega), hel, lossQ, list_map_sum_getD _ e, hel]
    congr 2
    exact sum_congr rfl fun n hn => by rw [heg n (mem_range.1 hn)]
  have hgrad : ∀ j, j < h.length → tapMean (-1 / 2) (y.drop a.length).length ((j : ℤ) + 1) e rep
      = some (-1 / 2 * corrA x L h.length E j) := by
    intro j hj
    have hs := tapMean_signals (-1 / 2) ((j : ℤ) + 1) e rep (errSig x h.length E) x (by omega)
      (fun n hn => (heg n (by omega)).symm) (fun n hn => (hrg n (by omega)).symm) (by rw [abs_of_nonneg (by omega)]; omega)
    rw [hrl] at hs
    rw [hdl, hs]
    obtain ⟨h1, h2⟩ := tapSamples_sum_nat L j (fun n => errSig x h.length E n * x (n - ((j : ℤ) + 1)))
    rw [h1, h2, corrA]
    simp only [show ∀ n : ℕ, (n : ℤ) - ((j : ℤ) + 1) = n - 1 - j from fun n => by ring]
  refine ⟨lmsUpdate a (((List.range a.length).map (fun i : ℕ => (i : ℤ) + 1)).map
    (fun j => tapMean (-1 / 2) (y.drop a.length).length j e rep)) (5 / 1000), ?_, ?_, ?_⟩
  · simp [lmsUpdate, hl]
  · rw [hlev, lmsDfeTestPass, e1, py_ok_bind, ← hsd]
    dsimp only
    rw [hrep, py_ok_bind]
    simp only [Bool.false_eq_true, if_false]
    rw [hrun, py_ok_bind, lmsReturn_value, lmsReturn_dfe _ _ _ _ _ (by simp), hval, hL, hE]
    rfl
  · intro j hj
    rw [lmsUpdate, zipWith_getD _ 0 none 0 _ _ (by omega) (by simp [hl, hj]), List.map_map,
      map_range_getD _ _ _ _ (by omega)]
    simp only [Function.comp_apply]
    rw [hgrad j hj, dfeStep, ← hL, ← hE]
    simp only [Option.getD_some]
    rw [hE]
    ring

theorem tapNorm_congr {J : ℕ} {E F : ℕ → ℝ} (h : ∀ j < J, E j = F j) : tapNorm J E = tapNorm J F :=
  sum_congr rfl fun j hj => by rw [h j (mem_range.1 hj)]

theorem errSig_congr {x : ℤ → ℝ} {J : ℕ} {E F : ℕ → ℝ} (h : ∀ j < J, E j = F j) : errSig x J E = errSig x J F := by
  ext n
  exact sum_congr rfl fun j hj => by rw [h j (mem_range.1 hj)]

theorem lossQ_congr {x : ℤ → ℝ} {L J : ℕ} {E F : ℕ → ℝ} (h : ∀ j < J, E j = F j) : lossQ x L J E = lossQ x L J F := by
  rw [lossQ, lossQ, errSig_congr h]

/-- tap errors no longer than the response leave the eye open -/
theorem open_eye {J : ℕ} (h E : ℕ → ℝ) (hh : 8 * J * tapNorm J h < 1) (hE : tapNorm J E ≤ tapNorm J h) :
    ∑ j ∈ range J, max |h j| |E j| < 1 / 2 := by
  have h1 := sq_sum_le_card_mul_sum_sq (s := range J) (f := fun j => max |h j| |E j|)
  have h2 : ∑ j ∈ range J, max |h j| |E j| ^ 2 ≤ tapNorm J h + tapNorm J E := by
    unfold tapNorm
    rw [← sum_add_distrib]
    refine sum_le_sum fun j _ => ?_
    rcases max_cases |h j| |E j| with ⟨e, -⟩ | ⟨e, -⟩ <;> rw [e, sq_abs] <;> nlinarith [sq_nonneg (h j), sq_nonneg (E j)]
  rw [card_range] at h1
  have h3 : (J : ℝ) * ∑ j ∈ range J, max |h j| |E j| ^ 2 ≤ J * (2 * tapNorm J h) :=
    mul_le_mul_of_nonneg_left (by linarith) (Nat.cast_nonneg _)
  refine lt_of_pow_lt_pow_left₀ 2 (by norm_num) ?_
  nlinarith

/-- the tap errors after the full number of passes -/
theorem decay_bound (m : ℕ) (hm : 100000 ≤ m) : (1 - 4 / 10000 : ℝ) ^ m ≤ 1 / 10000 := by
  have hb := one_add_mul_le_pow (a := (4 / 10000 : ℝ)) (by norm_num) (m / 4)
  have hm4 : (25000 : ℝ) ≤ (m / 4 : ℕ) := by exact_mod_cast (by omega : 25000 ≤ m / 4)
  have e1 : (1 - 4 / 10000 : ℝ) ^ m * (1 + 4 / 10000) ^ m ≤ 1 := by
    rw [← mul_pow]
    exact pow_le_one₀ (by norm_num) (by norm_num)
  have e4 : (1 + 4 / 10000 : ℝ) ^ (m / 4 * 4) ≤ (1 + 4 / 10000 : ℝ) ^ m := pow_le_pow_right₀ (by norm_num) (by omega)
  have e2 : (11 : ℝ) ^ 4 ≤ (1 + 4 / 10000) ^ (m / 4 * 4) := by
    rw [pow_mul]
    exact pow_le_pow_left₀ (by norm_num) (by nlinarith) 4
  have e3 : (0 : ℝ) ≤ (1 - 4 / 10000) ^ m := pow_nonneg (by norm_num) _
  have e5 := e2.trans e4
  generalize (1 - 4 / 10000 : ℝ) ^ m = q at e1 e3 ⊢
  generalize (1 + 4 / 10000 : ℝ) ^ m = w at e1 e5
  nlinarith

/-- the training loop of the test ends with taps close to the response -/
theorem trainLoop_dfe (x : ℤ → ℝ) (L : ℕ) (h : List ℝ) (pass : List ℝ → Py (Option ℝ × List ℝ))
    (hx0 : ∀ t, 0 ≤ x t) (hx1 : ∀ t, x t ≤ 1) (hJ8 : h.length ≤ 8) (hJ1 : 1 ≤ h.length) (hL : 40 * h.length ^ 2 ≤ L)
    (hlow : ∀ E : ℕ → ℝ, tapNorm h.length E ≤ 8 * lossQ x L h.length E)
    (hh : 8 * h.length * tapNorm h.length (fun j => h.getD j 0) < 1)
    (hpass : ∀ a : List ℝ, a.length = h.length →
      ∑ j ∈ range h.length, max |h.getD j 0| |h.getD j 0 - a.getD j 0| < 1 / 2 → ∃ a' : List ℝ, a'.length = h.length ∧
        pass a = .ok (some (lossQ x L h.length (fun j => h.getD j 0 - a.getD j 0)), a') ∧
        ∀ j < h.length, h.getD j 0 - a'.getD j 0 = dfeStep x L h.length (fun j => h.getD j 0 - a.getD j 0) j) :
    ∀ (k m : ℕ) (a : List ℝ) (l : ℝ), m + k = 100000 → a.length = h.length →
      tapNorm h.length (fun j => h.getD j 0 - a.getD j 0) ≤ (1 - 4 / 10000) ^ m * tapNorm h.length (fun j => h.getD j 0) →
      (l = 1 ∨ ∃ E : ℕ → ℝ, tapNorm h.length E ≤ tapNorm h.length (fun j => h.getD j 0) ∧ l = lossQ x L h.length E ∧
        ∀ j < h.length, h.getD j 0 - a.getD j 0 = dfeStep x L h.length E j) →
      ∃ a' : List ℝ, trainLoop pass (5 / 10 ^ 9) k (some l) a = .ok a' ∧ a'.length = h.length ∧
        tapNorm h.length (fun j => h.getD j 0 - a'.getD j 0) < 1 / 10 ^ 4 := by
  have hx : ∀ t, |x t| ≤ 1 := fun t => by rw [abs_of_nonneg (hx0 t)]; exact hx1 t
  have hJr : (1 : ℝ) ≤ h.length := by exact_mod_cast hJ1
  have hH0 := tapNorm_nonneg h.length (fun j => h.getD j 0)
  have hH : tapNorm h.length (fun j => h.getD j 0) < 1 / 8 := by nlinarith
  have hstep := fun E : ℕ → ℝ => dfeStep_bounds hx0 hx1 hJ8 hJ1 hL E (hlow E)
  intro k
  induction k with
  | zero =>
    intro m a l hm ha hE _
    refine ⟨a, rfl, ha, ?_⟩
    have h1 := decay_bound m (by omega)
    generalize (1 - 4 / 10000 : ℝ) ^ m = q at h1 hE
    nlinarith
  | succ k ih =>
    intro m a l hm ha hE hl
    have hle : tapNorm h.length (fun j => h.getD j 0 - a.getD j 0) ≤ tapNorm h.length (fun j => h.getD j 0) :=
      hE.trans (mul_le_of_le_one_left hH0 (pow_le_one₀ (by norm_num) (by norm_num)))
    obtain ⟨a1, ha1, hp, hst⟩ := hpass a ha (open_eye (fun j => h.getD j 0) (fun j => h.getD j 0 - a.getD j 0) hh hle)
    have hn1 : tapNorm h.length (fun j => h.getD j 0 - a1.getD j 0)
        ≤ (1 - 4 / 10000) * tapNorm h.length (fun j => h.getD j 0 - a.getD j 0) := by
      rw [tapNorm_congr hst]
      exact (hstep _).1
    have n0 := tapNorm_nonneg h.length (fun j => h.getD j 0 - a.getD j 0)
    rw [trainLoop]
    split_ifs with h1
    · rw [hp, py_ok_bind]
      simp only [Option.some.injEq, exists_eq_left']
      split_ifs with h2
      · refine ⟨a1, rfl, ha1, ?_⟩
        rcases hl with rfl | ⟨E, hEH, rfl, hEs⟩
        · exfalso
          have h3 := lossQ_le (J := h.length) hx (by nlinarith : 0 < L) (fun j => h.getD j 0 - a.getD j 0)
          have h4 := (abs_lt.1 h2).1
          have h5 : (h.length : ℝ) * tapNorm h.length (fun j => h.getD j 0 - a.getD j 0)
              ≤ h.length * tapNorm h.length (fun j => h.getD j 0) := mul_le_mul_of_nonneg_left hle (by linarith)
          linarith
        · have h4 := (abs_lt.1 h2).1
          rw [lossQ_congr hEs] at h4
          have h5 := (hstep E).2 (by linarith)
          have h6 := (hstep E).1
          rw [← tapNorm_congr hEs] at h6
          have := tapNorm_nonneg h.length E
          nlinarith
      · refine ih (m + 1) a1 _ (by omega) ha1 ?_ (Or.inr ⟨_, hle, rfl, hst⟩)
        rw [pow_succ, mul_comm _ (1 - 4 / 10000 : ℝ), mul_assoc]
        exact hn1.trans (mul_le_mul_of_nonneg_left hE (by norm_num))
    · refine ⟨a, rfl, ha, ?_⟩
      rcases hl with rfl | ⟨E, hEH, rfl, hEs⟩
      · norm_num at h1
      · push Not at h1
        have h5 := hlow E
        have h6 := (hstep E).1
        rw [← tapNorm_congr hEs] at h6
        have := tapNorm_nonneg h.length E
        nlinarith

end Verif
