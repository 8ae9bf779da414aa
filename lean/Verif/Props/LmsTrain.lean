import Mathlib.Algebra.BigOperators.Group.Finset.Basic
import Mathlib.Data.Finset.Sum
import Verif.Model.LmsTrain
import Verif.Spec.LmsTrain
import Verif.Lemmas.LmsTrain
import Verif.Props.Lms
import Verif.Props.Ffe

/-! Training with the gradients of `ddlms_grad` (C95). -/

open Finset

namespace Verif
open Verif.Spec

/-- The taps `b k`, `a k` of the passes of a training loop (test/test_equalization_estimation.py 77-103 and 133-159):
in every pass the equalizer processes the block, `ddlms_grad` is called with the reference, and the returned gradients
times the learning rate are subtracted from the trained taps `fi`, `di`; the other taps are kept. -/
structure LmsRun (I J : Finset ℤ) (Y D : ℤ → ℝ) (y d levels : List ℝ) (fi di : List ℤ) (mu : ℝ) (b a : ℕ → ℤ → ℝ) :
    Prop where
  pass : ∀ k, ∃ o out, EqualizerBlock I J (b k) (a k) Y D y o d ∧ ddlmsGrad y o levels fi di (some d) = .ok out ∧
    (∀ t, t < fi.length → ∃ g, out.ffeGrads.getD t none = some g ∧
      b (k + 1) (fi.getD t 0) = b k (fi.getD t 0) - g * mu) ∧
    (∀ t, t < di.length → ∃ g, out.dfeGrads.getD t none = some g ∧
      a (k + 1) (di.getD t 0) = a k (di.getD t 0) - g * mu)
  keepF : ∀ k i, i ∉ fi → b (k + 1) i = b k i
  keepD : ∀ k j, j ∉ di → a (k + 1) j = a k j

/-- the signal of a coefficient -/
noncomputable def tapSignal (Y D : ℤ → ℝ) : ℤ ⊕ ℤ → ℤ → ℝ := Sum.elim (fun i n => Y (n - i)) (fun j n => -D (n - j))

/-- the weight of a coefficient -/
noncomputable def tapWeight (mu : ℝ) (N : ℕ) : ℤ ⊕ ℤ → ℝ :=
  Sum.elim (fun i => mu / (2 * (tapSamples N i).card)) (fun j => mu / (2 * (tapSamples N j).card))

/-- the target of the trained taps: the symbols less the contribution of the taps that are kept -/
noncomputable def tapTarget (I J F G : Finset ℤ) (Y D b a : ℤ → ℝ) (n : ℤ) : ℝ :=
  D n - (∑ i ∈ I \ F, b i * Y (n - i) - ∑ j ∈ J \ G, a j * D (n - j))

theorem trainErr_taps (I J F G : Finset ℤ) (hF : F ⊆ I) (hG : G ⊆ J) (Y D b a b0 a0 : ℤ → ℝ)
    (hb : ∀ i ∈ I \ F, b i = b0 i) (ha : ∀ j ∈ J \ G, a j = a0 j) (n : ℤ) :
    trainErr (F.disjSum G) (tapSignal Y D) (tapTarget I J F G Y D b0 a0) (Sum.elim b a) n
      = equalized I J b a Y D n - D n := by
  unfold trainErr tapTarget equalized
  rw [sum_disjSum]
  simp only [Sum.elim_inl, Sum.elim_inr, tapSignal]
  rw [← sum_sdiff hF, ← sum_sdiff hG, sum_congr rfl (fun i hi => by rw [hb i hi] : ∀ i ∈ I \ F, b i * Y (n - i) = b0 i * Y (n - i)),
    sum_congr rfl (fun j hj => by rw [ha j hj] : ∀ j ∈ J \ G, a j * D (n - j) = a0 j * D (n - j))]
  simp only [mul_neg, sum_neg_distrib]
  ring

theorem tapSamples_sum (x e : ℤ → ℝ) (N : ℕ) (hx : Confined x N) (i : ℤ) :
    ∑ n ∈ tapSamples N i, e n * x (n - i) = ∑ n ∈ Ico 0 (N : ℤ), e n * x (n - i) := by
  unfold tapSamples
  refine sum_subset (filter_subset _ _) (fun n hn hn' => ?_)
  rw [mem_filter, not_and, not_and_or] at hn'
  rw [hx (n - i) (by have := hn' hn; omega), mul_zero]

theorem tapSamples_card_pos (N : ℕ) (i : ℤ) (hi : |i| < N) : 0 < ((tapSamples N i).card : ℝ) := by
  rw [Nat.cast_pos, card_pos, nonempty_iff_ne_empty, Ne, tapSamples_empty]
  omega

theorem tapSamples_card_le (N : ℕ) (i : ℤ) : ((tapSamples N i).card : ℝ) ≤ N := by
  have : (tapSamples N i).card ≤ (Ico 0 (N : ℤ)).card := card_le_card (filter_subset _ _)
  rw [Int.card_Ico] at this
  exact_mod_cast (by omega : (tapSamples N i).card ≤ N)

theorem nodup_update (l : List ℤ) (i : ℤ) (hi : i ∈ l) : ∃ t, t < l.length ∧ l.getD t 0 = i := by
  obtain ⟨t, ht, rfl⟩ := List.mem_iff_getElem.1 hi
  exact ⟨t, ht, List.getD_eq_getElem l 0 ht⟩

section run
variable {I J : Finset ℤ} {Y D : ℤ → ℝ} {y d levels : List ℝ} {fi di : List ℤ} {mu : ℝ} {b a : ℕ → ℤ → ℝ}

/-- the hypotheses of the training theorems: signal and reference confined to the block, trained taps among the taps of
the equalizer, each of them seeing some sample of the block -/
structure Trainable (I J : Finset ℤ) (Y D : ℤ → ℝ) (N : ℕ) (levels : List ℝ) (fi di : List ℤ) : Prop where
  conf : Confined Y N
  confD : Confined D N
  lev : levels ≠ []
  subF : ∀ i ∈ fi, i ∈ I
  subD : ∀ j ∈ di, j ∈ J
  posD : ∀ j ∈ di, 0 ≤ j
  seeF : ∀ i ∈ fi, |i| < N
  seeD : ∀ j ∈ di, |j| < N

theorem LmsRun.keptF (h : LmsRun I J Y D y d levels fi di mu b a) (k : ℕ) (i : ℤ) (hi : i ∉ fi) : b k i = b 0 i := by
  induction k with
  | zero => rfl
  | succ k ih => rw [h.keepF k i hi, ih]

theorem LmsRun.keptD (h : LmsRun I J Y D y d levels fi di mu b a) (k : ℕ) (j : ℤ) (hj : j ∉ di) : a k j = a 0 j := by
  induction k with
  | zero => rfl
  | succ k ih => rw [h.keepD k j hj, ih]

/-- one pass is a weighted gradient step -/
theorem LmsRun.step (h : LmsRun I J Y D y d levels fi di mu b a) (ht : Trainable I J Y D y.length levels fi di) (k : ℕ)
    (c : ℤ ⊕ ℤ) (hc : c ∈ fi.toFinset.disjSum di.toFinset) :
    Sum.elim (b (k + 1)) (a (k + 1)) c = Sum.elim (b k) (a k) c - tapWeight mu y.length c
      * trainCorr (fi.toFinset.disjSum di.toFinset) (Ico 0 (y.length : ℤ)) (tapSignal Y D)
        (tapTarget I J fi.toFinset di.toFinset Y D (b 0) (a 0)) (Sum.elim (b k) (a k)) c := by
  obtain ⟨o, out, hb, hout, hf, hd⟩ := h.pass k
  have hrun := ddlmsGrad_run y o d levels (some d) fi di hb.len_o ⟨hb.len_d.trans hb.len_o.symm, Or.inl rfl⟩ ht.lev ht.posD
  obtain ⟨e, he⟩ : ∃ e, e = List.zipWith (· - ·) o d := ⟨_, rfl⟩
  rw [← he] at hrun
  have hel : e.length = y.length := by rw [he, List.length_zipWith, hb.len_o, hb.len_d, min_self]
  have hE : IsBlock (fun n => equalized I J (b k) (a k) Y D n - D n) e := by
    intro n hn
    rw [hel] at hn
    rw [he, zipWith_getD _ 0 0 0 o d (by rw [hb.len_o]; exact hn) (by rw [hb.len_d]; exact hn),
      ← hb.output n (by rw [hb.len_o]; exact hn), ← hb.reference n (by rw [hb.len_d]; exact hn)]
  have hout' : out = _ := Except.ok.inj (hout.symm.trans hrun)
  have herr := trainErr_taps I J fi.toFinset di.toFinset (fun i hi => ht.subF i (List.mem_toFinset.1 hi))
    (fun i hi => ht.subD i (List.mem_toFinset.1 hi)) Y D (b k) (a k) (b 0) (a 0)
    (fun i hi => h.keptF k i (fun hh => (mem_sdiff.1 hi).2 (List.mem_toFinset.2 hh)))
    (fun i hi => h.keptD k i (fun hh => (mem_sdiff.1 hi).2 (List.mem_toFinset.2 hh)))
  unfold trainCorr
  simp_rw [herr]
  rcases mem_disjSum.1 hc with ⟨i, hi, rfl⟩ | ⟨j, hj, rfl⟩
  · have hi' := List.mem_toFinset.1 hi
    obtain ⟨t, ht', hti⟩ := nodup_update fi i hi'
    obtain ⟨g, hg, hup⟩ := hf t ht'
    rw [hout', lmsReturn_ffe _ _ _ _ _ (by simp), getD_map_lt _ 0 none _ ht', hti,
      tapMean_signals (1 / 2) _ e y _ Y hel hE hb.input (ht.seeF i hi'), Option.some.injEq] at hg
    rw [hti, ← hg] at hup
    simp only [Sum.elim_inl, tapSignal, tapWeight]
    rw [hup, tapSamples_sum Y _ _ ht.conf i]
    ring
  · have hj' := List.mem_toFinset.1 hj
    obtain ⟨t, ht', htj⟩ := nodup_update di j hj'
    obtain ⟨g, hg, hup⟩ := hd t ht'
    have hs := tapMean_signals (-1 / 2) j e d _ D (hel.trans hb.len_d.symm) hE hb.reference
      (by rw [hb.len_d]; exact ht.seeD j hj')
    rw [hb.len_d] at hs
    rw [hout', lmsReturn_dfe _ _ _ _ _ (by simp), getD_map_lt _ 0 none _ ht', htj, hs, Option.some.injEq] at hg
    rw [htj, ← hg] at hup
    simp only [Sum.elim_inr, tapSignal, tapWeight]
    rw [hup, tapSamples_sum D _ _ ht.confD j]
    simp only [mul_neg, sum_neg_distrib]
    ring

theorem tapMse_trainSq (N : ℕ) (F G : Finset ℤ) (hF : F ⊆ I) (hG : G ⊆ J) (b a b0 a0 : ℤ → ℝ)
    (hb : ∀ i ∈ I \ F, b i = b0 i) (ha : ∀ j ∈ J \ G, a j = a0 j) (hN : 0 < N) :
    trainSq (F.disjSum G) (Ico 0 (N : ℤ)) (tapSignal Y D) (tapTarget I J F G Y D b0 a0) (Sum.elim b a)
      = N * tapMse I J Y D N b a := by
  unfold trainSq tapMse meanLoss
  simp_rw [trainErr_taps I J F G hF hG Y D b a b0 a0 hb ha]
  rw [Int.card_Ico]
  have : ((((N : ℤ) - 0).toNat : ℕ) : ℝ) = N := by simp
  rw [this]
  have : (N : ℝ) ≠ 0 := by positivity
  field_simp

theorem tap_weights (ht : Trainable I J Y D y.length levels fi di) (hmu : 0 < mu) :
    (∀ c ∈ fi.toFinset.disjSum di.toFinset, 0 < tapWeight mu y.length c) ∧
    ∑ c ∈ fi.toFinset.disjSum di.toFinset, tapWeight mu y.length c * ∑ n ∈ Ico 0 (y.length : ℤ), tapSignal Y D c n ^ 2
      = mu / 2 * (∑ i ∈ fi.toFinset, tapPower Y y.length i + ∑ j ∈ di.toFinset, tapPower D y.length j) := by
  have hq : ∀ (x : ℤ → ℝ) (i : ℤ), Confined x y.length →
      ∑ n ∈ Ico 0 (y.length : ℤ), x (n - i) ^ 2 = ∑ n ∈ tapSamples y.length i, x (n - i) ^ 2 := by
    intro x i hx
    have := tapSamples_sum x (fun n => x (n - i)) y.length hx i
    simp_rw [pow_two]
    exact this.symm
  constructor
  · intro c hc
    rcases mem_disjSum.1 hc with ⟨i, hi, rfl⟩ | ⟨i, hi, rfl⟩
    · have := tapSamples_card_pos y.length i (ht.seeF i (List.mem_toFinset.1 hi))
      simp only [tapWeight, Sum.elim_inl]
      positivity
    · have := tapSamples_card_pos y.length i (ht.seeD i (List.mem_toFinset.1 hi))
      simp only [tapWeight, Sum.elim_inr]
      positivity
  · rw [sum_disjSum, mul_add, mul_sum, mul_sum]
    congr 1
    · refine sum_congr rfl (fun i _ => ?_)
      simp only [tapWeight, tapSignal, Sum.elim_inl, tapPower, meanLoss]
      rw [hq Y i ht.conf]
      ring
    · refine sum_congr rfl (fun i _ => ?_)
      simp only [tapWeight, tapSignal, Sum.elim_inr, tapPower, meanLoss, neg_sq]
      rw [hq D i ht.confD]
      ring

theorem tap_dist_le (ht : Trainable I J Y D y.length levels fi di) (hmu : 0 < mu) (b a b' a' : ℤ → ℝ) :
    ∑ c ∈ fi.toFinset.disjSum di.toFinset, (Sum.elim b a c - Sum.elim b' a' c) ^ 2 / tapWeight mu y.length c
      ≤ 2 * y.length / mu * tapDist fi.toFinset di.toFinset b a b' a' ∧
    2 / mu * tapDist fi.toFinset di.toFinset b a b' a'
      ≤ ∑ c ∈ fi.toFinset.disjSum di.toFinset, (Sum.elim b a c - Sum.elim b' a' c) ^ 2 / tapWeight mu y.length c := by
  have key : ∀ (i : ℤ) (v : ℝ), |i| < y.length →
      v ^ 2 / (mu / (2 * (tapSamples y.length i).card)) ≤ 2 * y.length / mu * v ^ 2 ∧
      2 / mu * v ^ 2 ≤ v ^ 2 / (mu / (2 * (tapSamples y.length i).card)) := by
    intro i v hi
    have h1 := tapSamples_card_pos y.length i hi
    have h2 := tapSamples_card_le y.length i
    have h3 : (1 : ℝ) ≤ (tapSamples y.length i).card := by
      have : 0 < (tapSamples y.length i).card := by exact_mod_cast h1
      exact_mod_cast this
    have e : v ^ 2 / (mu / (2 * (tapSamples y.length i).card)) = 2 * (tapSamples y.length i).card / mu * v ^ 2 := by
      field_simp
    rw [e]
    constructor
    · gcongr
    · have : 2 / mu * v ^ 2 = 2 * 1 / mu * v ^ 2 := by ring
      rw [this]
      gcongr
  unfold tapDist
  rw [sum_disjSum]
  simp only [tapWeight, Sum.elim_inl, Sum.elim_inr]
  rw [mul_add, mul_add, mul_sum, mul_sum, mul_sum, mul_sum]
  exact ⟨add_le_add (sum_le_sum fun i hi => (key i _ (ht.seeF i (List.mem_toFinset.1 hi))).1)
      (sum_le_sum fun i hi => (key i _ (ht.seeD i (List.mem_toFinset.1 hi))).1),
    add_le_add (sum_le_sum fun i hi => (key i _ (ht.seeF i (List.mem_toFinset.1 hi))).2)
      (sum_le_sum fun i hi => (key i _ (ht.seeD i (List.mem_toFinset.1 hi))).2)⟩

/-- C95: with a learning rate of at most two over the summed powers seen by the trained taps, no pass of the training
raises the mean squared error; it is lowered unless all returned gradients vanish. -/
theorem C95_descent (h : LmsRun I J Y D y d levels fi di mu b a) (ht : Trainable I J Y D y.length levels fi di)
    (hy : y ≠ []) (hmu : 0 < mu)
    (hstep : mu * (∑ i ∈ fi.toFinset, tapPower Y y.length i + ∑ j ∈ di.toFinset, tapPower D y.length j) ≤ 2) (k : ℕ) :
    tapMse I J Y D y.length (b (k + 1)) (a (k + 1)) ≤ tapMse I J Y D y.length (b k) (a k) ∧
      (tapMse I J Y D y.length (b (k + 1)) (a (k + 1)) = tapMse I J Y D y.length (b k) (a k) →
        b (k + 1) = b k ∧ a (k + 1) = a k) := by
  have hN : 0 < y.length := List.length_pos_of_ne_nil hy
  have hNr : (0 : ℝ) < y.length := by exact_mod_cast hN
  obtain ⟨hw, hL⟩ := tap_weights (mu := mu) ht hmu
  have hF : fi.toFinset ⊆ I := fun i hi => ht.subF i (List.mem_toFinset.1 hi)
  have hG : di.toFinset ⊆ J := fun i hi => ht.subD i (List.mem_toFinset.1 hi)
  have hms : ∀ k, _ = _ := fun k => tapMse_trainSq (Y := Y) (D := D) y.length fi.toFinset di.toFinset hF hG (b k) (a k) (b 0) (a 0)
    (fun i hi => h.keptF k i (fun hh => (mem_sdiff.1 hi).2 (List.mem_toFinset.2 hh)))
    (fun i hi => h.keptD k i (fun hh => (mem_sdiff.1 hi).2 (List.mem_toFinset.2 hh))) hN
  have hd := train_descent _ (Ico 0 (y.length : ℤ)) (tapSignal Y D)
    (tapTarget I J fi.toFinset di.toFinset Y D (b 0) (a 0)) (tapWeight mu y.length) hw (by rw [hL]; linarith)
    (Sum.elim (b k) (a k)) (Sum.elim (b (k + 1)) (a (k + 1))) (fun c hc => h.step ht k c hc)
  rw [hms k, hms (k + 1)] at hd
  have hnn : ∀ c ∈ fi.toFinset.disjSum di.toFinset, 0 ≤ tapWeight mu y.length c
      * trainCorr (fi.toFinset.disjSum di.toFinset) (Ico 0 (y.length : ℤ)) (tapSignal Y D)
        (tapTarget I J fi.toFinset di.toFinset Y D (b 0) (a 0)) (Sum.elim (b k) (a k)) c ^ 2 :=
    fun c hc => mul_nonneg (hw c hc).le (sq_nonneg _)
  have hs := sum_nonneg hnn
  refine ⟨le_of_mul_le_mul_left (by linarith) hNr, fun heq => ?_⟩
  rw [heq] at hd
  have hz := (sum_eq_zero_iff_of_nonneg hnn).1 (le_antisymm (by linarith) hs)
  have hc : ∀ c ∈ fi.toFinset.disjSum di.toFinset, Sum.elim (b (k + 1)) (a (k + 1)) c = Sum.elim (b k) (a k) c := by
    intro c hc
    rw [h.step ht k c hc]
    have := hz c hc
    rcases mul_eq_zero.1 this with h0 | h0
    · exact absurd h0 (hw c hc).ne'
    · rw [pow_eq_zero_iff two_ne_zero] at h0
      rw [h0]; ring
  constructor
  · funext i
    by_cases hi : i ∈ fi
    · exact hc (Sum.inl i) (inl_mem_disjSum.2 (List.mem_toFinset.2 hi))
    · exact h.keepF k i hi
  · funext i
    by_cases hi : i ∈ di
    · exact hc (Sum.inr i) (inr_mem_disjSum.2 (List.mem_toFinset.2 hi))
    · exact h.keepD k i hi

/-- C95: after `K` passes the mean squared error exceeds that of any other setting of the trained taps by at most twice
the squared distance of this setting from the initial one over `mu * K`. -/
theorem C95_rate (h : LmsRun I J Y D y d levels fi di mu b a) (ht : Trainable I J Y D y.length levels fi di)
    (hy : y ≠ []) (hmu : 0 < mu)
    (hstep : mu * (∑ i ∈ fi.toFinset, tapPower Y y.length i + ∑ j ∈ di.toFinset, tapPower D y.length j) ≤ 2)
    (b' a' : ℤ → ℝ) (hb' : ∀ i, i ∉ fi → b' i = b 0 i) (ha' : ∀ j, j ∉ di → a' j = a 0 j) (K : ℕ) (hK : 0 < K) :
    tapMse I J Y D y.length (b K) (a K)
      ≤ tapMse I J Y D y.length b' a' + 2 * tapDist fi.toFinset di.toFinset (b 0) (a 0) b' a' / (mu * K) := by
  have hN : 0 < y.length := List.length_pos_of_ne_nil hy
  have hNr : (0 : ℝ) < y.length := by exact_mod_cast hN
  have hKr : (0 : ℝ) < K := by exact_mod_cast hK
  obtain ⟨hw, hL⟩ := tap_weights (mu := mu) ht hmu
  have hF : fi.toFinset ⊆ I := fun i hi => ht.subF i (List.mem_toFinset.1 hi)
  have hG : di.toFinset ⊆ J := fun i hi => ht.subD i (List.mem_toFinset.1 hi)
  have hr := train_rate _ (Ico 0 (y.length : ℤ)) (tapSignal Y D)
    (tapTarget I J fi.toFinset di.toFinset Y D (b 0) (a 0)) (tapWeight mu y.length) hw (by rw [hL]; linarith)
    (fun k => Sum.elim (b k) (a k)) (Sum.elim b' a') (fun k c hc => h.step ht k c hc) K
  rw [tapMse_trainSq (Y := Y) (D := D) y.length fi.toFinset di.toFinset hF hG (b K) (a K) (b 0) (a 0)
    (fun i hi => h.keptF K i (fun hh => (mem_sdiff.1 hi).2 (List.mem_toFinset.2 hh)))
    (fun i hi => h.keptD K i (fun hh => (mem_sdiff.1 hi).2 (List.mem_toFinset.2 hh))) hN,
    tapMse_trainSq (Y := Y) (D := D) y.length fi.toFinset di.toFinset hF hG b' a' (b 0) (a 0)
    (fun i hi => hb' i (fun hh => (mem_sdiff.1 hi).2 (List.mem_toFinset.2 hh)))
    (fun i hi => ha' i (fun hh => (mem_sdiff.1 hi).2 (List.mem_toFinset.2 hh))) hN] at hr
  have h1 := (tap_dist_le (mu := mu) ht hmu (b 0) (a 0) b' a').1
  have h2 : 0 ≤ ∑ c ∈ fi.toFinset.disjSum di.toFinset,
      (Sum.elim (b K) (a K) c - Sum.elim b' a' c) ^ 2 / tapWeight mu y.length c :=
    sum_nonneg (fun c hc => div_nonneg (sq_nonneg _) (hw c hc).le)
  have h3 : K * (y.length * tapMse I J Y D y.length (b K) (a K) - y.length * tapMse I J Y D y.length b' a')
      ≤ 2 * y.length / mu * tapDist fi.toFinset di.toFinset (b 0) (a 0) b' a' := by linarith
  rw [← sub_le_iff_le_add', le_div_iff₀ (by positivity)]
  have h4 : (tapMse I J Y D y.length (b K) (a K) - tapMse I J Y D y.length b' a') * (mu * K)
      = mu / y.length * (K * (y.length * tapMse I J Y D y.length (b K) (a K) - y.length * tapMse I J Y D y.length b' a')) := by
    field_simp
  rw [h4]
  calc _ ≤ mu / y.length * (2 * y.length / mu * tapDist fi.toFinset di.toFinset (b 0) (a 0) b' a') := by gcongr
    _ = _ := by field_simp

/-- C95: if the mean squared error grows at least like `lam` times the squared distance from some setting (it has a
unique minimum), the taps converge to this setting geometrically. -/
theorem C95_taps (h : LmsRun I J Y D y d levels fi di mu b a) (ht : Trainable I J Y D y.length levels fi di)
    (hy : y ≠ []) (hmu : 0 < mu)
    (hstep : mu * (∑ i ∈ fi.toFinset, tapPower Y y.length i + ∑ j ∈ di.toFinset, tapPower D y.length j) ≤ 2)
    (b' a' : ℤ → ℝ) (hb' : ∀ i, i ∉ fi → b' i = b 0 i) (ha' : ∀ j, j ∉ di → a' j = a 0 j) (lam : ℝ) (hlam : 0 ≤ lam)
    (hmin : ∀ b₁ a₁ : ℤ → ℝ, (∀ i, i ∉ fi → b₁ i = b 0 i) → (∀ j, j ∉ di → a₁ j = a 0 j) →
      tapMse I J Y D y.length b' a' + lam * tapDist fi.toFinset di.toFinset b₁ a₁ b' a' ≤ tapMse I J Y D y.length b₁ a₁)
    (K : ℕ) :
    tapDist fi.toFinset di.toFinset (b K) (a K) b' a'
      ≤ y.length * tapDist fi.toFinset di.toFinset (b 0) (a 0) b' a' / (1 + lam * mu / 2) ^ K := by
  have hN : 0 < y.length := List.length_pos_of_ne_nil hy
  have hNr : (0 : ℝ) < y.length := by exact_mod_cast hN
  obtain ⟨hw, hL⟩ := tap_weights (mu := mu) ht hmu
  have hF : fi.toFinset ⊆ I := fun i hi => ht.subF i (List.mem_toFinset.1 hi)
  have hG : di.toFinset ⊆ J := fun i hi => ht.subD i (List.mem_toFinset.1 hi)
  have hr := train_geometric _ (Ico 0 (y.length : ℤ)) (tapSignal Y D)
    (tapTarget I J fi.toFinset di.toFinset Y D (b 0) (a 0)) (tapWeight mu y.length) hw (by rw [hL]; linarith)
    (fun k => Sum.elim (b k) (a k)) (Sum.elim b' a') (fun k c hc => h.step ht k c hc) (lam * mu / 2) (by positivity)
    (by
      intro k
      rw [tapMse_trainSq (Y := Y) (D := D) y.length fi.toFinset di.toFinset hF hG (b k) (a k) (b 0) (a 0)
        (fun i hi => h.keptF k i (fun hh => (mem_sdiff.1 hi).2 (List.mem_toFinset.2 hh)))
        (fun i hi => h.keptD k i (fun hh => (mem_sdiff.1 hi).2 (List.mem_toFinset.2 hh))) hN,
        tapMse_trainSq (Y := Y) (D := D) y.length fi.toFinset di.toFinset hF hG b' a' (b 0) (a 0)
        (fun i hi => hb' i (fun hh => (mem_sdiff.1 hi).2 (List.mem_toFinset.2 hh)))
        (fun i hi => ha' i (fun hh => (mem_sdiff.1 hi).2 (List.mem_toFinset.2 hh))) hN]
      have h1 := (tap_dist_le (mu := mu) ht hmu (b k) (a k) b' a').1
      have h2 := hmin (b k) (a k) (fun i hi => h.keptF k i hi) (fun i hi => h.keptD k i hi)
      have h3 : lam * mu / 2 * ∑ c ∈ fi.toFinset.disjSum di.toFinset,
          (Sum.elim (b k) (a k) c - Sum.elim b' a' c) ^ 2 / tapWeight mu y.length c
          ≤ lam * mu / 2 * (2 * y.length / mu * tapDist fi.toFinset di.toFinset (b k) (a k) b' a') :=
        mul_le_mul_of_nonneg_left h1 (by positivity)
      have h4 : lam * mu / 2 * (2 * y.length / mu * tapDist fi.toFinset di.toFinset (b k) (a k) b' a')
          = y.length * (lam * tapDist fi.toFinset di.toFinset (b k) (a k) b' a') := by field_simp
      have h5 := mul_le_mul_of_nonneg_left h2 hNr.le
      rw [mul_add] at h5
      linarith) K
  have h1 := (tap_dist_le (mu := mu) ht hmu (b 0) (a 0) b' a').1
  have h2 := (tap_dist_le (mu := mu) ht hmu (b K) (a K) b' a').2
  have hp : (0 : ℝ) < (1 + lam * mu / 2) ^ K := by positivity
  have h3 : 2 / mu * tapDist fi.toFinset di.toFinset (b K) (a K) b' a'
      ≤ 2 * y.length / mu * tapDist fi.toFinset di.toFinset (b 0) (a 0) b' a' / (1 + lam * mu / 2) ^ K :=
    (h2.trans hr).trans (div_le_div_of_nonneg_right h1 hp.le)
  have h4 : 2 * y.length / mu * tapDist fi.toFinset di.toFinset (b 0) (a 0) b' a' / (1 + lam * mu / 2) ^ K
      = 2 / mu * (y.length * tapDist fi.toFinset di.toFinset (b 0) (a 0) b' a' / (1 + lam * mu / 2) ^ K) := by ring
  rw [h4] at h3
  exact le_of_mul_le_mul_left h3 (by positivity)

/-- training can start from every setting of the taps: the hypotheses of the theorems are met -/
theorem lms_run_exists (mu : ℝ) (b0 a0 : ℤ → ℝ) (hY : IsBlock Y y) (hD : IsBlock D d) (hd : d.length = y.length)
    (ht : Trainable I J Y D y.length levels fi di) :
    ∃ b a, LmsRun I J Y D y d levels fi di mu b a ∧ b 0 = b0 ∧ a 0 = a0 := by
  classical
  obtain ⟨out, hout⟩ : ∃ out : (ℤ → ℝ) → (ℤ → ℝ) → List ℝ, ∀ b a, (out b a).length = y.length ∧
      IsBlock (equalized I J b a Y D) (out b a) := by
    refine ⟨fun b a => (List.range y.length).map (fun n : ℕ => equalized I J b a Y D n), fun b a => ⟨by simp, fun n hn => ?_⟩⟩
    rw [List.length_map, List.length_range] at hn
    show _ = ((List.range y.length).map (fun n : ℕ => equalized I J b a Y D n)).getD n 0
    rw [List.getD_eq_getElem _ _ (by simpa using hn), List.getElem_map, List.getElem_range]
  obtain ⟨s, hs0, hsk⟩ : ∃ s : ℕ → (ℤ → ℝ) × (ℤ → ℝ), s 0 = (b0, a0) ∧ ∀ k, s (k + 1)
      = (fun i => if i ∈ fi then (s k).1 i - ((tapMean (1 / 2) y.length i (List.zipWith (· - ·) (out (s k).1 (s k).2) d) y).getD 0) * mu
          else (s k).1 i,
        fun j => if j ∈ di then (s k).2 j - ((tapMean (-1 / 2) y.length j (List.zipWith (· - ·) (out (s k).1 (s k).2) d) d).getD 0) * mu
          else (s k).2 j) :=
    ⟨fun k => Nat.rec (b0, a0) (fun _ u =>
      (fun i => if i ∈ fi then u.1 i - ((tapMean (1 / 2) y.length i (List.zipWith (· - ·) (out u.1 u.2) d) y).getD 0) * mu
          else u.1 i,
        fun j => if j ∈ di then u.2 j - ((tapMean (-1 / 2) y.length j (List.zipWith (· - ·) (out u.1 u.2) d) d).getD 0) * mu
          else u.2 j)) k, rfl, fun _ => rfl⟩
  have hsome : ∀ (c : ℝ) (i : ℤ) (e x : List ℝ), |i| < y.length → ∃ g, tapMean c y.length i e x = some g := by
    intro c i e x hi
    unfold tapMean
    rw [if_neg (not_le.2 hi)]
    exact ⟨_, rfl⟩
  refine ⟨fun k => (s k).1, fun k => (s k).2, ⟨fun k => ?_, fun k i hi => ?_, fun k i hi => ?_⟩, by simp [hs0], by simp [hs0]⟩
  · obtain ⟨h1, h2⟩ := hout (s k).1 (s k).2
    refine ⟨out (s k).1 (s k).2, _, ⟨hY, hD, h1, hd, h2⟩, ddlmsGrad_run y _ d levels (some d) fi di h1
      ⟨hd.trans h1.symm, Or.inl rfl⟩ ht.lev ht.posD, fun t htl => ?_, fun t htl => ?_⟩
    · rw [lmsReturn_ffe _ _ _ _ _ (by simp), getD_map_lt _ 0 none _ htl]
      have hmem : fi.getD t 0 ∈ fi := by rw [List.getD_eq_getElem _ _ htl]; exact List.getElem_mem htl
      obtain ⟨g, hg⟩ := hsome (1 / 2) (fi.getD t 0) (List.zipWith (· - ·) (out (s k).1 (s k).2) d) y (ht.seeF _ hmem)
      refine ⟨g, hg, ?_⟩
      show (s (k + 1)).1 _ = _
      rw [hsk]
      simp only []
      rw [if_pos hmem, hg]
      rfl
    · rw [lmsReturn_dfe _ _ _ _ _ (by simp), getD_map_lt _ 0 none _ htl]
      have hmem : di.getD t 0 ∈ di := by rw [List.getD_eq_getElem _ _ htl]; exact List.getElem_mem htl
      obtain ⟨g, hg⟩ := hsome (-1 / 2) (di.getD t 0) (List.zipWith (· - ·) (out (s k).1 (s k).2) d) d (ht.seeD _ hmem)
      refine ⟨g, hg, ?_⟩
      show (s (k + 1)).2 _ = _
      rw [hsk]
      simp only []
      rw [if_pos hmem, hg]
      rfl
  · show (s (k + 1)).1 i = (s k).1 i
    rw [hsk]; simp only []; rw [if_neg hi]
  · show (s (k + 1)).2 i = (s k).2 i
    rw [hsk]; simp only []; rw [if_neg hi]

end run

/-- a lone symbol received with a precursor and a postcursor, three FFE taps and a feedback tap -/
example : Trainable {-1, 0, 1} {1} (fun n => if n = 2 then 1 else if n = 1 ∨ n = 3 then 1 / 4 else 0)
    (fun n => if n = 2 then 1 else 0) 5 [-1, 1] [-1, 0, 1] [1] := by
  refine ⟨?_, ?_, by simp, by simp, by simp, by simp, by simp, by simp⟩
  · intro n hn; simp only []; rw [if_neg (by push_cast at hn; omega), if_neg (by push_cast at hn; omega)]
  · intro n hn; simp only []; rw [if_neg (by push_cast at hn; omega)]

/-! ### The FFE training loop of the tests -/

/-- a list as a signal that vanishes outside of its range -/
noncomputable def listSig (l : List ℝ) (n : ℤ) : ℝ := if 0 ≤ n then l.getD n.toNat 0 else 0

theorem listSig_nat (l : List ℝ) (n : ℕ) : listSig l n = l.getD n 0 := by
  unfold listSig; rw [if_pos (by omega)]; rfl

theorem listSig_confined (l : List ℝ) : Confined (listSig l) l.length := by
  intro n hn
  unfold listSig
  split
  · rw [getD_of_le]; omega
  · rfl

theorem listSig_sub (l : List ℝ) (n i : ℕ) : listSig l ((n : ℤ) - i) = if i ≤ n then l.getD (n - i) 0 else 0 := by
  unfold listSig
  by_cases h : i ≤ n
  · rw [if_pos (by omega), if_pos h]
    congr 1; omega
  · rw [if_neg (by omega), if_neg h]

theorem ffe_signal (y t : List ℝ) (D : ℤ → ℝ) (ht : 1 ≤ t.length) (hy : y ≠ []) :
    ∃ o, ffeDfe y t none none 1 0 none none = .ok o ∧ o.signal.length = y.length ∧
      IsBlock (equalized ((range t.length).map Nat.castEmbedding) ∅ (listSig t) (fun _ => 0) (listSig y) D)
        o.signal := by
  have hN := List.length_pos_of_ne_nil hy
  have heq : ∀ n : ℕ, equalized ((range t.length).map Nat.castEmbedding) ∅ (listSig t) (fun _ => 0) (listSig y) D n
      = ∑ i ∈ range t.length, t.getD i 0 * (if i ≤ n then y.getD (n - i) 0 else 0) := by
    intro n
    unfold equalized
    rw [sum_map, sum_empty, sub_zero]
    refine sum_congr rfl (fun i _ => ?_)
    rw [Nat.castEmbedding_apply, listSig_nat, listSig_sub]
  by_cases h1 : t.length = 1
  · obtain ⟨f, rfl⟩ := List.length_eq_one_iff.1 h1
    refine ⟨_, C46_single_tap y f none 1 0 none none, by simp [EqOut.signal], ?_⟩
    intro n hn
    rw [heq]
    simp only [EqOut.signal, List.length_map] at hn ⊢
    rw [getD_map_lt _ 0 0 _ hn]
    simp [mul_comm]
  · obtain ⟨o, zo, h2, h3, h4, -⟩ := C46_convolution y t none 1 0 none none (by omega) (by simp) hN
    refine ⟨_, h2, h3, ?_⟩
    intro n hn
    simp only [EqOut.signal] at hn ⊢
    rw [heq, h4 n (by omega)]
    refine sum_congr rfl (fun i _ => ?_)
    congr 1
    unfold withPast
    by_cases h : i ≤ n
    · rw [if_pos h, if_pos (by omega)]
      congr 1; omega
    · rw [if_neg h, if_neg (by omega)]
      simp

theorem tapMse_ffeMse (y d t : List ℝ) :
    tapMse ((range t.length).map Nat.castEmbedding) ∅ (listSig y) (listSig d) y.length (listSig t) (fun _ => 0)
      = ffeMse y d t := by
  unfold tapMse ffeMse meanLoss
  rw [Int.card_Ico]
  have e1 : ((((y.length : ℤ) - 0).toNat : ℕ) : ℝ) = y.length := by simp
  rw [e1]
  congr 1
  have : Ico 0 (y.length : ℤ) = (range y.length).map Nat.castEmbedding := by
    ext n
    simp only [mem_Ico, mem_map, mem_range, Nat.castEmbedding_apply]
    constructor
    · intro h; exact ⟨n.toNat, by omega, by omega⟩
    · rintro ⟨k, hk, rfl⟩; omega
  rw [this, sum_map]
  refine sum_congr rfl (fun n _ => ?_)
  rw [Nat.castEmbedding_apply, listSig_nat]
  unfold equalized
  rw [sum_map, sum_empty, sub_zero]
  congr 2
  refine sum_congr rfl (fun i _ => ?_)
  rw [Nat.castEmbedding_apply, listSig_nat, listSig_sub]

/-- one pass on a whole record -/
theorem lmsFfePass_run (y d levels t : List ℝ) (mu : ℝ) (ht : 1 ≤ t.length) (htN : t.length ≤ y.length)
    (hd : d.length = y.length) (hlv : levels ≠ []) :
    ∃ l t', lmsFfePass 0 y d levels mu t = .ok (some l, t') ∧ l = ffeMse y d t ∧ t'.length = t.length ∧ ∃ o out,
      EqualizerBlock ((range t.length).map Nat.castEmbedding) ∅ (listSig t) (fun _ => 0) (listSig y) (listSig d) y o d ∧
      ddlmsGrad y o levels ((List.range t.length).map (fun i : ℕ => (i : ℤ))) [] (some d) = .ok out ∧
      ∀ i, i < t.length → ∃ g, out.ffeGrads.getD i none = some g ∧ t'.getD i 0 = t.getD i 0 - g * mu := by
  have hy : y ≠ [] := by rintro rfl; rw [List.length_nil] at htN; omega
  obtain ⟨o, ho, hol, hob⟩ := ffe_signal y t (listSig d) ht hy
  have hb : EqualizerBlock ((range t.length).map Nat.castEmbedding) ∅ (listSig t) (fun _ => 0) (listSig y) (listSig d) y
      o.signal d := ⟨fun n _ => listSig_nat y n, fun n _ => listSig_nat d n, hol, hd, hob⟩
  have href : IsReference levels o.signal (some d) d := ⟨hd.trans hol.symm, Or.inl rfl⟩
  obtain ⟨out, h1, h2, h3, -, h5, -⟩ := C54_gradients _ ∅ (listSig t) (fun _ => 0) (listSig y) (listSig d) y o.signal d levels
    (some d) ((List.range t.length).map (fun i : ℕ => (i : ℤ))) [] hb href hlv hy (by simp)
  have hg : ∀ i, i < t.length → ∃ g, out.ffeGrads.getD i none = some g := by
    intro i hi
    have hii : ((List.range t.length).map (fun i : ℕ => (i : ℤ))).getD i 0 = (i : ℤ) := by
      rw [List.getD_eq_getElem _ _ (by simpa using hi), List.getElem_map, List.getElem_range]
    obtain ⟨g, hg, -⟩ := h5 i (by simpa using hi) (by
      rw [hii]; exact mem_map.2 ⟨i, mem_range.2 hi, rfl⟩) (by
      rw [hii, abs_of_nonneg (by omega)]; omega)
    exact ⟨g, hg⟩
  rw [List.length_map, List.length_range] at h3
  refine ⟨ffeMse y d t, List.zipWith (fun t g => t - g.getD 0 * mu) t out.ffeGrads, ?_, rfl, by simp [h3], o.signal, out, hb,
    h1, ?_⟩
  · unfold lmsFfePass
    rw [ho]
    show ((ddlmsGrad (y.drop 0) (o.signal.drop 0) levels _ [] (some d)).bind _) = _
    rw [List.drop_zero, List.drop_zero, h1]
    show Except.ok (out.value, _) = Except.ok (some _, _)
    rw [h2]
    refine congrArg Except.ok (Prod.ext (congrArg some ?_) rfl)
    exact tapMse_ffeMse y d t
  · intro i hi
    obtain ⟨g, hg⟩ := hg i hi
    refine ⟨g, hg, ?_⟩
    rw [zipWith_getD _ 0 none 0 t out.ffeGrads hi (by rw [h3]; exact hi), hg]
    rfl

/-- C95: the FFE training loop on a record of the received signal, at rest before it, with symbols `d` as reference. If
the learning rate times the number of taps times the peak power of the record is at most 2, every pass succeeds, the
returned losses never increase, and after `K` passes the loss exceeds that of any other taps by at most twice their squared
distance from the initial taps over `mu * K`. -/
theorem C95_ffe (y d levels t0 : List ℝ) (mu A : ℝ) (ht : 1 ≤ t0.length) (htN : t0.length ≤ y.length)
    (hd : d.length = y.length) (hlv : levels ≠ []) (hA : ∀ v ∈ y, |v| ≤ A) (hmu : 0 < mu)
    (hstep : mu * (t0.length * A ^ 2) ≤ 2) :
    ∃ t : ℕ → List ℝ, t 0 = t0 ∧ (∀ k, (t k).length = t0.length ∧ lmsFfeTrain 0 y d levels mu t0 k = .ok (t k) ∧
        lmsFfePass 0 y d levels mu (t k) = .ok (some (ffeMse y d (t k)), t (k + 1)) ∧
        ffeMse y d (t (k + 1)) ≤ ffeMse y d (t k)) ∧
      ∀ K, 0 < K → ∀ t' : List ℝ, t'.length = t0.length → ffeMse y d (t K)
        ≤ ffeMse y d t' + 2 * (∑ i ∈ range t0.length, (t0.getD i 0 - t'.getD i 0) ^ 2) / (mu * K) := by
  have hy : y ≠ [] := by rintro rfl; rw [List.length_nil] at htN; omega
  obtain ⟨t, ht0, htk⟩ : ∃ t : ℕ → List ℝ, t 0 = t0 ∧ ∀ k, t (k + 1)
      = (match lmsFfePass 0 y d levels mu (t k) with | .ok r => r.2 | .error _ => []) :=
    ⟨fun k => Nat.rec t0 (fun _ u => match lmsFfePass 0 y d levels mu u with | .ok r => r.2 | .error _ => []) k, rfl,
      fun _ => rfl⟩
  have hlen : ∀ k, (t k).length = t0.length := by
    intro k
    induction k with
    | zero => rw [ht0]
    | succ k ih =>
      obtain ⟨l, t', h1, -, h2, -⟩ := lmsFfePass_run y d levels (t k) mu (by omega) (by omega) hd hlv
      rw [htk, h1]
      exact h2.trans ih
  have hpass : ∀ k, lmsFfePass 0 y d levels mu (t k) = .ok (some (ffeMse y d (t k)), t (k + 1)) := by
    intro k
    obtain ⟨l, t', h1, h2, -⟩ := lmsFfePass_run y d levels (t k) mu (by have := hlen k; omega) (by have := hlen k; omega) hd hlv
    rw [htk k, h1, h2]
  have hrun : LmsRun ((range t0.length).map Nat.castEmbedding) ∅ (listSig y) (listSig d) y d levels
      ((List.range t0.length).map (fun i : ℕ => (i : ℤ))) [] mu (fun k => listSig (t k)) (fun _ _ => 0) := by
    refine ⟨fun k => ?_, fun k i hi => ?_, fun _ _ _ => rfl⟩
    · obtain ⟨l, t', h1, -, h3, o, out, hb, hout, hup⟩ := lmsFfePass_run y d levels (t k) mu (by have := hlen k; omega)
        (by have := hlen k; omega) hd hlv
      have ht' : t' = t (k + 1) := by
        have := (hpass k).symm.trans h1
        exact (Prod.ext_iff.1 (Except.ok.inj this)).2.symm
      rw [hlen k] at hb hout hup
      refine ⟨o, out, hb, hout, fun i hi => ?_, fun i hi => by simp at hi⟩
      have hi' : i < t0.length := by simpa using hi
      obtain ⟨g, hg, hgu⟩ := hup i hi'
      have hii : ((List.range t0.length).map (fun i : ℕ => (i : ℤ))).getD i 0 = (i : ℤ) := by
        rw [List.getD_eq_getElem _ _ hi, List.getElem_map, List.getElem_range]
      refine ⟨g, hg, ?_⟩
      rw [hii, listSig_nat, listSig_nat, ← ht', hgu]
    · show listSig _ i = listSig _ i
      by_cases h0 : 0 ≤ i
      · obtain ⟨n, rfl⟩ := Int.eq_ofNat_of_zero_le h0
        have hn : t0.length ≤ n := by
          by_contra hc
          exact hi (List.mem_map.2 ⟨n, List.mem_range.2 (by omega), rfl⟩)
        rw [listSig_nat, listSig_nat, getD_of_le _ _ (by rw [hlen]; exact hn), getD_of_le _ _ (by rw [hlen]; exact hn)]
      · unfold listSig; rw [if_neg h0, if_neg h0]
  have htr : Trainable ((range t0.length).map Nat.castEmbedding) ∅ (listSig y) (listSig d) y.length levels
      ((List.range t0.length).map (fun i : ℕ => (i : ℤ))) [] := by
    refine ⟨listSig_confined y, hd ▸ listSig_confined d, hlv, fun i hi => ?_, by simp, by simp, fun i hi => ?_, by simp⟩
    · obtain ⟨n, hn, rfl⟩ := List.mem_map.1 hi
      exact mem_map.2 ⟨n, mem_range.2 (List.mem_range.1 hn), rfl⟩
    · obtain ⟨n, hn, rfl⟩ := List.mem_map.1 hi
      have := List.mem_range.1 hn
      rw [abs_of_nonneg (by omega)]; omega
  have hA0 : 0 ≤ A := by
    obtain ⟨v, l, rfl⟩ := List.exists_cons_of_ne_nil hy
    exact (abs_nonneg v).trans (hA v (by simp))
  have hpow : ∀ i, |i| < (y.length : ℤ) → tapPower (listSig y) y.length i ≤ A ^ 2 := by
    intro i hi
    have hc := tapSamples_card_pos y.length i hi
    unfold tapPower meanLoss
    rw [div_le_iff₀ hc, ← nsmul_eq_mul']
    refine sum_le_card_nsmul _ _ _ (fun n _ => ?_)
    show listSig y (n - i) ^ 2 ≤ A ^ 2
    rw [← sq_abs (listSig y (n - i))]
    refine pow_le_pow_left₀ (abs_nonneg _) ?_ 2
    unfold listSig
    split
    · by_cases hl : (n - i).toNat < y.length
      · rw [List.getD_eq_getElem _ _ hl]; exact hA _ (List.getElem_mem hl)
      · rw [getD_of_le _ _ (by omega), abs_zero]; exact hA0
    · rw [abs_zero]; exact hA0
  have hcard : ((List.range t0.length).map (fun i : ℕ => (i : ℤ))).toFinset = (range t0.length).map Nat.castEmbedding := by
    ext n; simp
  have hst : mu * (∑ i ∈ ((List.range t0.length).map (fun i : ℕ => (i : ℤ))).toFinset, tapPower (listSig y) y.length i
      + ∑ j ∈ ([] : List ℤ).toFinset, tapPower (listSig d) y.length j) ≤ 2 := by
    refine le_trans (mul_le_mul_of_nonneg_left ?_ hmu.le) hstep
    rw [List.toFinset_nil, sum_empty, add_zero]
    have := sum_le_card_nsmul ((List.range t0.length).map (fun i : ℕ => (i : ℤ))).toFinset
      (fun i => tapPower (listSig y) y.length i) (A ^ 2) (fun i hi => hpow i (htr.seeF i (List.mem_toFinset.1 hi)))
    rw [hcard, card_map, card_range, nsmul_eq_mul] at this
    rw [hcard]; exact this
  have hm : ∀ u : List ℝ, u.length = t0.length → tapMse ((range t0.length).map Nat.castEmbedding) ∅ (listSig y) (listSig d)
      y.length (listSig u) (fun _ => 0) = ffeMse y d u := by
    intro u hu
    rw [← hu]; exact tapMse_ffeMse y d u
  refine ⟨t, ht0, fun k => ⟨hlen k, ?_, hpass k, ?_⟩, fun K hK t' ht' => ?_⟩
  · induction k with
    | zero => rw [ht0]; rfl
    | succ k ih =>
      unfold lmsFfeTrain
      rw [ih]
      show ((lmsFfePass 0 y d levels mu (t k)).bind _) = _
      rw [hpass k]; rfl
  · have := (C95_descent hrun htr hy hmu hst k).1
    rwa [hm _ (hlen _), hm _ (hlen _)] at this
  · have := C95_rate hrun htr hy hmu hst (listSig t') (fun _ => 0) (fun i hi => by
      show listSig _ i = listSig _ i
      by_cases h0 : 0 ≤ i
      · obtain ⟨n, rfl⟩ := Int.eq_ofNat_of_zero_le h0
        have hn : t0.length ≤ n := by
          by_contra hc
          exact hi (List.mem_map.2 ⟨n, List.mem_range.2 (by omega), rfl⟩)
        rw [listSig_nat, listSig_nat, getD_of_le _ _ (by omega), getD_of_le _ _ (by rw [hlen]; exact hn)]
      · unfold listSig; rw [if_neg h0, if_neg h0]) (fun _ _ => rfl) K hK
    rw [hm _ (hlen _), hm _ ht'] at this
    refine this.trans (le_of_eq ?_)
    congr 3
    unfold tapDist
    rw [List.toFinset_nil, sum_empty, add_zero, hcard, sum_map]
    refine sum_congr rfl (fun i _ => ?_)
    rw [Nat.castEmbedding_apply, listSig_nat, listSig_nat, ht0]

/-- C95: one pass with the first `skip` samples dropped, as in the tests. The loss returned is the mean squared error of
the remaining samples, equalized with the whole record, and each tap moves against the derivative of the mean over the
remaining samples at which it sees remaining data. -/
theorem C95_pass (skip : ℕ) (y d levels t : List ℝ) (mu : ℝ) (ht : 1 ≤ t.length) (htN : skip + t.length ≤ y.length)
    (hd : d.length = y.length - skip) (hlv : levels ≠ []) :
    ∃ t', lmsFfePass skip y d levels mu t = .ok (some (meanLoss (Ico 0 ((y.length - skip : ℕ) : ℤ)) (fun n =>
        (∑ k ∈ range t.length, t.getD k 0 * listSig y (n + skip - k) - listSig d n) ^ 2)), t') ∧ t'.length = t.length ∧
      ∀ i < t.length, ∃ g, t'.getD i 0 = t.getD i 0 - g * mu ∧
        HasDerivAt (fun v => meanLoss (Ico (i : ℤ) ((y.length - skip : ℕ) : ℤ)) (fun n =>
          (∑ k ∈ range t.length, (if k = i then v else t.getD k 0) * listSig y (n + skip - k) - listSig d n) ^ 2))
          (4 * g) (t.getD i 0) := by
  have hy : y ≠ [] := by rintro rfl; rw [List.length_nil] at htN; omega
  have hyl : (y.drop skip).length = y.length - skip := List.length_drop
  have hyd : y.drop skip ≠ [] := by intro h; rw [h, List.length_nil] at hyl; omega
  obtain ⟨o, ho, hol, hob⟩ := ffe_signal y t (fun n => listSig d (n - skip)) ht hy
  have heq : ∀ (b : ℤ → ℝ) (n : ℤ), equalized ((range t.length).map Nat.castEmbedding) ∅ b (fun _ => 0) (fun n => listSig y (n + skip)) (listSig d) n
      = ∑ k ∈ range t.length, b k * listSig y (n + skip - k) := by
    intro b n
    unfold equalized
    rw [sum_map, sum_empty, sub_zero]
    refine sum_congr rfl fun i _ => ?_
    rw [Nat.castEmbedding_apply]
    beta_reduce
    rw [show n - (i : ℤ) + skip = n + skip - i by ring]
  have hb : EqualizerBlock ((range t.length).map Nat.castEmbedding) ∅ (listSig t) (fun _ => 0) (fun n => listSig y (n + skip)) (listSig d)
      (y.drop skip) (o.signal.drop skip) d := by
    refine ⟨fun n _ => ?_, fun n _ => listSig_nat d n, by rw [List.length_drop, List.length_drop, hol], by rw [hd, hyl], fun n hn => ?_⟩
    · rw [drop_getD, ← listSig_nat]; congr 1; push_cast; ring
    · rw [List.length_drop] at hn
      have h1 := hob (skip + n) (by omega)
      rw [drop_getD, heq]
      refine Eq.trans ?_ (h1.trans (by congr 1))
      unfold equalized
      rw [sum_map, sum_empty, sub_zero]
      refine sum_congr rfl fun i _ => ?_
      rw [Nat.castEmbedding_apply]
      congr 2
      push_cast; ring
  have href : IsReference levels (o.signal.drop skip) (some d) d := ⟨by rw [List.length_drop, hol, hd], Or.inl rfl⟩
  obtain ⟨out, h1, h2, h3, -, h5, -⟩ := C54_gradients _ ∅ (listSig t) (fun _ => 0) _ (listSig d) (y.drop skip) (o.signal.drop skip) d levels
    (some d) ((List.range t.length).map (fun i : ℕ => (i : ℤ))) [] hb href hlv hyd (by simp)
  rw [hyl] at h2
  rw [List.length_map, List.length_range] at h3
  refine ⟨List.zipWith (fun t g => t - g.getD 0 * mu) t out.ffeGrads, ?_, by simp [h3], fun i hi => ?_⟩
  · unfold lmsFfePass
    rw [ho]
    show ((ddlmsGrad (y.drop skip) (o.signal.drop skip) levels _ [] (some d)).bind _) = _
    rw [h1]
    show Except.ok (out.value, _) = Except.ok (some _, _)
    rw [h2]
    refine congrArg Except.ok (Prod.ext (congrArg some ?_) rfl)
    unfold meanLoss
    congr 1
    refine sum_congr rfl fun n _ => ?_
    beta_reduce
    rw [heq]
    simp only [listSig_nat]
  · have hii : ((List.range t.length).map (fun i : ℕ => (i : ℤ))).getD i 0 = (i : ℤ) := by
      rw [List.getD_eq_getElem _ _ (by simpa using hi), List.getElem_map, List.getElem_range]
    obtain ⟨g, hg, hgd⟩ := h5 i (by simpa using hi) (by
      rw [hii]; exact mem_map.2 ⟨i, mem_range.2 hi, rfl⟩) (by
      rw [hii, abs_of_nonneg (by omega), hyl]; omega)
    refine ⟨g, ?_, ?_⟩
    · rw [zipWith_getD _ 0 none 0 t out.ffeGrads hi (by rw [h3]; exact hi), hg]
      rfl
    · rw [hii, listSig_nat] at hgd
      have hS : tapSamples (y.drop skip).length (i : ℤ) = Ico (i : ℤ) ((y.length - skip : ℕ) : ℤ) := by
        ext n
        unfold tapSamples
        rw [mem_filter, mem_Ico, mem_Ico, hyl]
        omega
      rw [hS] at hgd
      have hfun : (fun v => meanLoss (Ico (i : ℤ) ((y.length - skip : ℕ) : ℤ)) (fun n =>
          (∑ k ∈ range t.length, (if k = i then v else t.getD k 0) * listSig y (n + skip - k) - listSig d n) ^ 2))
          = fun v => meanLoss (Ico (i : ℤ) ((y.length - skip : ℕ) : ℤ)) (fun n =>
            (equalized ((range t.length).map Nat.castEmbedding) ∅ (Function.update (listSig t) i v) (fun _ => 0)
              (fun n => listSig y (n + skip)) (listSig d) n - listSig d n) ^ 2) := by
        funext v
        unfold meanLoss
        congr 1
        refine sum_congr rfl fun n _ => ?_
        beta_reduce
        rw [heq]
        congr 2
        refine sum_congr rfl fun k _ => ?_
        rw [Function.update_apply, listSig_nat]
        simp only [Nat.cast_inj]
      rw [hfun]
      exact hgd

/-- C95: a block out of the middle of a stream, as the tests pass it, is not covered: the gradient of a tap leaves out the
samples at which the tap sees data from before the block, while these samples count in the loss. Here the gradient of the
tap of delay 1 is positive although the loss decreases with the tap: subtracting the gradient raises the loss for every
positive learning rate. -/
theorem C95_negative :
    ∃ (Y D : ℤ → ℝ) (y o d : List ℝ) (out : LmsOut ℝ) (g : ℝ),
      EqualizerBlock {1} ∅ (fun _ => 0) (fun _ => 0) Y D y o d ∧ ddlmsGrad y o [-1, 1] [1] [] (some d) = .ok out ∧
      out = .ffe (some (tapMse {1} ∅ Y D 2 (fun _ => 0) (fun _ => 0))) [some g] ∧
      ∀ mu, 0 < mu → tapMse {1} ∅ Y D 2 (fun _ => 0) (fun _ => 0)
        < tapMse {1} ∅ Y D 2 (fun _ => 0 - g * mu) (fun _ => 0) := by
  have hI : Ico 0 ((2 : ℕ) : ℤ) = {0, 1} := by decide
  have hm : ∀ t : ℝ, tapMse {1} ∅ (fun n => if n = -1 then 3 else 1) (fun n => if n = 0 then 1 else -1) 2 (fun _ => t) (fun _ => 0)
      = 5 * t ^ 2 - 2 * t + 1 := by
    intro t
    unfold tapMse meanLoss equalized
    rw [hI]
    simp
    ring
  refine ⟨fun n => if n = -1 then 3 else 1, fun n => if n = 0 then 1 else -1, [1, 1], [0, 0], [1, -1], _, 1 / 2, ?_, ?_, rfl, ?_⟩
  · refine ⟨?_, ?_, rfl, rfl, ?_⟩ <;>
    · intro n hn
      have : n = 0 ∨ n = 1 := by simp at hn; omega
      rcases this with rfl | rfl <;> simp [equalized]
  · rw [hm]
    rw [ddlmsGrad_run [1, 1] [0, 0] [1, -1] [-1, 1] (some [1, -1]) [1] [] rfl ⟨rfl, Or.inl rfl⟩ (by simp) (by simp)]
    have hs : tapSamples 2 1 = {1} := by decide +kernel
    simp [lmsReturn, meanOpt, tapMean, hs]
  · intro mu hmu
    rw [hm, hm]
    nlinarith

/-- a record of a decaying pulse, two taps, learning rate 1 -/
example : ∃ t : ℕ → List ℝ, t 0 = [1, 0] ∧ ∀ K, 0 < K → ffeMse [1, 1 / 2, 0] [1, 0, 0] (t K)
    ≤ ffeMse [1, 1 / 2, 0] [1, 0, 0] [1, -1 / 2] + 2 * (∑ i ∈ range 2, (([1, 0] : List ℝ).getD i 0 - [1, -1 / 2].getD i 0) ^ 2)
      / (1 * K) := by
  obtain ⟨t, h0, -, h⟩ := C95_ffe [1, 1 / 2, 0] [1, 0, 0] [-1, 1] [1, 0] 1 1 (by simp) (by simp) rfl (by simp)
    (by intro v hv; simp at hv; rcases hv with rfl | rfl | rfl <;> norm_num [abs_le]) one_pos (by norm_num)
  exact ⟨t, h0, fun K hK => h K hK _ rfl⟩

/-- four samples, two taps, the first two samples dropped as in the test -/
example : ∃ t', lmsFfePass 2 [1, 1 / 2, 0, 1] [1, -1] [-1, 1] (1 / 10) ([1, 0] : List ℝ) = .ok (some (5 / 2), t') := by
  obtain ⟨t', h, -⟩ := C95_pass 2 [1, 1 / 2, 0, 1] [1, -1] [-1, 1] [1, 0] (1 / 10) (by simp) (by simp) rfl (by simp)
  refine ⟨t', h.trans ?_⟩
  congr 3
  unfold meanLoss
  rw [show Ico (0 : ℤ) ((([1, 1 / 2, 0, 1] : List ℝ).length - 2 : ℕ) : ℤ) = {0, 1} by decide, sum_pair (by norm_num)]
  simp [sum_range_succ, listSig]
  norm_num

end Verif
