import Verif.Lemmas.LmsTest2
import Verif.Props.LmsTrain
/-! One pass of the FFE training of the project's test, when the pattern lock is right. -/

open Finset

namespace Verif
open Spec (txLevel BestPhase tapSamples equalized IsBlock)

/-- the samples seen by a feed forward tap -/
theorem tapSamples_sum_ffe (L j : ℕ) (f : ℤ → ℝ) :
    ∑ n ∈ tapSamples L (j : ℤ), f n = ∑ n ∈ Ico j L, f n ∧ (tapSamples L (j : ℤ)).card = L - j := by
  have h : tapSamples L (j : ℤ) = (Ico j L).map Nat.castEmbedding := by
    ext n
    simp only [tapSamples, mem_filter, mem_Ico, mem_map, Nat.castEmbedding_apply]
    constructor
    · rintro ⟨⟨h1, h2⟩, h3, h4⟩
      exact ⟨n.toNat, ⟨by omega, by omega⟩, by omega⟩
    · rintro ⟨m, ⟨h1, h2⟩, rfl⟩
      omega
  rw [h, sum_map, card_map, Nat.card_Ico]
  exact ⟨rfl, rfl⟩

/-- one pass of the FFE training of the test without precursors, if the equalized signal has one best phase -/
theorem lmsFfeTestPass_run (p : PrbsEnum) (M : ℕ) (y t levels : List ℝ) (mu : ℝ) (φ : ℤ) (hK : 1 ≤ t.length) (hKN : t.length ≤ 2 ^ p.value - 1)
    (hlv : levels ≠ [])
    (hR : 2 ^ p.value - 1 + t.length ≤ y.length) (hRM : y.length ≤ M) (sig : ℕ → ℝ)
    (hsig : ∀ n, sig n = ∑ j ∈ range t.length, t.getD j 0 * y.getD (n + t.length - j) 0)
    (hbest : ∀ s : ℕ, BestPhase (fun t : ℤ => refZ p .ook false false false false false (t : ZMod (2 ^ p.value - 1)))
      sig (2 ^ p.value - 1) s → ((s : ℤ) : ZMod (2 ^ p.value - 1)) = (φ : ZMod (2 ^ p.value - 1))) :
    ∃ l t', lmsFfeTestPass false 0
        ((List.range M).map (txLevel .ook false false false false false (bitAt (getPolynomial p) (onesSeed p))))
        (2 ^ p.value - 1) y levels mu t = .ok (some l, t') ∧ t'.length = t.length ∧
      ∀ j < t.length, t'.getD j 0 = t.getD j 0 - mu * (1 / 2 * ((∑ n ∈ Ico j (y.length - t.length),
        (sig n - refZ p .ook false false false false false ((n + φ : ℤ) : ZMod (2 ^ p.value - 1))) * y.getD (n + t.length - j) 0)
          / ((y.length - t.length - j : ℕ) : ℝ))) := by
  have hN := period_ge p
  have hy : y ≠ [] := by rintro rfl; rw [List.length_nil] at hR; omega
  obtain ⟨o, ho, hol, hob⟩ := ffe_signal y t (fun _ => 0) hK hy
  obtain ⟨L, hL⟩ : ∃ L, L = y.length - t.length := ⟨_, rfl⟩
  obtain ⟨sl, hsl⟩ : ∃ sl, sl = o.signal.drop t.length := ⟨_, rfl⟩
  obtain ⟨yd, hyd⟩ : ∃ yd, yd = y.drop t.length := ⟨_, rfl⟩
  have hydl : yd.length = L := by rw [hyd, List.length_drop, hL]
  have hsll : sl.length = L := by rw [hsl, List.length_drop, hol, hL]
  have hslg : ∀ n < L, sl.getD n 0 = sig n := by
    intro n hn
    rw [hsl, drop_getD, ← hob (t.length + n) (by omega), equalized, sum_map, sum_empty, sub_zero, hsig]
    refine sum_congr rfl fun i hi => ?_
    rw [mem_range] at hi
    rw [Nat.castEmbedding_apply, listSig_nat, listSig_sub, if_pos (by omega), show t.length + n - i = n + t.length - i by omega]
  have hrep := alignedReference_lock p M φ sl (by omega) (by omega) (fun s hb => by
    refine hbest s ?_
    intro k
    have e : ∀ k : ℤ, ∑ i ∈ range (2 ^ p.value - 1), refZ p .ook false false false false false ((i + k : ℤ) : ZMod (2 ^ p.value - 1)) * sl.getD i 0
        = ∑ i ∈ range (2 ^ p.value - 1), refZ p .ook false false false false false ((i + k : ℤ) : ZMod (2 ^ p.value - 1)) * sig i := by
      intro k
      refine sum_congr rfl fun i hi => ?_
      rw [mem_range] at hi
      rw [hslg i (by omega)]
    have h1 := hb k
    rw [e, e] at h1
    exact h1)
  obtain ⟨rep, hrepd⟩ : ∃ rep : List ℝ, rep = (List.range sl.length).map fun n : ℕ =>
      refZ p .ook false false false false false ((n + φ : ℤ) : ZMod (2 ^ p.value - 1)) := ⟨_, rfl⟩
  rw [← hrepd] at hrep
  have hrl : rep.length = L := by simp [hrepd, hsll]
  have hrg : ∀ n : ℕ, n < L → rep.getD n 0 = refZ p .ook false false false false false ((n + φ : ℤ) : ZMod (2 ^ p.value - 1)) := by
    intro n hn
    rw [hrepd, map_range_getD _ _ _ _ (by omega)]
  have hrun := ddlmsGrad_run yd sl rep levels (some rep) ((List.range t.length).map (fun i : ℕ => (i : ℤ) - (0 : ℕ))) []
    (by omega) ⟨by omega, Or.inl rfl⟩ hlv (by simp)
  obtain ⟨e, he⟩ : ∃ e, e = List.zipWith (· - ·) sl rep := ⟨_, rfl⟩
  rw [← he] at hrun
  have hel : e.length = L := by rw [he, List.length_zipWith, hsll, hrl, min_self]
  have heg : ∀ n : ℕ, n < L → e.getD n 0 = sig n - refZ p .ook false false false false false ((n + φ : ℤ) : ZMod (2 ^ p.value - 1)) := by
    intro n hn
    rw [he, zipWith_getD _ 0 0 0 _ _ (by omega) (by omega), hslg n hn, hrg n hn]
  have hval : ∃ l, meanOpt (e.map (fun v => v ^ 2)) = some l := by
    rw [meanOpt, List.length_map, if_neg (by omega)]
    exact ⟨_, rfl⟩
  obtain ⟨l, hl⟩ := hval
  have hgrad : ∀ j, j < t.length → tapMean (1 / 2) yd.length ((j : ℤ) - (0 : ℕ)) e yd
      = some (1 / 2 * ((∑ n ∈ Ico j L, (sig n - refZ p .ook false false false false false ((n + φ : ℤ) : ZMod (2 ^ p.value - 1)))
        * y.getD (n + t.length - j) 0) / ((L - j : ℕ) : ℝ))) := by
    intro j hj
    rw [Nat.cast_zero, sub_zero]
    have hs := tapMean_signals (1 / 2) (j : ℤ) e yd (fun n : ℤ => e.getD n.toNat 0) (fun n : ℤ => yd.getD n.toNat 0) (by omega)
      (fun n hn => by simp only [Int.toNat_natCast]) (fun n hn => by simp only [Int.toNat_natCast]) (by rw [abs_of_nonneg (by omega)]; omega)
    obtain ⟨h1, h2⟩ := tapSamples_sum_ffe yd.length j (fun n => e.getD n.toNat 0 * yd.getD (n - j).toNat 0)
    rw [hs, h1, h2, hydl]
    congr 3
    refine sum_congr rfl fun n hn => ?_
    rw [mem_Ico] at hn
    rw [Int.toNat_natCast, heg n hn.2, hyd, drop_getD]
    congr 2
    omega
  refine ⟨l, lmsUpdate t (((List.range t.length).map (fun i : ℕ => (i : ℤ) - (0 : ℕ))).map
    (fun j => tapMean (1 / 2) yd.length j e yd)) mu, ?_, ?_, ?_⟩
  · rw [lmsFfeTestPass, ho, py_ok_bind, ← hsl]
    dsimp only
    rw [hrep, py_ok_bind]
    simp only [Bool.false_eq_true, if_false]
    rw [← hyd, hrun, py_ok_bind, lmsReturn_value, lmsReturn_ffe _ _ _ _ _ (by simp), hl]
    rfl
  · simp [lmsUpdate]
  · intro j hj
    rw [lmsUpdate, zipWith_getD _ 0 none 0 _ _ hj (by simp [hj]), List.map_map, map_range_getD _ _ _ _ hj]
    simp only [Function.comp_apply]
    rw [hgrad j hj, ← hL]
    simp only [Option.getD_some]
    ring

/-- whatever its losses, the training loop ends with the taps of one of its passes -/
theorem trainLoop_invariant (pass : List ℝ → Py (Option ℝ × List ℝ)) (tol : ℝ) (P : ℕ → List ℝ → Prop) (n : ℕ)
    (hstep : ∀ m t, m < n → P m t → ∃ l t', pass t = .ok (some l, t') ∧ P (m + 1) t') :
    ∀ (k m : ℕ) (l : ℝ) (t : List ℝ), m + k = n → P m t → ∃ m' t', trainLoop pass tol k (some l) t = .ok t' ∧ m' ≤ n ∧ P m' t' := by
  intro k
  induction k with
  | zero => exact fun m l t hm ht => ⟨m, t, rfl, by omega, ht⟩
  | succ k ih =>
    intro m l t hm ht
    rw [trainLoop]
    split_ifs with h1
    · obtain ⟨l', t', hp, hP⟩ := hstep m t (by omega) ht
      rw [hp, py_ok_bind]
      dsimp only
      split_ifs with h2
      · exact ⟨m + 1, t', rfl, by omega, hP⟩
      · exact ih (m + 1) l' t' (by omega) hP
    · exact ⟨m, t, rfl, by omega, ht⟩

end Verif
