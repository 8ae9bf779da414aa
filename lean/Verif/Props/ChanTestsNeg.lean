import Verif.Props.ChanTests
import Verif.Lemmas.ChanWitness
import Verif.Lemmas.Ffe

/-!
# A draw for which the project's test of the channel estimation fails (C91)
-/

open Finset

namespace Verif
open Spec (unitScale flipBit txLevel periodic chanOut popVar MainTap IsLs periodAvg BestPhase)

theorem wit7_mod (i r : ℕ) : wit7 (i + r % 127) = wit7 (i + r) := by
  rw [wit7, wit7]
  congr 3
  omega

theorem wit7_symbol (n : ℤ) (hn : 0 ≤ n) : periodic (2 ^ PrbsEnum.prbs7.value - 1)
    (txLevel .nrz false false false false false (bitAt (getPolynomial .prbs7) (onesSeed .prbs7))) n = (wit7 n.toNat : ℝ) := by
  obtain ⟨t, rfl⟩ := Int.eq_ofNat_of_zero_le hn
  have h1 := csvData_eq .prbs7 _ rfl
  have h2 : bitAt (getPolynomial .prbs7) (onesSeed .prbs7) (t % 127) = if csvPrbs7.testBit (t % 127) then 1 else 0 := by
    have h3 := congrArg (fun l => l.getD (t % 127) 0) h1
    rw [csvBits, map_range_getD _ _ _ _ (Nat.mod_lt _ (by norm_num))] at h3
    rw [map_range_getD _ _ _ _ (show t % 127 < 2 ^ PrbsEnum.prbs7.value - 1 from Nat.mod_lt _ (by norm_num))] at h3
    exact h3.symm
  have h4 : (((t : ℤ) % ((2 ^ PrbsEnum.prbs7.value - 1 : ℕ) : ℤ)).toNat) = t % 127 := by
    rw [show (2 ^ PrbsEnum.prbs7.value - 1 : ℕ) = 127 from rfl]
    omega
  rw [periodic, h4]
  simp only [txLevel, unitScale, flipBit, Bool.false_eq_true, if_false, one_mul]
  rw [h2, Int.toNat_natCast, wit7]
  split_ifs <;> norm_num

theorem int_list_sum (n : ℕ) (f : ℕ → ℤ) : ((List.range n).map f).sum = ∑ i ∈ range n, f i := by
  induction n with
  | zero => rfl
  | succ n ih => rw [List.range_succ, List.map_append, List.sum_append, ih, sum_range_succ]; simp

/-- the drawn precursors and postcursors of the counterexample -/
noncomputable def witPre : List ℝ := (witTaps.take 8).map fun v : ℤ => (v : ℝ) / 2
noncomputable def witPost : List ℝ := (witTaps.drop 9).map fun v : ℤ => (v : ℝ) / 2

theorem wit_channel : witPre ++ [1] ++ witPost = witTaps.map fun v : ℤ => (v : ℝ) / 2 := by
  have h : witTaps = witTaps.take 8 ++ [2] ++ witTaps.drop 9 := by decide
  have h1 : [(1 : ℝ)] = [(2 : ℤ)].map fun v : ℤ => (v : ℝ) / 2 := by simp
  rw [witPre, witPost, h1, ← List.map_append, ← List.map_append, ← h]

/-- **C91, disagreement.** The test can fail in exact arithmetic: with PRBS7, NRZ, two repetitions, cutoff 24 and these 8
precursors and 32 postcursors, all ±1/2 and so within what it draws, the lock takes phase 5 instead of 34 and the estimate
has equal first and main taps. -/
theorem C91_negative (ls : Solver ℝ) (bits : List Int) (hd : csvData .prbs7 = some bits)
    (hls : IsLs (solveWith ls .none 0) 41) :
    witPre.length = 8 ∧ witPost.length = 32 ∧ (∀ v ∈ witPre ++ witPost, |v| ≤ 1 / 2) ∧
      channelEstimationTest ls .prbs7 bits .nrz witPre witPost 2 24 = .ok false := by
  have hl1 : witPre.length = 8 := by rw [witPre, List.length_map]; decide
  have hl2 : witPost.length = 32 := by rw [witPost, List.length_map]; decide
  refine ⟨hl1, hl2, ?_, ?_⟩
  · rw [witPre, witPost, ← List.map_append]
    intro v hv
    rw [List.mem_map] at hv
    obtain ⟨w, hw, rfl⟩ := hv
    have : ∀ w ∈ witTaps.take 8 ++ witTaps.drop 9, w = 1 ∨ w = -1 := by decide
    rcases this w hw with rfl | rfl <;> norm_num
  obtain ⟨h, hh⟩ : ∃ h, h = witPre ++ [1] ++ witPost := ⟨_, rfl⟩
  have hl : h.length = 41 := by rw [hh]; simp [hl1, hl2]
  have hg : ∀ k, h.getD k 0 = ((witTaps.getD k 0 : ℤ) : ℝ) / 2 := by
    intro k
    rw [hh, wit_channel]
    rcases Nat.lt_or_ge k witTaps.length with hk | hk
    · rw [List.getD_eq_getElem _ _ (by simpa using hk), List.getD_eq_getElem _ _ hk, List.getElem_map]
    · rw [getD_of_le 0 _ (by simpa using hk), getD_of_le 0 _ hk]; simp
  obtain ⟨y, z, h1, h2, h3⟩ := filtered_pattern .prbs7 .nrz h 8 (by omega) (2 * (2 ^ PrbsEnum.prbs7.value - 1) - 24) (by decide)
  obtain ⟨x, hxd⟩ : ∃ x, x = periodic (2 ^ PrbsEnum.prbs7.value - 1)
    (txLevel .nrz false false false false false (bitAt (getPolynomial .prbs7) (onesSeed .prbs7))) := ⟨_, rfl⟩
  rw [← hxd] at h3
  have hxw : ∀ n : ℤ, 0 ≤ n → x n = (wit7 n.toNat : ℝ) := by rw [hxd]; exact wit7_symbol
  have hyl : (y.drop (h.length + 1)).length = 188 := by rw [List.length_drop, h2, hl]; rfl
  have hsig : ∀ t < 188, (y.drop (h.length + 1)).getD t 0 = chanOut h 8 x (t + 34) := by
    intro t ht
    rw [h3 t (by rw [hl]; show t + 42 < 2 * (2 ^ 7 - 1) - 24; omega), hl]
    norm_num
  have hval : ∀ t < 188, (y.drop (h.length + 1)).getD t 0 = ((witOut.getD t 0 : ℤ) : ℝ) / 2 := by
    intro t ht
    rw [hsig t ht, ← witOut_eq t ht, chanOut, hl, int_list_sum, Int.cast_sum, sum_div]
    refine sum_congr rfl fun k hk => ?_
    rw [mem_range] at hk
    rw [hg, hxw _ (by push_cast; omega), show ((t : ℤ) + 34 + (8 : ℕ) - k).toNat = t + 42 - k by omega]
    push_cast
    ring
  have hopt := C68_optimal ls .prbs7 .nrz (by decide) false false false false false true _
    (lfsrStream_bitAt (getPolynomial .prbs7) (onesSeed .prbs7) (by rw [poly_length]; simp)) 32 8 (by decide)
    (y.drop (h.length + 1)) (by rw [hyl]; decide) hls
  simp only [← hxd] at hopt
  obtain ⟨m, hmd⟩ : ∃ m, m = periodAvg (2 ^ PrbsEnum.prbs7.value - 1)
    ((y.drop (h.length + 1)).length / (2 ^ PrbsEnum.prbs7.value - 1)) (fun t => (y.drop (h.length + 1)).getD t 0) := ⟨_, rfl⟩
  simp only [← hmd] at hopt
  have hm : ∀ t, m t = (y.drop (h.length + 1)).getD t 0 := by
    intro t
    rw [hmd, hyl, periodAvg, show 188 / (2 ^ PrbsEnum.prbs7.value - 1) = 1 by decide]
    simp
  have hv : 0 < popVar (2 ^ PrbsEnum.prbs7.value - 1) m := by
    refine popVar_pos _ (by decide) _ ⟨1, by decide, ?_⟩
    rw [hm, hm, hval 1 (by norm_num), hval 0 (by norm_num)]
    have : witOut.getD 1 0 ≠ witOut.getD 0 0 := by decide
    intro h
    have h' : ((witOut.getD 1 0 : ℤ) : ℝ) = ((witOut.getD 0 0 : ℤ) : ℝ) := by linarith
    exact this (by exact_mod_cast h')
  obtain ⟨ph, est, e, hph, hel, hmin, g, hg1, hg2, heq⟩ := hopt hv
  -- the phase
  have hcorr : ∀ k : ℕ, ∑ i ∈ range 188, x (i + k) * (y.drop (h.length + 1)).getD i 0
      = ((((List.range 188).map fun i => wit7 (i + k % 127) * witOut.getD i 0).sum : ℤ) : ℝ) / 2 := by
    intro k
    rw [int_list_sum, Int.cast_sum, sum_div]
    refine sum_congr rfl fun i hi => ?_
    rw [hval i (mem_range.1 hi), hxw _ (by omega), wit7_mod, show ((i : ℤ) + k).toNat = i + k by omega]
    push_cast
    ring
  have hph5 : ph % 127 = 5 := by
    by_contra hne
    have h5 := hph 5
    rw [hyl, show min ((if Constellation.nrz = .pam4 then 1 else 2) * (2 ^ PrbsEnum.prbs7.value - 1)) 188 = 188 by decide] at h5
    have c5 := hcorr 5
    rw [Nat.cast_ofNat] at c5
    rw [c5, hcorr ph] at h5
    have h6 := wit_best (ph % 127) (Nat.mod_lt _ (by norm_num)) hne
    have h7 : ((((List.range 188).map fun i => wit7 (i + ph % 127) * witOut.getD i 0).sum : ℤ) : ℝ)
      < ((((List.range 188).map fun i => wit7 (i + 5) * witOut.getD i 0).sum : ℤ) : ℝ) := by exact_mod_cast h6
    rw [show 5 % 127 = 5 from rfl] at h5
    linarith
  -- the taps
  have hx : ∀ t : ℤ, x t = uSeq .prbs7 (onesSeed .prbs7) (t : ZMod (2 ^ PrbsEnum.prbs7.value - 1)) := by
    intro t
    rw [hxd, ← one_mul (uSeq _ _ _), ← add_zero (1 * uSeq _ _ _), ← refZ_nrz]
    exact refZ_int .prbs7 .nrz _ _ _ _ _ t
  obtain ⟨v, hvd⟩ : ∃ v, v = popVar (2 ^ PrbsEnum.prbs7.value - 1) m := ⟨_, rfl⟩
  rw [← hvd] at hmin
  have hdiff := ls_difference (uSeq .prbs7 (onesSeed .prbs7)) (uSeq_corr .prbs7 (onesSeed .prbs7) (by simp) (onesSeed_ne .prbs7)) x hx
    est 8 41 (by rw [hel]) (by decide) (fun r => tapZ _ h 8 r / v) (fun t => m t / v) ((34 : ℤ) : ZMod (2 ^ PrbsEnum.prbs7.value - 1)) ph
    (by
      intro t ht
      show m t / v = _
      rw [hm, hsig t (lt_of_lt_of_le ht (by decide)), chanOut_zmod h 8 x _ hx, sum_div]
      refine sum_congr rfl fun r _ => ?_
      push_cast
      ring) (fun h' hh' => hmin h' (by rw [hh'])) 0 8 (by norm_num) (by norm_num)
  have hz : ((ph : ℤ) : ZMod (2 ^ PrbsEnum.prbs7.value - 1)) = 5 := by
    have : ((ph : ℕ) : ZMod 127) = ((5 : ℕ) : ZMod 127) := (ZMod.natCast_eq_natCast_iff' _ _ _).2 hph5
    rw [Int.cast_natCast]
    exact this
  have hz0 : ((8 : ℕ) : ZMod (2 ^ PrbsEnum.prbs7.value - 1)) - ((0 : ℕ) : ZMod (2 ^ PrbsEnum.prbs7.value - 1))
      + (((ph : ℤ) : ZMod (2 ^ PrbsEnum.prbs7.value - 1)) - ((34 : ℤ) : ZMod (2 ^ PrbsEnum.prbs7.value - 1)))
      = ((8 : ℕ) : ZMod (2 ^ PrbsEnum.prbs7.value - 1)) - ((29 : ℕ) : ZMod (2 ^ PrbsEnum.prbs7.value - 1)) := by
    rw [hz]; push_cast; ring
  have hz8 : ((8 : ℕ) : ZMod (2 ^ PrbsEnum.prbs7.value - 1)) - ((8 : ℕ) : ZMod (2 ^ PrbsEnum.prbs7.value - 1))
      + (((ph : ℤ) : ZMod (2 ^ PrbsEnum.prbs7.value - 1)) - ((34 : ℤ) : ZMod (2 ^ PrbsEnum.prbs7.value - 1)))
      = ((8 : ℕ) : ZMod (2 ^ PrbsEnum.prbs7.value - 1)) - ((37 : ℕ) : ZMod (2 ^ PrbsEnum.prbs7.value - 1)) := by
    rw [hz]; push_cast; ring
  rw [hz0, hz8, tapZ_at h 8 (by rw [hl]; decide) 29 (by omega), tapZ_at h 8 (by rw [hl]; decide) 37 (by omega), hg, hg,
    show witTaps.getD 29 0 = witTaps.getD 37 0 by decide, sub_self] at hdiff
  -- the verdict
  rw [channelEstimationTest]
  simp only [bind, Except.bind]
  rw [genPattern_eq .prbs7 bits hd .nrz (by decide)]
  simp only []
  rw [← hh, h1]
  simp only []
  rw [hl1, hl2, heq]
  simp only [if_true, pure, Except.pure]
  rw [if_pos (by rw [List.length_map, hel, hl])]
  refine congrArg Except.ok ?_
  rw [Bool.and_eq_false_iff]
  left
  refine @decide_eq_false _ (_) (fun hall => ?_)
  have a0 := hall 0 (by omega)
  have a8 := hall 8 (by omega)
  rw [map_div_getD, hg] at a0 a8
  rw [show witTaps.getD 0 0 = -1 by decide] at a0
  rw [show witTaps.getD 8 0 = 2 by decide] at a8
  rw [show est.getD 0 0 = est.getD 8 0 by linarith] at a0
  rw [abs_lt] at a0 a8
  norm_num at a0 a8
  linarith [a0.1, a0.2, a8.1, a8.2]

example : ∃ bits, csvData .prbs7 = some bits := ⟨_, rfl⟩

end Verif
