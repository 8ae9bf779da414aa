import Verif.Lemmas.EconSeed
import Verif.Lemmas.FalseAlarm
import Verif.Props.Checker

/-!
# C123: the economy checker with bit errors in the bits it takes its seed from

`prbs_checker_economy` uses the first `n` received bits as the seed of its reference and, when it loses lock, retries with the next start, for
`n` starts in all.
-/

namespace Verif
open Spec Finset

variable (p : PrbsEnum) (seed : List Int)

/-- **C123**: the reference continued from any of the `n` starts is either the true stream, when the window there is free of errors, or wrong in
half of the places. Hence, on data of at least `K` periods with `e` errors and a threshold `th > e` with `th + e ≤ K 2^(n-1)`: the checker uses
the first clean window, keeps lock and flags exactly the errors from there on. Its count of correct bits is too large by the number of errors in
front of that window, which it does not look at. If none of the `n` windows is clean, lock is reported lost. -/
theorem C123_retry (hseed : seed.length = p.value) (b : ℕ → Int) (hb : LfsrStream (getPolynomial p) seed b) (φ : ℕ) (data : List Int)
    (hbin : ∀ x ∈ data, x = 0 ∨ x = 1) (K : ℕ) (hlen : 2 * p.value - 1 + K * (2 ^ p.value - 1) ≤ data.length) (th e : ℕ)
    (he : mismatches data.length (stream data) (fun i => b (φ + i)) = e) (hlow : e < th) (hth : th + e ≤ K * 2 ^ (p.value - 1)) :
    (∀ s < p.value, cleanWindow p.value (stream data) (fun i => b (φ + i)) s →
      (∀ s' < s, ¬ cleanWindow p.value (stream data) (fun i => b (φ + i)) s') →
      ∃ r, prbsCheckerEconomy p data th = .ok r ∧ r.lostLock = false ∧
        (∃ c, ExactReport (data.drop s) (fun i => b (φ + s + i)) th r.lostLock c r.errorBit) ∧
        r.correctBitCount = data.length - e + mismatches s (stream data) (fun i => b (φ + i))) ∧
    ((∀ s < p.value, ¬ cleanWindow p.value (stream data) (fun i => b (φ + i)) s) →
      ∃ r, prbsCheckerEconomy p data th = .ok r ∧ r.lostLock = true) := by
  have hv := value_pos p
  rw [lfsrStream_unique hb (lfsrStream_bitAt _ _ (by rw [poly_length, hseed]))] at he ⊢
  have hdirty : ∀ s < p.value, ¬ cleanWindow p.value (stream data) (fun i => bitAt (getPolynomial p) seed (φ + i)) s →
      ∀ r, econStep p data th s = .ok r → r.lostLock = true := fun s hs hd r hr =>
    dirty_step p seed hseed φ data hbin s K (by omega) hd th r hr (by rw [he]; exact_mod_cast hth)
  constructor
  · intro s hs hc hfirst
    obtain ⟨o', ho⟩ := econLoop_skip p data th s (p.value - s) 0 none (fun s' _ h2 => hdirty s' (by omega) (hfirst s' (by omega)))
    rw [show s + (p.value - s) = p.value by omega, Nat.zero_add] at ho
    obtain ⟨r, hr, hcnt, c, hrep⟩ := clean_step p seed hseed φ data s (by omega) hc th
    have hspl := mismatches_split s (data.length - s) (stream data) (fun i => bitAt (getPolynomial p) seed (φ + i))
    rw [show s + (data.length - s) = data.length by omega, he] at hspl
    have htail : mismatches (data.drop s).length (stream (data.drop s)) (fun i => bitAt (getPolynomial p) seed (φ + s + i))
        = mismatches (data.length - s) (fun i => stream data (s + i)) (fun i => bitAt (getPolynomial p) seed (φ + (s + i))) := by
      rw [List.length_drop]
      refine mismatches_congr (fun i _ => ?_) (fun i _ => by rw [Nat.add_assoc])
      simp only [stream, List.getD_eq_getElem?_getD, List.getElem?_drop]
    have hl : r.lostLock = false := by
      rw [← Bool.not_eq_true, hrep.lost, htail]; omega
    refine ⟨r, ?_, hl, ⟨c, hrep⟩, ?_⟩
    · unfold prbsCheckerEconomy
      obtain ⟨k, hk⟩ : ∃ k, p.value - s = k + 1 := ⟨p.value - s - 1, by omega⟩
      rw [ho, hk]
      simp only [econLoop, hr, bind, Except.bind, hl]
      rfl
    · have herrb : r.errorBit.count true = mismatches (data.drop s).length (stream (data.drop s))
          (fun i => bitAt (getPolynomial p) seed (φ + s + i)) := by
        have : r.errorBit = (List.range (data.drop s).length).map
            (fun i => decide (stream (data.drop s) i ≠ bitAt (getPolynomial p) seed (φ + s + i))) := by
          apply List.ext_getElem?
          intro i
          rw [map_range_getElem?]
          by_cases hi : i < (data.drop s).length
          · rw [if_pos hi, hrep.flags i hi]
          · rw [if_neg hi, List.getElem?_eq_none (by rw [hrep.length]; omega)]
        rw [this, count_true_map_range]
        unfold mismatches
        congr 1
        apply Finset.filter_congr
        intro i _; simp
      rw [hcnt, herrb, htail]; omega
  · intro hno
    obtain ⟨r, s, h1, -, h3, h4, -⟩ := econLoop_spec p data th p.value 0 none hv
    exact ⟨r, h1, hdirty s (by omega) (hno s (by omega)) r h4⟩

/-! ### A received stream and its error mask -/

theorem received_length (ref : ℕ → Int) (mask : List Bool) : (received ref mask).length = mask.length := by simp [received]

theorem stream_received (ref : ℕ → Int) (mask : List Bool) (i : ℕ) (hi : i < mask.length) :
    stream (received ref mask) i = if mask.getD i false then 1 - ref i else ref i := by
  unfold stream received
  rw [List.getD_eq_getElem?_getD, map_range_getElem?, if_pos hi, Option.getD_some]

theorem received_ne (ref : ℕ → Int) (h01 : ∀ i, ref i = 0 ∨ ref i = 1) (mask : List Bool) (i : ℕ) (hi : i < mask.length) :
    stream (received ref mask) i ≠ ref i ↔ mask.getD i false = true := by
  rw [stream_received _ _ _ hi]
  split_ifs with h
  · refine iff_of_true ?_ h
    rcases h01 i with h' | h' <;> rw [h'] <;> decide
  · exact iff_of_false (by simp) h

theorem received_bin (ref : ℕ → Int) (h01 : ∀ i, ref i = 0 ∨ ref i = 1) (mask : List Bool) : ∀ x ∈ received ref mask, x = 0 ∨ x = 1 := by
  intro x hx
  simp only [received, List.mem_map] at hx
  obtain ⟨i, -, rfl⟩ := hx
  split_ifs
  · rcases h01 i with h' | h' <;> rw [h'] <;> decide
  · exact h01 i

theorem received_errors (ref : ℕ → Int) (h01 : ∀ i, ref i = 0 ∨ ref i = 1) (mask : List Bool) :
    mismatches (received ref mask).length (stream (received ref mask)) ref = mask.count true := by
  have e : mask = (List.range mask.length).map fun i => mask.getD i false := by
    refine List.ext_getElem (by simp) fun i h1 h2 => ?_
    simp [h1]
  conv_rhs => rw [e]
  rw [count_true_map_range, received_length]
  unfold mismatches
  congr 1
  refine filter_congr fun i hi => ?_
  rw [received_ne ref h01 mask i (mem_range.1 hi)]

/-- **C123 does not hold as documented** ("computing the erred bits and their location"): one single wrong bit, at position `n - 1`, in an otherwise
perfect PRBS of any length from `2n - 1 + K(2^n - 1)` on makes the economy checker report lost lock for every threshold up to `K 2^(n-1) - 1`,
because all the `n` seed windows it tries contain that bit. `prbs_checker` reports this one error. -/
theorem C123_negative_one_error (hseed : seed.length = p.value) (hne : ∃ x ∈ seed, x % 2 = 1) (b : ℕ → Int)
    (hb : LfsrStream (getPolynomial p) seed b) (K D : ℕ) (hK : 0 < K)
    (hlen : 2 * p.value - 1 + K * (2 ^ p.value - 1) ≤ D) (th : ℕ) (h2 : 2 ≤ th) (hth : th + 1 ≤ K * 2 ^ (p.value - 1)) :
    (∃ r, prbsCheckerEconomy p (received b ((List.replicate D false).set (p.value - 1) true)) th = .ok r ∧ r.lostLock = true) ∧
    (∃ r, prbsChecker p (received b ((List.replicate D false).set (p.value - 1) true)) false th none = .ok r ∧ r.lostLock = false ∧
      r.errorBit = (List.replicate D false).set (p.value - 1) true) := by
  have hv := value_pos p
  have hP := two_pow_sub_pos hv
  have hKN : 2 ^ p.value - 1 ≤ K * (2 ^ p.value - 1) := Nat.le_mul_of_pos_left _ hK
  have h01 : ∀ i, b i = 0 ∨ b i = 1 := fun i => by
    rw [lfsrStream_unique hb (lfsrStream_bitAt _ _ (by rw [poly_length, hseed]))]; exact bitAt_mem _ _ _
  set mask := (List.replicate D false).set (p.value - 1) true with hmask
  have hml : mask.length = D := by simp [hmask]
  have hget : ∀ i < D, mask.getD i false = decide (i = p.value - 1) := by
    intro i hi
    rw [List.getD_eq_getElem _ _ (by omega)]
    simp only [hmask, List.getElem_set, List.getElem_replicate]
    by_cases h : i = p.value - 1
    · rw [if_pos h.symm]; simp [h]
    · rw [if_neg (fun h' => h h'.symm)]; simp [h]
  have hcount : mask.count true = 1 := by
    have e : mask = (List.range D).map fun i => decide (i = p.value - 1) := by
      refine List.ext_getElem (by simp [hml]) fun i h1 h2 => ?_
      have := hget i (by omega)
      rw [List.getD_eq_getElem _ _ h1] at this
      rw [this]; simp
    rw [e, count_true_map_range]
    have : (range D).filter (fun i => decide (i = p.value - 1) = true) = {p.value - 1} := by
      ext i; simp only [mem_filter, mem_range, decide_eq_true_eq, mem_singleton]
      constructor
      · exact fun h => h.2
      · rintro rfl; exact ⟨by omega, rfl⟩
    rw [this, card_singleton]
  have hmm := received_errors b h01 mask
  rw [hcount] at hmm
  constructor
  · refine (C123_retry p seed hseed b hb 0 (received b mask) (received_bin b h01 mask) K (by rw [received_length, hml]; exact hlen) th 1
      (by simpa using hmm) (by omega) hth).2 ?_
    intro s hs hcl
    have h := hcl (p.value - 1 - s) (by omega)
    simp only [Nat.zero_add] at h
    rw [show s + (p.value - 1 - s) = p.value - 1 by omega] at h
    exact (received_ne b h01 mask (p.value - 1) (by omega)).2 (by rw [hget _ (by omega)]; simp) h
  · obtain ⟨r, hr, hrep⟩ := C08_checker_locks p seed hseed hne b hb 0 (received b mask) (received_bin b h01 mask)
      (by rw [received_length, hml]; omega) (by
        have h1 := mismatches_part 0 (2 ^ p.value - 1) (received b mask).length (by rw [received_length, hml]; omega)
          (stream (received b mask)) b
        simp only [Nat.zero_add] at h1 ⊢
        have h3 : 2 ≤ 2 ^ (p.value - 2) := by cases p <;> decide
        rw [hmm] at h1
        exact lt_of_le_of_lt h1 (by omega)) th
    simp only [Nat.zero_add] at hrep
    refine ⟨r, hr, ?_, ?_⟩
    · rw [← Bool.not_eq_true, hrep.lost, hmm]; push_cast; omega
    · apply List.ext_getElem?
      intro i
      by_cases hi : i < D
      · rw [hrep.flags i (by rw [received_length]; omega), List.getElem?_eq_getElem (by omega)]
        congr 1
        have h := received_ne b h01 mask i (by omega)
        rw [List.getD_eq_getElem _ _ (by omega)] at h
        by_cases hm : mask[i] = true
        · rw [hm, decide_eq_true_eq]; exact h.2 hm
        · rw [decide_eq_false (fun h' => hm (h.1 h'))]; simpa using hm
      · rw [List.getElem?_eq_none (by rw [hrep.length, received_length]; omega), List.getElem?_eq_none (by omega)]

/-- **C123**, in figures: when every received bit is wrong independently with probability `q`, the probability that the economy checker reports
lost lock is `q`, the probability of that one bit, up to second-order terms. -/
theorem C123_loss_probability (hseed : seed.length = p.value) (b : ℕ → Int) (hb : LfsrStream (getPolynomial p) seed b) (K D : ℕ)
    (hlen : 2 * p.value - 1 + K * (2 ^ p.value - 1) ≤ D) (th : ℕ) (hth : 2 * th ≤ K * 2 ^ (p.value - 1))
    (q : ℝ) (hq0 : 0 ≤ q) (hq1 : q ≤ 1) :
    q - (D.choose th : ℝ) * q ^ th
      ≤ drawProb D 1 q (fun mask _ => ∃ r, prbsCheckerEconomy p (received b mask) th = .ok r ∧ r.lostLock = true) ∧
    drawProb D 1 q (fun mask _ => ∃ r, prbsCheckerEconomy p (received b mask) th = .ok r ∧ r.lostLock = true)
      ≤ q + ((2 * p.value - 1).choose 2 : ℝ) * q ^ 2 + (D.choose th : ℝ) * q ^ th := by
  classical
  have hv := value_pos p
  have h01 : ∀ i, b i = 0 ∨ b i = 1 := fun i => by
    rw [lfsrStream_unique hb (lfsrStream_bitAt _ _ (by rw [poly_length, hseed]))]; exact bitAt_mem _ _ _
  have hnD : p.value - 1 < D := by omega
  have hsup := prob_superset D q {(⟨p.value - 1, hnD⟩ : Fin D)}
  rw [card_singleton, pow_one] at hsup
  have hmany := prob_many D th q hq0 hq1 univ
  rw [card_univ, Fintype.card_fin] at hmany
  have htwo := prob_many D 2 q hq0 hq1 (univ.filter fun j : Fin D => (j : ℕ) < 2 * p.value - 1)
  have hcard : (univ.filter fun j : Fin D => (j : ℕ) < 2 * p.value - 1).card = 2 * p.value - 1 := by
    rw [Fin.card_filter_val_lt]; omega
  rw [hcard] at htwo
  have hml : ∀ S : Finset (Fin D), (maskOf D S).length = D := fun S => maskOf_length D S
  have hget : ∀ (S : Finset (Fin D)) (i : ℕ) (hi : i < D), ((maskOf D S).getD i false = true ↔ (⟨i, hi⟩ : Fin D) ∈ S) := by
    intro S i hi
    rw [List.getD_eq_getElem _ _ (by rw [hml]; exact hi)]
    simp [maskOf]
  have hcnt : ∀ S : Finset (Fin D), (maskOf D S).count true = S.card := by
    intro S
    have h := maskOf_count D D S
    rw [List.take_of_length_le (by rw [hml]), filter_true_of_mem (fun j _ => j.2), inter_univ] at h
    exact h
  have hret := fun (S : Finset (Fin D)) (hS : S.card < th) => C123_retry p seed hseed b hb 0 (received b (maskOf D S))
    (received_bin b h01 _) K (by rw [received_length, hml]; exact hlen) th S.card
    (by simpa [hcnt] using received_errors b h01 (maskOf D S)) hS (by omega)
  simp only [Nat.zero_add] at hret
  have hdirty : ∀ (S : Finset (Fin D)) (s : ℕ), s < p.value → ((∃ i, ∃ hi : i < D, s ≤ i ∧ i < s + p.value ∧ (⟨i, hi⟩ : Fin D) ∈ S) ↔
      ¬ cleanWindow p.value (stream (received b (maskOf D S))) b s) := by
    intro S s hs
    unfold cleanWindow
    push Not
    constructor
    · rintro ⟨i, hi, hsi, his, hm⟩
      refine ⟨i - s, by omega, ?_⟩
      rw [show s + (i - s) = i by omega]
      exact (received_ne b h01 _ i (by rw [hml]; exact hi)).2 ((hget S i hi).2 hm)
    · rintro ⟨i, hi, hm⟩
      exact ⟨s + i, by omega, by omega, by omega, (hget S _ (by omega)).1 ((received_ne b h01 _ _ (by rw [hml]; omega)).1 hm)⟩
  have hdp : drawProb D 1 q (fun mask _ => ∃ r, prbsCheckerEconomy p (received b mask) th = .ok r ∧ r.lostLock = true)
      = ∑ S : Finset (Fin D), if (∃ r, prbsCheckerEconomy p (received b (maskOf D S)) th = .ok r ∧ r.lostLock = true) then flipProb D q S else 0 := by
    unfold drawProb
    rw [sum_range_one, Nat.cast_one, div_one]
  rw [hdp]
  constructor
  · calc q - (D.choose th : ℝ) * q ^ th
        ≤ (∑ S : Finset (Fin D), if ({⟨p.value - 1, hnD⟩} : Finset (Fin D)) ⊆ S then flipProb D q S else 0)
          - ∑ S : Finset (Fin D), (if th ≤ (S ∩ univ).card then flipProb D q S else 0) := by rw [hsup]; linarith
      _ = ∑ S : Finset (Fin D), ((if ({⟨p.value - 1, hnD⟩} : Finset (Fin D)) ⊆ S then flipProb D q S else 0)
          - (if th ≤ (S ∩ univ).card then flipProb D q S else 0)) := by rw [sum_sub_distrib]
      _ ≤ _ := by
        refine sum_le_sum fun S _ => ?_
        have hf := flipProb_nonneg D q hq0 hq1 S
        rw [inter_univ]
        by_cases hS : th ≤ S.card
        · rw [if_pos hS]
          split_ifs <;> linarith
        · rw [if_neg hS, sub_zero]
          by_cases hin : ({⟨p.value - 1, hnD⟩} : Finset (Fin D)) ⊆ S
          · rw [if_pos hin, if_pos]
            refine (hret S (by omega)).2 fun s hs => (hdirty S s hs).1 ⟨p.value - 1, hnD, by omega, by omega, singleton_subset_iff.1 hin⟩
          · rw [if_neg hin]
            split_ifs <;> linarith
  · refine le_trans (b := ∑ S : Finset (Fin D), ((if ({⟨p.value - 1, hnD⟩} : Finset (Fin D)) ⊆ S then flipProb D q S else 0)
          + (if 2 ≤ (S ∩ univ.filter fun j : Fin D => (j : ℕ) < 2 * p.value - 1).card then flipProb D q S else 0)
          + (if th ≤ (S ∩ univ).card then flipProb D q S else 0))) ?_ ?_
    · refine sum_le_sum fun S _ => ?_
      have hf := flipProb_nonneg D q hq0 hq1 S
      rw [inter_univ]
      by_cases hA : ∃ r, prbsCheckerEconomy p (received b (maskOf D S)) th = .ok r ∧ r.lostLock = true
      · rw [if_pos hA]
        by_cases hS : th ≤ S.card
        · rw [if_pos hS]; split_ifs <;> linarith
        by_cases hin : ({⟨p.value - 1, hnD⟩} : Finset (Fin D)) ⊆ S
        · rw [if_pos hin]; split_ifs <;> linarith
        rw [if_pos (c := 2 ≤ _)]
        · split_ifs <;> linarith
        -- no clean window
        have hno : ∀ s < p.value, ¬ cleanWindow p.value (stream (received b (maskOf D S))) b s := by
          by_contra hcon
          push Not at hcon
          obtain ⟨r₁, hr₁, hl₁⟩ := hA
          have hex : ∃ s, s < p.value ∧ cleanWindow p.value (stream (received b (maskOf D S))) b s := hcon
          obtain ⟨r₂, hr₂, hl₂, -⟩ := (hret S (by omega)).1 (Nat.find hex) (Nat.find_spec hex).1 (Nat.find_spec hex).2
            (fun s' hs' hc => Nat.find_min hex hs' ⟨lt_trans hs' (Nat.find_spec hex).1, hc⟩)
          rw [hr₁] at hr₂
          cases hr₂
          rw [hl₁] at hl₂
          cases hl₂
        obtain ⟨i, hi, -, hi2, hiS⟩ := (hdirty S 0 hv).2 (hno 0 hv)
        have hine : i ≠ p.value - 1 := by
          rintro rfl
          exact hin (singleton_subset_iff.2 hiS)
        obtain ⟨j, hj, hj1, hj2, hjS⟩ := (hdirty S (i + 1) (by omega)).2 (hno (i + 1) (by omega))
        have hsub : ({⟨i, hi⟩, ⟨j, hj⟩} : Finset (Fin D)) ⊆ S ∩ univ.filter fun j : Fin D => (j : ℕ) < 2 * p.value - 1 := by
          intro x hx
          rw [mem_insert, mem_singleton] at hx
          rw [mem_inter, mem_filter]
          rcases hx with rfl | rfl
          · exact ⟨hiS, mem_univ _, by simp only []; omega⟩
          · exact ⟨hjS, mem_univ _, by simp only []; omega⟩
        have hc := card_le_card hsub
        rw [card_pair (by simp only [ne_eq, Fin.mk.injEq]; omega)] at hc
        exact hc
      · rw [if_neg hA]
        split_ifs <;> linarith
    · rw [sum_add_distrib, sum_add_distrib, hsup]
      linarith

/-- PRBS9 over two periods with the threshold 100: a single wrong bit at position 8 loses lock, and at an error rate of 1/1000 the
checker loses lock with a probability of about 1/1000 -/
example : 2 * PrbsEnum.prbs9.value - 1 + 2 * (2 ^ PrbsEnum.prbs9.value - 1) ≤ 1100 ∧ 100 + 1 ≤ 2 * 2 ^ (PrbsEnum.prbs9.value - 1) ∧
    2 * 100 ≤ 2 * 2 ^ (PrbsEnum.prbs9.value - 1) := by decide
example : ∃ b, LfsrStream (getPolynomial .prbs9) [1, 0, 0, 1, 0, 0, 0, 1, 1] b := ⟨_, lfsrStream_bitAt _ _ rfl⟩
/-- an error at position 2: the window of three bits from position 3 on is clean, the one from position 2 on is not -/
example : cleanWindow 3 (stream [0, 0, 1, 0, 0, 0]) (fun _ => 0) 3 ∧ ¬ cleanWindow 3 (stream [0, 0, 1, 0, 0, 0]) (fun _ => 0) 2 := by
  refine ⟨fun i hi => ?_, fun h => absurd (h 0 (by decide)) (by decide)⟩
  interval_cases i <;> rfl
/-- PRBS7, 140 bits, threshold 30: with bit 2 wrong the checker keeps lock and claims that all 140 bits are correct; with bit 6 wrong it loses lock -/
example : (prbsGenerator (getPolynomial .prbs7) [1, 0, 0, 1, 0, 0, 0] 140).bind (fun x =>
      (prbsCheckerEconomy .prbs7 (x.1.set 2 (1 - x.1.getD 2 0)) 30).map fun r => (r.lostLock, r.correctBitCount)) = .ok (false, 140) ∧
    (prbsGenerator (getPolynomial .prbs7) [1, 0, 0, 1, 0, 0, 0] 140).bind (fun x =>
      (prbsCheckerEconomy .prbs7 (x.1.set 6 (1 - x.1.getD 6 0)) 30).map fun r => r.lostLock) = .ok true := by
  decide +kernel

end Verif
