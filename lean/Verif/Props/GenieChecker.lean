import Verif.Model.ExampleRuns
import Verif.Props.Checker
import Verif.Props.Slicer
import Verif.Props.Mapping
import Verif.Props.Symbol
import Verif.Lemmas.Ffe
import Verif.Lemmas.EstimPrbs

/-!
# C108 The genie checker of test/example_scripts/example_runs.py
-/

namespace Verif

open Spec (LfsrStream ExactReport mismatches stream NearestFirst)

/-- **C108.** The genie checker decides every sample for the nearest of the four levels, takes two bits per decision (least
significant first) and reports exactly the differences between these bits and the PRBS, at the phase with which fewer than
a quarter of the bits of the first period differ. -/
theorem C108_genie (p : PrbsEnum) (fs : Bool) (th : ℤ) (seed : List Int) (hseed : seed.length = p.value)
    (hne : ∃ x ∈ seed, x % 2 = 1) (b : ℕ → Int) (hb : LfsrStream (getPolynomial p) seed b) (φ : ℕ) (rx : List ℝ)
    (sym : List ℕ) (hl : sym.length = rx.length)
    (hs : ∀ (i : ℕ) (x : ℝ) (k : ℕ), rx[i]? = some x → sym[i]? = some k →
      ∃ l, (getLevels .pam4 fs)[k]? = some l ∧ NearestFirst (getLevels .pam4 fs) x l)
    (hlen : 2 ^ p.value - 1 ≤ 2 * rx.length) :
    let bits := sym.flatMap fun k => [((k % 2 : ℕ) : ℤ), ((k / 2 : ℕ) : ℤ)]
    mismatches (2 ^ p.value - 1) (stream bits) (fun i => b (φ + i)) < 2 ^ (p.value - 2) →
    ∃ r, genieChecker p fs th rx = .ok r ∧
      ExactReport bits (fun i => b (φ + i)) th r.lostLock r.correctBitCount r.errorBit := by
  intro bits herr
  have h4 : (getLevels .pam4 fs).length = 4 := by rw [getLevels_length]; rfl
  have hlv : getLevels .pam4 fs ≠ [] := by
    intro h; rw [h] at h4; cases h4
  obtain ⟨out, hout, hol, hnear⟩ := C20_slicer_vec rx (getLevels .pam4 fs) hlv
  have hk : ∀ k ∈ sym, k < 4 := by
    intro k hk
    obtain ⟨i, hi⟩ := List.getElem?_of_mem hk
    have hi' : i < rx.length := by rw [← hl]; exact (List.getElem?_eq_some_iff.1 hi).1
    obtain ⟨l, h1, -⟩ := hs i rx[i] k (List.getElem?_eq_getElem hi') hi
    rw [← h4]
    exact (List.getElem?_eq_some_iff.1 h1).1
  have hgap : (0 : ℝ) < ((getLevels .pam4 fs).getD 1 0 - (getLevels .pam4 fs).getD 0 0) / 2 := by
    obtain ⟨-, ⟨d, hd, h⟩, -⟩ := C19_levels .pam4 fs
    have := h 0 ((getLevels .pam4 fs).getD 0 0) ((getLevels .pam4 fs).getD 1 0)
      (by rw [List.getD_eq_getElem?_getD, List.getElem?_eq_getElem (by omega)]; rfl)
      (by rw [List.getD_eq_getElem?_getD, List.getElem?_eq_getElem (by omega)]; rfl)
    rw [this]; linarith
  have hdem := (C18_demapping_nearest_partial .pam4 fs false out sym (by rw [hl, hol]) (fun i s k hi hk => by
    have hi' : i < rx.length := by rw [← hol]; exact (List.getElem?_eq_some_iff.1 hi).1
    obtain ⟨l, h1, h2⟩ := hs i rx[i] k (List.getElem?_eq_getElem hi') hk
    obtain ⟨y, h3, h4⟩ := hnear i rx[i] (List.getElem?_eq_getElem hi')
    rw [hi] at h3
    cases h3
    have := nearestFirst_unique _ _ _ _ h2 h4
    subst this
    exact ⟨l, h1, by simpa using hgap⟩)).1
  have hp := period_ge p
  have hbits : symbol2bin (sym.map (fun (k : ℕ) => (k : Int))) 4 {} = .ok bits := by
    rw [show (4 : ℕ) = 2 ^ 2 by norm_num, symbol2bin_multi _ 2 (by norm_num) {} (Or.inr rfl)]
    congr 1
    rw [List.map_map]
    show (sym.map _).flatten = sym.flatMap _
    rw [List.flatMap_def]
    congr 1
    refine List.map_congr_left fun k hk' => ?_
    have := hk k hk'
    interval_cases k <;> rfl
  have hblen : bits.length = 2 * rx.length := by
    rw [← hl]
    show (sym.flatMap _).length = _
    rw [List.length_flatMap]
    simp only [List.length_cons, List.length_nil, List.map_const', List.sum_replicate, smul_eq_mul]
    ring
  have hbin : ∀ x ∈ bits, x = 0 ∨ x = 1 := by
    intro x hx
    obtain ⟨k, hk', hx⟩ := List.mem_flatMap.1 hx
    have := hk k hk'
    simp only [List.mem_cons, List.not_mem_nil, or_false] at hx
    rcases hx with rfl | rfl <;> omega
  obtain ⟨r, hr, hrep⟩ := C08_checker_locks p seed hseed hne b hb φ bits hbin (by omega) herr th
  refine ⟨r, ?_, hrep⟩
  unfold genieChecker
  rw [hout]
  show ((demapping out .pam4 fs false).1.bind fun sym => (symbol2bin sym 4 {}).bind fun bits => prbsChecker p bits false th none) = _
  rw [hdem]
  show ((symbol2bin (sym.map (fun (k : ℕ) => (k : Int))) 4 {}).bind fun bits => prbsChecker p bits false th none) = _
  rw [hbits]
  exact hr

/-- a sample closer to a level than half the spacing has that level as its nearest one -/
theorem pam4_nearest (fs : Bool) (x : ℝ) (k : ℕ) (hk : k < 4)
    (h : |x - (getLevels .pam4 fs).getD k 0| < ((getLevels .pam4 fs).getD 1 0 - (getLevels .pam4 fs).getD 0 0) / 2) :
    NearestFirst (getLevels .pam4 fs) x ((getLevels .pam4 fs).getD k 0) := by
  obtain ⟨-, -, ⟨g, hg, e⟩, -⟩ := C19_levels .pam4 fs
  rw [C19_levels_documented.2.2.2] at e
  obtain ⟨lv, hlv⟩ : ∃ lv, lv = getLevels .pam4 fs := ⟨_, rfl⟩
  rw [← hlv] at h e ⊢
  have h4 : lv.length = 4 := by rw [e]; rfl
  have hval : ∀ j, j < 4 → lv.getD j 0 = (2 * j - 3) * g := by
    intro j hj
    rw [e]
    interval_cases j <;> simp only [List.map_cons, List.map_nil, List.getD_cons_zero, List.getD_cons_succ] <;> push_cast <;> ring
  have hgap : (lv.getD 1 0 - lv.getD 0 0) / 2 = g := by rw [hval 1 (by norm_num), hval 0 (by norm_num)]; push_cast; ring
  rw [hgap] at h
  have far : ∀ j, j < 4 → j ≠ k → |x - lv.getD k 0| < |x - lv.getD j 0| := by
    intro j hj hjk
    have h1 : 2 * g ≤ |lv.getD j 0 - lv.getD k 0| := by
      rw [hval j hj, hval k hk, show (2 * (j : ℝ) - 3) * g - (2 * (k : ℝ) - 3) * g = 2 * ((j : ℝ) - k) * g by ring, abs_mul,
        abs_of_pos hg, abs_mul, abs_two]
      have : (1 : ℝ) ≤ |(j : ℝ) - k| := by
        have h2 : (1 : ℤ) ≤ |(j : ℤ) - k| := Int.one_le_abs (by omega)
        exact_mod_cast h2
      nlinarith
    have h2 : |lv.getD j 0 - lv.getD k 0| ≤ |x - lv.getD k 0| + |x - lv.getD j 0| := by
      have := abs_sub (x - lv.getD k 0) (x - lv.getD j 0)
      rwa [show x - lv.getD k 0 - (x - lv.getD j 0) = lv.getD j 0 - lv.getD k 0 by ring] at this
    linarith
  have get : ∀ j (hj : j < lv.length), lv[j] = lv.getD j 0 := by
    intro j hj
    rw [List.getD_eq_getElem?_getD, List.getElem?_eq_getElem hj]; rfl
  refine ⟨k, by omega, (get k (by omega)).symm, fun l hl => ?_, fun j hj => ?_⟩
  · obtain ⟨j, hj, rfl⟩ := List.getElem_of_mem hl
    rw [get j hj]
    by_cases hjk : j = k
    · rw [hjk]
    · exact (far j (by omega) hjk).le
  · rw [get j (by omega)]
    exact far j (by omega) (by omega)

/-- **C108.** If every sample is closer than half the spacing to the level that carries the next two bits of the PRBS
(beginning at any phase), the genie checker finds the phase and reports no error, all bits correct and no loss of lock. -/
theorem C108_genie_error_free (p : PrbsEnum) (fs : Bool) (th : ℤ) (hth : 0 < th) (seed : List Int) (hseed : seed.length = p.value)
    (hne : ∃ x ∈ seed, x % 2 = 1) (b : ℕ → Int) (hb : LfsrStream (getPolynomial p) seed b) (φ : ℕ) (rx : List ℝ)
    (hlen : 2 ^ p.value - 1 ≤ 2 * rx.length)
    (hrx : ∀ i x, rx[i]? = some x → |x - (getLevels .pam4 fs).getD (b (φ + 2 * i) + 2 * b (φ + 2 * i + 1)).toNat 0|
      < ((getLevels .pam4 fs).getD 1 0 - (getLevels .pam4 fs).getD 0 0) / 2) :
    ∃ r, genieChecker p fs th rx = .ok r ∧ r.lostLock = false ∧ r.correctBitCount = 2 * rx.length ∧
      r.errorBit = List.replicate (2 * rx.length) false := by
  have hbit : ∀ t, b t = 0 ∨ b t = 1 := by
    rw [lfsrStream_unique hb (lfsrStream_bitAt _ _ (by rw [poly_length, hseed]))]
    exact bitAt_mem _ _
  obtain ⟨sym, hsym⟩ : ∃ sym, sym = (List.range rx.length).map fun i => (b (φ + 2 * i) + 2 * b (φ + 2 * i + 1)).toNat := ⟨_, rfl⟩
  have hsl : sym.length = rx.length := by rw [hsym]; simp
  have hget : ∀ i < rx.length, sym[i]? = some (b (φ + 2 * i) + 2 * b (φ + 2 * i + 1)).toNat := by
    intro i hi
    rw [hsym, List.getElem?_map, List.getElem?_range hi]; rfl
  have hlt : ∀ t, (b t + 2 * b (t + 1)).toNat < 4 := by
    intro t; rcases hbit t with h | h <;> rcases hbit (t + 1) with h' | h' <;> rw [h, h'] <;> decide
  have h4 : (getLevels .pam4 fs).length = 4 := by rw [getLevels_length]; rfl
  have hbits : (sym.flatMap fun k => [((k % 2 : ℕ) : ℤ), ((k / 2 : ℕ) : ℤ)]) = (List.range (2 * rx.length)).map fun t => b (φ + t) := by
    rw [hsym, List.flatMap_map]
    generalize rx.length = n
    induction n with
    | zero => rfl
    | succ n ih =>
      rw [List.range_succ, List.flatMap_append, ih, mul_add, mul_one, List.range_succ, List.range_succ, List.map_append,
        List.map_append, List.append_assoc]
      congr 1
      simp only [List.flatMap_cons, List.flatMap_nil, List.append_nil, List.map_cons, List.map_nil, List.cons_append, List.nil_append]
      rw [show φ + (2 * n + 1) = φ + 2 * n + 1 by ring]
      rcases hbit (φ + 2 * n) with h | h <;> rcases hbit (φ + 2 * n + 1) with h' | h' <;> rw [h, h'] <;> decide
  have hst : ∀ t, t < 2 * rx.length → stream (sym.flatMap fun k => [((k % 2 : ℕ) : ℤ), ((k / 2 : ℕ) : ℤ)]) t = b (φ + t) := by
    intro t ht
    rw [hbits]
    unfold stream
    rw [List.getD_eq_getElem?_getD, List.getElem?_map, List.getElem?_range ht]; rfl
  have hmm : ∀ n ≤ 2 * rx.length, mismatches n (stream (sym.flatMap fun k => [((k % 2 : ℕ) : ℤ), ((k / 2 : ℕ) : ℤ)])) (fun i => b (φ + i)) = 0 := by
    intro n hn
    unfold mismatches
    rw [Finset.card_eq_zero, Finset.filter_eq_empty_iff]
    intro t ht
    rw [not_not]
    exact hst t (by have := Finset.mem_range.1 ht; omega)
  obtain ⟨r, hr, hrep⟩ := C108_genie p fs th seed hseed hne b hb φ rx sym hsl (fun i x k hi hk => by
    have hi' : i < rx.length := (List.getElem?_eq_some_iff.1 hi).1
    rw [hget i hi'] at hk
    cases hk
    refine ⟨(getLevels .pam4 fs).getD (b (φ + 2 * i) + 2 * b (φ + 2 * i + 1)).toNat 0, ?_, pam4_nearest fs x _ (hlt _) (hrx i x hi)⟩
    rw [List.getD_eq_getElem?_getD, List.getElem?_eq_getElem (by rw [h4]; exact hlt _)]; rfl) hlen
    (by rw [hmm _ hlen]; positivity)
  have hbl : (sym.flatMap fun k => [((k % 2 : ℕ) : ℤ), ((k / 2 : ℕ) : ℤ)]).length = 2 * rx.length := by rw [hbits]; simp
  have h1 := hrep.length
  have h2 := hrep.flags
  have h3 := hrep.count
  have h5 := hrep.lost
  rw [hbl] at h1 h2 h3 h5
  refine ⟨r, hr, ?_, ?_, ?_⟩
  · rw [hmm _ le_rfl] at h5
    cases hc : r.lostLock with
    | false => rfl
    | true => have := h5.1 hc; push_cast at this; omega
  · rw [h3, Finset.filter_true_of_mem fun t ht => hst t (Finset.mem_range.1 ht)]
    simp
  · refine List.eq_replicate_iff.2 ⟨h1, fun x hx => ?_⟩
    obtain ⟨i, hi, rfl⟩ := List.getElem_of_mem hx
    have := h2 i (by omega)
    rw [List.getElem?_eq_getElem hi, hst i (by omega)] at this
    simpa using this

/-- The hypotheses are met: PRBS13 from the all-ones seed, 9000 samples whose noise reaches 0.9 of the unit of the levels. -/
example (b : ℕ → Int) (hb : LfsrStream (getPolynomial .prbs13) (List.replicate 13 1) b) :
    ∃ r, genieChecker .prbs13 false 100 ((List.range 9000).map fun i =>
        (getLevels .pam4 false).getD (b (5 + 2 * i) + 2 * b (5 + 2 * i + 1)).toNat 0 + (if i % 3 = 0 then 0.9 else -0.7)) = .ok r ∧
      r.lostLock = false ∧ r.correctBitCount = 18000 := by
  obtain ⟨r, h1, h2, h3, -⟩ := C108_genie_error_free .prbs13 false 100 (by norm_num) (List.replicate 13 1) rfl
    ⟨1, by simp, rfl⟩ b hb 5 ((List.range 9000).map fun i =>
        (getLevels .pam4 false).getD (b (5 + 2 * i) + 2 * b (5 + 2 * i + 1)).toNat 0 + (if i % 3 = 0 then 0.9 else -0.7))
    (by rw [List.length_map, List.length_range]; decide) (fun i x hi => by
      have hi' : i < 9000 := by simpa using (List.getElem?_eq_some_iff.1 hi).1
      rw [List.getElem?_map, List.getElem?_range hi'] at hi
      cases hi
      rw [add_sub_cancel_left]
      rw [C19_levels_documented.2.2.2]
      show |(if i % 3 = 0 then (0.9 : ℝ) else -0.7)| < (-1 - -3) / 2
      split_ifs <;> rw [abs_lt] <;> norm_num)
  exact ⟨r, h1, h2, by simpa using h3⟩

end Verif
