import Verif.Lemmas.LmsTest2
import Verif.Lemmas.EqTests

/-!
# The project's tests that train an equalizer with the least mean squares gradients (C106)
-/

open Finset

namespace Verif
open Spec (txLevel periodic chanOut)

/-- **C106** (part). The DFE training test with hard decisions passes: for a reference file of the shipped kind, between one and
eight zeros `roots` of the channel, at least two repetitions and a cut of at most half a period, if a period is at least
`29 * taps ^ 2` symbols long and the squared postcursors of the channel `np.poly(roots)` add up to less than
`1 / (8 * taps)` - which opens the eye of the untrained receiver - then all passes of the loop are carried out without an exception
and the trained taps are within 1e-2 of the postcursors.
Missing: channels with larger postcursors, `algo='soft'`, floating-point rounding. -/
theorem C106_dfe_partial (p : PrbsEnum) (bits : List Int) (hd : csvData p = some bits) (roots : List ℝ) (hr1 : 1 ≤ roots.length)
    (hr8 : roots.length ≤ 8) (hN29 : 29 * roots.length ^ 2 ≤ 2 ^ p.value - 1) (reps cutoff : ℕ) (hreps : 2 ≤ reps)
    (hcut : 2 * cutoff ≤ 2 ^ p.value - 1) (heye : 8 * roots.length * ((npPoly roots).tail.map (fun v : ℝ => v ^ 2)).sum < (1 : ℝ)) :
    lmsDfeTest false p bits roots reps cutoff = .ok true := by
  have hN := period_ge p
  obtain ⟨M, hM⟩ : ∃ M, M = reps * (2 ^ p.value - 1) - cutoff := ⟨_, rfl⟩
  have hr2 : 2 * (2 ^ p.value - 1) ≤ reps * (2 ^ p.value - 1) := Nat.mul_le_mul_right _ hreps
  have hMN : 3 * (2 ^ p.value - 1) ≤ 2 * M := by omega
  have href : (npPoly roots).map (· / (npPoly roots).getD 0 0) = npPoly roots := by
    rw [npPoly_zero]; simp
  have hlen := npPoly_length roots
  obtain ⟨h, hh⟩ : ∃ h, h = (npPoly roots).tail := ⟨_, rfl⟩
  have hhl : h.length = roots.length := by rw [hh, List.length_tail, hlen]; omega
  have hget : ∀ j, (npPoly roots).getD (j + 1) 0 = h.getD j 0 := by
    intro j
    rw [hh, List.getD_eq_getElem?_getD, List.getD_eq_getElem?_getD, List.getElem?_tail]
  have hJsq : h.length ≤ h.length ^ 2 := Nat.le_self_pow (by norm_num) _
  rw [← hhl] at hr1 hr8 hN29 heye
  obtain ⟨L, hL⟩ : ∃ L, L = M - (2 * h.length + 2) := ⟨_, rfl⟩
  have hL40 : 40 * h.length ^ 2 ≤ L := by omega
  have hLN : 2 ^ p.value - 1 ≤ L := by omega
  obtain ⟨y, z, h1, h2, h3⟩ := filtered_pattern p .ook (npPoly roots) 0 (by omega) M (by omega)
  obtain ⟨x, hx⟩ : ∃ x : ℤ → ℝ, x = fun t : ℤ =>
    refZ p .ook false false false false false ((t + (2 * h.length + 2) : ℤ) : ZMod (2 ^ p.value - 1)) := ⟨_, rfl⟩
  have hx01 : ∀ t, x t = 0 ∨ x t = 1 := by
    intro t
    rw [hx]
    dsimp only
    rw [refZ_ook]
    rcases uSeq_cases p (onesSeed p) ((t + (2 * h.length + 2) : ℤ) : ZMod (2 ^ p.value - 1)) with e | e <;> rw [e] <;> norm_num
  haveI : NeZero (2 ^ p.value - 1) := ⟨by omega⟩
  have hones : ∃ v ∈ onesSeed p, v % 2 = 1 := onesSeed_ne p
  have hlow : ∀ E : ℕ → ℝ, tapNorm h.length E ≤ 8 * lossQ x L h.length E := fun E =>
    lossQ_period (uSeq p (onesSeed p)) (uSeq_corr p _ (by simp) hones) (uSeq_sum p _ (by simp) hones) E (by nlinarith)
      ((2 * h.length + 2 : ℤ) : ZMod (2 ^ p.value - 1)) (fun t => by rw [hx]; dsimp only; rw [refZ_ook]; push_cast; rfl) hLN
  have htn : tapNorm h.length (fun j => h.getD j 0) = ((npPoly roots).tail.map (fun v : ℝ => v ^ 2)).sum := by
    rw [← hh, list_map_sum_getD (fun v => v ^ 2) h]; rfl
  have hyl : (y.drop ((npPoly roots).length + 1)).length = M - (h.length + 2) := by
    rw [List.length_drop, h2, hlen, hhl]
  have hy : ∀ n : ℕ, n < (y.drop ((npPoly roots).length + 1)).length → (y.drop ((npPoly roots).length + 1)).getD n 0
      = refZ p .ook false false false false false ((n + (h.length + 2) : ℤ) : ZMod (2 ^ p.value - 1))
        + ∑ j ∈ range h.length, h.getD j 0
          * refZ p .ook false false false false false ((n - 1 - j + (h.length + 2) : ℤ) : ZMod (2 ^ p.value - 1)) := by
    intro n hn
    rw [h3 n (by omega), chanOut, hlen, ← hhl, sum_range_succ', npPoly_zero, add_comm]
    simp only [refZ_int, hget]
    congr 1
    · rw [one_mul]
      congr 2
    · refine sum_congr rfl fun j _ => ?_
      congr 3
      push_cast
      ring
  obtain ⟨a, ha1, ha2, ha3⟩ := trainLoop_dfe x L h (lmsDfeTestPass false
      ((List.range M).map (txLevel .ook false false false false false (bitAt (getPolynomial p) (onesSeed p))))
      (2 ^ p.value - 1) (y.drop ((npPoly roots).length + 1)) (getLevels .ook false) (5 / 1000))
    (fun t => by rcases hx01 t with e | e <;> rw [e] <;> norm_num) (fun t => by rcases hx01 t with e | e <;> rw [e] <;> norm_num)
    hr8 hr1 hL40 hlow (by rw [htn]; exact heye)
    (fun a ha hopen => by
      have := lmsDfeTestPass_run p h a ha hr1 M (by omega) (by omega) _ hyl hy x (fun t => by rw [hx]) hopen
      rw [← hL] at this
      exact this)
    100000 0 (List.replicate h.length 0) 1 rfl (by simp)
    (by
      rw [pow_zero, one_mul]
      refine le_of_eq (tapNorm_congr fun j hj => ?_)
      have e : (List.replicate h.length (0 : ℝ)).getD j 0 = 0 := by simp
      rw [e, sub_zero])
    (Or.inl rfl)
  rw [lmsDfeTest, genPattern_eq p bits hd .ook (by decide) reps cutoff, py_ok_bind, ← hM]
  dsimp only
  rw [href, h1, py_ok_bind]
  dsimp only
  rw [show (npPoly roots).length - 1 = h.length by rw [hlen, hhl]; rfl, ha1, py_ok_bind]
  have hgoal : ∀ i < h.length, |(npPoly roots).getD (i + 1) 0 - a.getD i 0| < 1 / 100 := by
    intro i hi
    rw [hget]
    have hs : (h.getD i 0 - a.getD i 0) ^ 2 ≤ tapNorm h.length (fun j => h.getD j 0 - a.getD j 0) :=
      single_le_sum (f := fun j => (h.getD j 0 - a.getD j 0) ^ 2) (fun _ _ => sq_nonneg _) (mem_range.2 hi)
    refine abs_lt_of_sq_lt_sq ?_ (by norm_num)
    linarith
  rw [decide_eq_true hgoal]
  rfl

/-- the hypotheses are met: two zeros, one of them negative -/
example (bits : List Int) (hd : csvData .prbs9 = some bits) : lmsDfeTest false .prbs9 bits [1 / 8, -3 / 10] 3 200 = .ok true :=
  C106_dfe_partial .prbs9 bits hd _ (by simp) (by simp) (by decide) 3 200 (by norm_num) (by decide) (by
    simp only [npPoly_eq, List.foldl, polyStep]
    norm_num)

end Verif
