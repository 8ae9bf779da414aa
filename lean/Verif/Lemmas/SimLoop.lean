import Verif.Lemmas.SimMain
import Verif.Lemmas.ListAux
import Verif.Props.Lms

namespace Verif

open Spec

theorem powerL_meanSq (l : List ℝ) : powerL l = meanSq l := by
  unfold powerL meanSq
  congr 1
  rw [list_map_sum_getD]
  refine Finset.sum_congr rfl (fun i hi => ?_)
  ring

theorem meanSq_scale (g : ℝ) (l : List ℝ) : meanSq (l.map (fun v => g * v)) = g ^ 2 * meanSq l := by
  unfold meanSq
  rw [List.length_map, mul_div_assoc', Finset.mul_sum]
  congr 1
  refine Finset.sum_congr rfl (fun i hi => ?_)
  rw [getD_map_lt _ 0 0 _ (Finset.mem_range.1 hi)]
  ring

theorem meanSq_nonneg (l : List ℝ) : 0 ≤ meanSq l :=
  div_nonneg (Finset.sum_nonneg (fun _ _ => sq_nonneg _)) (Nat.cast_nonneg _)

theorem ship_level_power : meanSq shipLevels = 5 / 16 := by
  rw [← powerL_meanSq]
  unfold powerL shipLevels
  simp only [List.map_cons, List.map_nil, List.sum_cons, List.sum_nil, List.length_cons, List.length_nil]
  norm_num

theorem delayedSamples_length (last cur : List ℝ) (h1 : last.length = 64) (h2 : cur.length = 64) :
    (delayedSamples 4 last cur).length = 64 := by
  unfold delayedSamples
  rw [if_pos (by norm_num), List.length_append, List.length_drop, List.length_take, h1, h2]
  norm_num

theorem converge_idle (pre osr : ℕ) (levels last cur x r : List ℝ) (s : RxFull) (h : s.converge = false) :
    convergeStage pre osr levels last cur x r s = .ok s := by
  unfold convergeStage
  rw [h]
  rfl

/-- with the LMS bit set the stage never succeeds -/
theorem converge_lms (pre osr : ℕ) (levels last cur x r : List ℝ) (s : RxFull) (h : s.converge = true) (hl : s.lms = true)
    (t : RxFull) : convergeStage pre osr levels last cur x r s ≠ .ok t := by
  unfold convergeStage
  rw [if_pos h]
  simp only [bind, Except.bind]
  unfold cdrUpdate
  split
  · intro hh; cases hh
  · rename_i v hv
    have : v.lms = true := by
      split at hv
      · simp only [bind, Except.bind] at hv
        cases hm : muellerMuller (delayedSamples pre last cur) r 1 1 (1 / 1000) with
        | error e => rw [hm] at hv; cases hv
        | ok o =>
          rw [hm] at hv
          cases o with
          | none => cases hv
          | some st =>
            simp only [pure, Except.pure, Except.ok.injEq] at hv
            rw [← hv]
            exact hl
      · cases hv
        exact hl
    rw [this]
    simp

theorem ship_mm (y r : List ℝ) (h1 : y.length = 64) (h2 : r.length = 64) :
    ∃ v : ℤ, muellerMuller y r 1 1 (1 / 1000) = .ok (some v) ∧
      (|timingError y.length (fun k => y.getD k 0) (fun k => r.getD k 0) 1 1| < 1 / 1000 → v = 0) ∧
      (1 / 1000 ≤ timingError y.length (fun k => y.getD k 0) (fun k => r.getD k 0) 1 1 → v = 1) ∧
      (timingError y.length (fun k => y.getD k 0) (fun k => r.getD k 0) 1 1 ≤ -(1 / 1000) → v = -1) := by
  obtain ⟨v, a, -, b, c, d⟩ := C55_sign y r 1 1 (1 / 1000) (h1.trans h2.symm) (by omega) (by norm_num)
  rw [h1]
  rw [h2] at b c d
  exact ⟨v, a, b.2, c.2, d.2⟩

theorem converge_attribute (last cur x r : List ℝ) (s : RxFull) (h : s.converge = true) (hl : s.lms = true)
    (h1 : last.length = 64) (h2 : cur.length = 64) (h3 : r.length = 64) :
    convergeStage 4 64 shipLevels last cur x r s = .error .attributeError := by
  obtain ⟨v, hv, -⟩ := ship_mm _ r (delayedSamples_length last cur h1 h2) h3
  unfold convergeStage
  rw [if_pos h]
  simp only [bind, Except.bind]
  unfold cdrUpdate
  split_ifs with hc
  · simp only [bind, Except.bind]
    rw [hv]
    simp [pure, Except.pure, hl]
  · simp [hl]

/-- the receiver after a stage with clock recovery only that moved the phase by `v` -/
def afterCdr (s : RxFull) (g : ℝ) (v : ℤ) : RxFull :=
  if v = 0 then ⟨s.mem, s.adcOut, g, nextPhase s.phase v 64, false, s.lms, false, true⟩
  else ⟨s.mem, s.adcOut, g, nextPhase s.phase v 64, s.converge, s.lms, s.cdr, s.done⟩

/-- the stage with clock recovery only -/
theorem converge_cdr (last cur y : List ℝ) (s : RxFull) (h : s.converge = true) (hl : s.lms = false)
    (hc : s.cdr = true) (hd : s.done = false) (h1 : last.length = 64) (h2 : cur.length = 64)
    (hy : y = delayedSamples 4 last cur) (hp : 0 ≤ s.phase ∧ s.phase < 64) :
    ∃ s' : RxFull, convergeStage 4 64 shipLevels last cur (y.map (fun v => s.gain * v))
        ((y.map (fun v => s.gain * v)).map (sliceOne shipLevels)) s = .ok s' ∧ s'.mem = s.mem ∧ s'.adcOut = s.adcOut ∧
      s'.lms = false ∧ s'.cdr = s'.converge ∧ s'.done = !s'.converge ∧ (0 ≤ s'.phase ∧ s'.phase < 64) ∧
      LoopStep shipLevels 64 y s.gain s'.gain s.phase s'.phase s.converge s'.converge := by
  have hyl : y.length = 64 := by rw [hy]; exact delayedSamples_length last cur h1 h2
  set r := (y.map (fun v => s.gain * v)).map (sliceOne shipLevels) with hr
  have hrl : r.length = 64 := by rw [hr]; simpa using hyl
  obtain ⟨v, hv, v0, v1, v2⟩ := ship_mm y r hyl hrl
  set e := timingError y.length (fun k => y.getD k 0) (fun k => r.getD k 0) 1 1 with he
  have hnear : ∀ i, i < y.length → NearestFirst shipLevels (s.gain * y.getD i 0) (r.getD i 0) := by
    intro i hi
    rw [hr, getD_map_lt _ 0 0 _ (by simpa using hi), getD_map_lt _ 0 0 _ hi]
    exact sliceOne_spec shipLevels (by simp [shipLevels]) _
  have hph : ∀ w : ℤ, 0 ≤ nextPhase s.phase w 64 ∧ nextPhase s.phase w 64 < 64 := by
    intro w
    unfold nextPhase
    exact ⟨Int.emod_nonneg _ (by norm_num), Int.emod_lt_of_pos _ (by norm_num)⟩
  have hg : nextGain s.gain shipLevels (y.map (fun v => s.gain * v))
      = s.gain + 25 / 256 * (meanSq shipLevels - s.gain ^ 2 * meanSq y) := by
    unfold nextGain
    rw [powerL_meanSq, powerL_meanSq, meanSq_scale]
    norm_num
  have hstep : convergeStage 4 64 shipLevels last cur (y.map (fun v => s.gain * v)) r s
      = .ok (afterCdr s (nextGain s.gain shipLevels (y.map (fun v => s.gain * v))) v) := by
    unfold afterCdr
    unfold convergeStage
    rw [if_pos h]
    simp only [bind, Except.bind]
    unfold cdrUpdate
    rw [if_pos (by exact hc)]
    simp only [bind, Except.bind]
    rw [← hy, hv]
    by_cases h0 : v = 0
    · simp [pure, Except.pure, h0, hl]
    · simp [pure, Except.pure, h0, hl, hc]
  rw [hstep]
  unfold afterCdr
  by_cases h0 : v = 0
  · rw [if_pos h0]
    refine ⟨_, rfl, rfl, rfl, hl, rfl, rfl, hph v, r, e, hrl.trans hyl.symm, hnear, he, ?_, ?_⟩
    · intro hh; rw [h] at hh; cases hh
    · intro _
      refine ⟨hg, fun _ => ⟨?_, rfl⟩, fun h3 => ?_, fun h3 => ?_⟩
      · show nextPhase s.phase v 64 = s.phase
        unfold nextPhase
        rw [h0]
        simp only [Nat.cast_ofNat]
        omega
      · rw [v1 h3] at h0; cases h0
      · rw [v2 h3] at h0; cases h0
  · rw [if_neg h0]
    refine ⟨_, rfl, rfl, rfl, hl, hc.trans h.symm, hd.trans (by rw [h]; rfl), hph v, r, e, hrl.trans hyl.symm, hnear, he, ?_, ?_⟩
    · intro hh; rw [h] at hh; cases hh
    · intro _
      refine ⟨hg, fun h3 => absurd (v0 h3) h0, fun h3 => ⟨?_, h⟩, fun h3 => ⟨?_, h⟩⟩
      · show nextPhase s.phase v 64 = _
        rw [v1 h3]; rfl
      · show nextPhase s.phase v 64 = _
        rw [v2 h3]; rfl

/-- the stage at rest -/
theorem loopStep_idle (y : List ℝ) (g : ℝ) (ph : ℤ) : LoopStep shipLevels 64 y g g ph ph false false := by
  refine ⟨y.map (fun v => sliceOne shipLevels (g * v)), _, by simp, ?_, rfl, fun _ => ⟨rfl, rfl, rfl⟩, fun h => by cases h⟩
  intro i hi
  rw [getD_map_lt _ 0 0 _ hi]
  exact sliceOne_spec shipLevels (by simp [shipLevels]) _

end Verif
