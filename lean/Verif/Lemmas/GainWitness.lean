import Verif.Lemmas.SimLoop

/-! A signal that is quiet for some time and then loud, on which the gain control of the receiver runs away. -/

namespace Verif

open Spec

/-- four samples of size `b` followed by sixty of size `a` -/
def mix (b a : ℝ) : List ℝ := [b, 2 * b, -b, -(2 * b)] ++ (List.replicate 15 [a, 2 * a, -a, -(2 * a)]).flatten

theorem mix_length (b a : ℝ) : (mix b a).length = 64 := by
  unfold mix; simp

theorem mix_join (b a : ℝ) : (mix b b).drop 60 ++ (mix a a).take 60 = mix b a := by
  unfold mix
  simp [List.replicate]

theorem mix_power (b a : ℝ) : meanSq (mix b a) = (10 * b ^ 2 + 150 * a ^ 2) / 64 := by
  rw [← powerL_meanSq]
  unfold powerL
  rw [mix_length]
  unfold mix
  simp only [List.replicate, List.flatten_cons, List.flatten_nil, List.map_append, List.map_cons, List.map_nil, List.sum_append,
    List.sum_cons, List.sum_nil]
  norm_num
  ring

/-- the decisions -/
def mixDec (B A : ℝ) : List ℝ := [B, B, -B, -B] ++ (List.replicate 15 [A, A, -A, -A]).flatten

theorem mix_error (b a B A : ℝ) : timingError 64 (fun k => (mix b a).getD k 0) (fun k => (mixDec B A).getD k 0) 1 1
    = (3 * B * b - B * a + 2 * A * b + 59 * A * a) / 63 := by
  unfold timingError mix mixDec
  simp only [List.replicate, List.flatten_cons, List.flatten_nil, List.cons_append, List.nil_append, List.append_nil,
    Finset.sum_range_succ, Finset.range_zero, Finset.sum_empty, List.getD_cons_succ, List.getD_cons_zero]
  norm_num
  ring

theorem slice_inner (x : ℝ) (h1 : 0 < x) (h2 : x < 1 / 2) : sliceOne shipLevels x = 1 / 4 := by
  have := sliceOne_near shipLevels (1 / 4) (x - 1 / 4) (by simp [shipLevels]) (by
    intro l hl hne
    have hw : |x - 1 / 4| < 1 / 4 := by rw [abs_lt]; constructor <;> linarith
    simp only [shipLevels, List.mem_cons, List.not_mem_nil, or_false] at hl
    rcases hl with rfl | rfl | rfl | rfl
    · rw [show |(-(3 / 4) - 1 / 4 : ℝ)| = 1 by norm_num]; linarith
    · rw [show |(-(1 / 4) - 1 / 4 : ℝ)| = 1 / 2 by norm_num]; linarith
    · exact absurd rfl hne
    · rw [show |(3 / 4 - 1 / 4 : ℝ)| = 1 / 2 by norm_num]; linarith)
  rwa [add_sub_cancel] at this

theorem slice_inner_neg (x : ℝ) (h1 : x < 0) (h2 : -(1 / 2) < x) : sliceOne shipLevels x = -(1 / 4) := by
  have := sliceOne_near shipLevels (-(1 / 4)) (x - -(1 / 4)) (by simp [shipLevels]) (by
    intro l hl hne
    have hw : |x - -(1 / 4)| < 1 / 4 := by rw [abs_lt]; constructor <;> linarith
    simp only [shipLevels, List.mem_cons, List.not_mem_nil, or_false] at hl
    rcases hl with rfl | rfl | rfl | rfl
    · rw [show |(-(3 / 4) - -(1 / 4) : ℝ)| = 1 / 2 by norm_num]; linarith
    · exact absurd rfl hne
    · rw [show |(1 / 4 - -(1 / 4) : ℝ)| = 1 / 2 by norm_num]; linarith
    · rw [show |(3 / 4 - -(1 / 4) : ℝ)| = 1 by norm_num]; linarith)
  rwa [add_sub_cancel] at this

theorem slice_outer (x : ℝ) (h1 : 1 / 2 < x) : sliceOne shipLevels x = 3 / 4 := by
  have hm := sliceOne_mem shipLevels (by simp [shipLevels]) x
  have hle := sliceOne_le shipLevels (by simp [shipLevels]) x (3 / 4) (by simp [shipLevels])
  generalize sliceOne shipLevels x = y at *
  simp only [shipLevels, List.mem_cons, List.not_mem_nil, or_false] at hm
  rcases hm with rfl | rfl | rfl | rfl
  all_goals first
    | rfl
    | (exfalso
       rw [abs_le] at hle
       rcases abs_cases (x - 3 / 4) with ⟨h, -⟩ | ⟨h, -⟩ <;> rw [h] at hle <;> linarith [hle.2])

theorem slice_outer_neg (x : ℝ) (h1 : x < -(1 / 2)) : sliceOne shipLevels x = -(3 / 4) := by
  have hm := sliceOne_mem shipLevels (by simp [shipLevels]) x
  have hle := sliceOne_le shipLevels (by simp [shipLevels]) x (-(3 / 4)) (by simp [shipLevels])
  generalize sliceOne shipLevels x = y at *
  simp only [shipLevels, List.mem_cons, List.not_mem_nil, or_false] at hm
  rcases hm with rfl | rfl | rfl | rfl
  all_goals first
    | rfl
    | (exfalso
       rw [abs_le] at hle
       rcases abs_cases (x - -(3 / 4)) with ⟨h, -⟩ | ⟨h, -⟩ <;> rw [h] at hle <;> linarith [hle.1])

theorem mix_dec (g b a B A : ℝ) (b1 : sliceOne shipLevels (g * b) = B) (b2 : sliceOne shipLevels (g * (2 * b)) = B)
    (b3 : sliceOne shipLevels (g * -b) = -B) (b4 : sliceOne shipLevels (g * -(2 * b)) = -B)
    (a1 : sliceOne shipLevels (g * a) = A) (a2 : sliceOne shipLevels (g * (2 * a)) = A)
    (a3 : sliceOne shipLevels (g * -a) = -A) (a4 : sliceOne shipLevels (g * -(2 * a)) = -A) :
    ((mix b a).map (fun v => g * v)).map (sliceOne shipLevels) = mixDec B A := by
  unfold mix mixDec
  simp only [List.replicate, List.flatten_cons, List.flatten_nil, List.cons_append, List.nil_append, List.append_nil,
    List.map_cons, List.map_nil, b1, b2, b3, b4, a1, a2, a3, a4]

/-- the power of the quiet and loud signal and the size of the samples -/
noncomputable def witSize (K k : ℕ) : ℝ := if k ≤ K then 1 / 64 else 63 / 64

/-- the gain on the witness signal -/
noncomputable def witGain (K : ℕ) : ℕ → ℝ
  | 0 => 1
  | k + 1 => witGain K k + 25 / 256 * (5 / 16 - witGain K k ^ 2 * ((10 * witSize K k ^ 2 + 150 * witSize K (k + 1) ^ 2) / 64))

/-- the gain on the quiet signal alone -/
noncomputable def quietGain : ℕ → ℝ
  | 0 => 1
  | k + 1 => quietGain k + 25 / 256 * (5 / 16 - quietGain k ^ 2 * (5 / 2 / 64 ^ 2))

theorem quietGain_reach : ∃ K, 8 ≤ quietGain K ∧ quietGain K ≤ 9 ∧ ∀ k, k < K → 1 ≤ quietGain k ∧ quietGain k ≤ 8 := by
  have step : ∀ k, 1 ≤ quietGain k → quietGain k ≤ 8 → quietGain k + 1 / 50 ≤ quietGain (k + 1) ∧ quietGain (k + 1) ≤ 9 := by
    intro k h1 h2
    rw [quietGain]
    have h3 : quietGain k ^ 2 ≤ 64 := by nlinarith
    have h4 : 0 ≤ quietGain k ^ 2 := sq_nonneg _
    constructor <;> nlinarith
  have hex : ∃ k, 8 ≤ quietGain k := by
    by_contra hno
    push Not at hno
    have : ∀ k : ℕ, 1 + (k : ℝ) / 50 ≤ quietGain k := by
      intro k
      induction k with
      | zero => simp [quietGain]
      | succ k ih =>
        have hk : (0 : ℝ) ≤ k := Nat.cast_nonneg k
        have := (step k (by linarith [div_nonneg hk (by norm_num : (0 : ℝ) ≤ 50)]) (hno k).le).1
        push_cast
        linarith
    have h1 := this 350
    have h2 := hno 350
    norm_num at h1
    linarith
  classical
  have hmin : ∀ m, m < Nat.find hex → quietGain m < 8 := fun m hm => by
    have := Nat.find_min hex hm
    linarith [not_le.1 this]
  have hall : ∀ m, m < Nat.find hex → 1 ≤ quietGain m := by
    intro m
    induction m with
    | zero => intro _; simp [quietGain]
    | succ m ih =>
      intro hm
      have := (step m (ih (by omega)) (hmin m (by omega)).le).1
      linarith [ih (by omega)]
  refine ⟨Nat.find hex, Nat.find_spec hex, ?_, fun k hk => ⟨hall k hk, (hmin k hk).le⟩⟩
  obtain ⟨m, hm⟩ : ∃ m, Nat.find hex = m + 1 := by
    rcases h : Nat.find hex with _ | m
    · exfalso
      have := Nat.find_spec hex
      rw [h] at this
      norm_num [quietGain] at this
    · exact ⟨m, rfl⟩
  rw [hm]
  exact (step m (hall m (by omega)) (hmin m (by omega)).le).2

theorem witGain_quiet (K k : ℕ) (hk : k ≤ K) : witGain K k = quietGain k := by
  induction k with
  | zero => rfl
  | succ k ih =>
    rw [witGain, quietGain, ih (by omega)]
    unfold witSize
    rw [if_pos (by omega), if_pos hk]
    norm_num

theorem witGain_loud (K : ℕ) (h1 : 8 ≤ quietGain K) (h2 : quietGain K ≤ 9) (j : ℕ) : witGain K (K + 1 + j) ≤ -1 := by
  induction j with
  | zero =>
    rw [Nat.add_zero, witGain, witGain_quiet K K (le_refl _)]
    unfold witSize
    rw [if_pos (le_refl _), if_neg (by omega)]
    have h3 : 64 ≤ quietGain K ^ 2 := by nlinarith
    norm_num
    nlinarith
  | succ j ih =>
    rw [← Nat.add_assoc, witGain]
    unfold witSize
    rw [if_neg (by omega), if_neg (by omega)]
    have h3 : 1 ≤ witGain K (K + 1 + j) ^ 2 := by nlinarith
    norm_num
    nlinarith

/-- the timing error on the witness signal is never small -/
theorem witness_error (K k : ℕ) (h1 : 8 ≤ quietGain K) (h2 : quietGain K ≤ 9)
    (h3 : ∀ k, k < K → 1 ≤ quietGain k ∧ quietGain k ≤ 8) :
    1 / 1000 ≤ |timingError 64 (fun n => (mix (witSize K k) (witSize K (k + 1))).getD n 0)
      (fun n => (((mix (witSize K k) (witSize K (k + 1))).map (fun v => witGain K k * v)).map (sliceOne shipLevels)).getD n 0) 1 1| := by
  rcases lt_trichotomy k K with h | rfl | h
  · obtain ⟨g1, g2⟩ := h3 k h
    rw [witGain_quiet K k h.le]
    unfold witSize
    rw [if_pos h.le, if_pos (by omega), mix_dec _ _ _ (1 / 4) (1 / 4), mix_error]
    · norm_num
    all_goals first
      | (apply slice_inner <;> linarith)
      | (apply slice_inner_neg <;> linarith)
  · rw [witGain_quiet k k (le_refl _)]
    unfold witSize
    rw [if_pos (le_refl _), if_neg (by omega), mix_dec _ _ _ (1 / 4) (3 / 4), mix_error]
    · norm_num
    all_goals first
      | (apply slice_inner <;> linarith)
      | (apply slice_inner_neg <;> linarith)
      | (apply slice_outer; linarith)
      | (apply slice_outer_neg; linarith)
  · obtain ⟨j, rfl⟩ : ∃ j, k = K + 1 + j := ⟨k - K - 1, by omega⟩
    have hg := witGain_loud K h1 h2 j
    generalize witGain K (K + 1 + j) = g at *
    unfold witSize
    rw [if_neg (by omega), if_neg (by omega), mix_dec _ _ _ (-(3 / 4)) (-(3 / 4)), mix_error]
    · norm_num
    all_goals first
      | (apply slice_outer_neg; linarith)
      | (rw [neg_neg]; apply slice_outer; linarith)

/-! a signal of constant power on which the gain settles -/

theorem mix_even_dec (g a B C : ℝ) (b1 : sliceOne shipLevels (g * a) = B) (b2 : sliceOne shipLevels (g * (2 * a)) = C)
    (b3 : sliceOne shipLevels (g * -a) = -B) (b4 : sliceOne shipLevels (g * -(2 * a)) = -C) :
    ((mix a a).map (fun v => g * v)).map (sliceOne shipLevels) = (List.replicate 16 [B, C, -B, -C]).flatten := by
  unfold mix
  simp only [List.replicate, List.flatten_cons, List.flatten_nil, List.cons_append, List.nil_append, List.append_nil,
    List.map_cons, List.map_nil, b1, b2, b3, b4]

theorem mix_even_error (a B C : ℝ) : timingError 64 (fun k => (mix a a).getD k 0)
    (fun k => ((List.replicate 16 [B, C, -B, -C]).flatten).getD k 0) 1 1 = (2 * B - C) * a := by
  unfold timingError mix
  simp only [List.replicate, List.flatten_cons, List.flatten_nil, List.cons_append, List.nil_append, List.append_nil,
    Finset.sum_range_succ, Finset.range_zero, Finset.sum_empty, List.getD_cons_succ, List.getD_cons_zero]
  norm_num
  ring

/-- the gain on samples of size 3/10 -/
noncomputable def calmGain : ℕ → ℝ
  | 0 => 1
  | k + 1 => calmGain k + 25 / 256 * (5 / 16 - calmGain k ^ 2 * (9 / 40))

theorem calmGain_range (k : ℕ) : 1 ≤ calmGain k ∧ calmGain k ≤ 6 / 5 := by
  induction k with
  | zero => norm_num [calmGain]
  | succ k ih =>
    rw [calmGain]
    constructor <;> nlinarith [ih.1, ih.2, mul_nonneg (sub_nonneg.2 ih.1) (sub_nonneg.2 ih.2)]

theorem calm_step (k : ℕ) : LoopStep [-(3 / 4), -(1 / 4), 1 / 4, 3 / 4] 64 (mix (3 / 10) (3 / 10)) (calmGain k) (calmGain (k + 1))
    ((-k : ℤ) % 64) ((-(k + 1 : ℕ) : ℤ) % 64) true true := by
  obtain ⟨g1, g2⟩ := calmGain_range k
  have hd := mix_even_dec (calmGain k) (3 / 10) (1 / 4) (3 / 4) (by apply slice_inner <;> linarith) (by apply slice_outer; linarith)
    (by apply slice_inner_neg <;> linarith) (by apply slice_outer_neg; linarith)
  refine ⟨(List.replicate 16 [1 / 4, 3 / 4, -(1 / 4), -(3 / 4)]).flatten, _, ?_, ?_, rfl, (fun h => by cases h), fun _ => ?_⟩
  · rw [mix_length]; simp
  · intro i hi
    rw [← hd, getD_map_lt _ 0 0 _ (by simpa using hi), getD_map_lt _ 0 0 _ hi]
    exact sliceOne_spec shipLevels (by simp [shipLevels]) _
  · rw [mix_length, mix_even_error]
    refine ⟨?_, fun h => ?_, fun h => ?_, fun _ => ⟨?_, rfl⟩⟩
    · have hl : meanSq [-(3 / 4), -(1 / 4), 1 / 4, 3 / 4] = 5 / 16 := ship_level_power
      rw [hl, mix_power, calmGain]
      norm_num
    · rw [abs_lt] at h; norm_num at h
    · norm_num at h
    · push_cast
      omega

end Verif
