import Verif.Lemmas.Framing

/-!
# Framing and rate change (C42, C43)
-/

namespace Verif
open Spec

variable {α : Type*} [Zero α] [DecidableEq α]
set_option linter.unusedSectionVars false

/-! ## C42 buffer -/

/-- **C42.** Frame `r`, column `c` is sample `r*(length-overlap)+c-delay` of the signal, zero outside it;
frame `r` exists iff it starts before `delay + len - max(overlap, 0)`. -/
theorem C42_frames (x : List α) (hx : x ≠ []) (L : ℕ) (ov : ℤ) (d : ℕ) (h : ov < L) :
    ∃ M, buffer x L ov d = .ok M ∧
      (∀ r : ℕ, r < M.length ↔ (r : ℤ) * (L - ov) < d + x.length - max ov 0) ∧
      ∀ r, r < M.length → (M.getD r []).length = L ∧
        ∀ c, c < L → (M.getD r []).getD c 0 = sample x ((r : ℤ) * (L - ov) + c - d) := by
  obtain ⟨M, h1, h2, h3⟩ := bufferFrames_spec x hx L ov d h
  refine ⟨M, ?_, fun r => by rw [h2]; exact nFrames_iff _ _ _ _ h r, h3⟩
  unfold buffer
  rw [h1]
  rfl

/-- **C42** (partial: signals longer than the overlap, see `C42_negative_cover`). For
`0 <= overlap < length` every sample of the signal is in some frame. -/
theorem C42_cover_partial (x : List α) (L : ℕ) (ov : ℤ) (d : ℕ) (h0 : 0 ≤ ov) (h : ov < L)
    (hlong : ov < d + x.length) (M : List (List α)) (hM : buffer x L ov d = .ok M) (i : ℕ) (hi : i < x.length) :
    ∃ r c : ℕ, r < M.length ∧ c < L ∧ (M.getD r []).getD c 0 = x.getD i 0 ∧ (r : ℤ) * (L - ov) + c = i + d := by
  have hx : x ≠ [] := by rintro rfl; simp at hi
  obtain ⟨M', h1, h2, h3⟩ := C42_frames x hx L ov d h
  rw [hM] at h1
  have : M = M' := Except.ok.inj h1
  subst this
  obtain ⟨s, hs⟩ : ∃ s : ℕ, (L : ℤ) - ov = s := ⟨((L:ℤ) - ov).toNat, by omega⟩
  have hspos : 0 < s := by omega
  have hmax : max ov 0 = ov := max_eq_left h0
  rw [hs, hmax] at h2
  rw [hs]
  rw [hs] at h3
  -- the frame that contains the sample: the one starting last before it, or the last one
  obtain ⟨r, hr, hr1, hr2⟩ : ∃ r : ℕ, r < M.length ∧ (r : ℤ) * s ≤ i + d ∧ (i : ℤ) + d < r * s + L := by
    by_cases hc : ((i + d) / s : ℕ) < M.length
    · refine ⟨(i + d) / s, hc, ?_, ?_⟩
      · have := Nat.div_mul_le_self (i + d) s
        zify at this
        exact_mod_cast this
      · have h4 := Nat.div_add_mod (i + d) s
        have h5 := Nat.mod_lt (i + d) hspos
        have h6 : ((s * ((i + d) / s) : ℕ) : ℤ) = (((i + d) / s : ℕ) : ℤ) * s := by push_cast; ring
        omega
    · have hpos : 0 < M.length := by rw [h2]; push_cast; omega
      refine ⟨M.length - 1, by omega, ?_, ?_⟩
      · have h4 := Nat.div_mul_le_self (i + d) s
        have h5 : (M.length - 1) * s ≤ (i + d) / s * s := Nat.mul_le_mul_right _ (by omega)
        have h6 : (((M.length - 1) * s : ℕ) : ℤ) = ((M.length - 1 : ℕ) : ℤ) * s := by push_cast; ring
        omega
      · have h4 : ¬ (M.length < M.length) := lt_irrefl _
        rw [h2] at h4
        have h6 : ((M.length : ℕ) : ℤ) * s = ((M.length - 1 : ℕ) : ℤ) * s + s := by
          have : ((M.length : ℕ) : ℤ) = ((M.length - 1 : ℕ) : ℤ) + 1 := by omega
          rw [this]; ring
        omega
  refine ⟨r, ((i : ℤ) + d - r * s).toNat, hr, by omega, ?_, by omega⟩
  rw [(h3 r hr).2 _ (by omega), show (r : ℤ) * s + (((i : ℤ) + d - r * s).toNat : ℤ) - d = i by omega]
  unfold sample
  rw [if_pos (by omega), Int.toNat_natCast]

/-- **C42** *violated*: a signal that is not longer than the overlap gives no frame at all. -/
theorem C42_negative_cover : buffer [(1 : Int), 2] 3 2 0 = .ok [] := by decide +kernel

/-- error branches and the degenerate case of an overlap larger than the frame -/
theorem C42_degenerate (x : List α) (L d : ℕ) :
    buffer x L L d = .error .zeroDivision ∧
    (∀ ov : ℤ, ov ≠ L → buffer ([] : List α) L ov d = .error .indexError) ∧
    (∀ ov : ℤ, L < ov → x ≠ [] → buffer x L ov d = .ok []) := by
  refine ⟨?_, fun ov h => ?_, fun ov h hx => ?_⟩
  · unfold buffer bufferFrames
    simp only [bind, Except.bind]
    rw [if_pos (by omega)]
  · unfold buffer bufferFrames
    simp only [bind, Except.bind]
    rw [if_neg (by omega), if_pos trivial]
  · unfold buffer bufferFrames
    simp only [bind, Except.bind]
    rw [if_neg (by omega), if_neg hx, if_pos (by omega)]
    rfl

/-- the last of the frames -/
theorem getLast_getD (M : List (List α)) (h : M ≠ []) : M.getLast? = some (M.getD (M.length - 1) []) := by
  have hp := List.length_pos_of_ne_nil h
  rw [List.getLast?_eq_getElem?, List.getElem?_eq_getElem (by omega), getD_of_lt [] M (by omega)]

/-- **C42** *violated*: clipping. `row not in matrix` compares single entries with all entries of the same
column, so it does not test for incomplete frames: an incomplete frame that starts before the last sample
is never removed ... -/
theorem C42_clip_keeps (x : List α) (L : ℕ) (ov : ℤ) (h0 : 0 ≤ ov) (h : ov < L) (hL : L ≤ x.length)
    (M : List (List α)) (hM : buffer x L ov 0 = .ok M) (hne : M ≠ [])
    (hstart : ((M.length - 1 : ℕ) : ℤ) * (L - ov) ≤ x.length - 2) :
    buffer x L ov 0 true = .ok M := by
  have hx : x ≠ [] := by rintro rfl; simp at hL; omega
  have hpos := List.length_pos_of_ne_nil hne
  obtain ⟨M', h1, h2, h3⟩ := C42_frames x hx L ov 0 h
  rw [hM] at h1
  have : M = M' := Except.ok.inj h1
  subst this
  obtain ⟨hlen, hval⟩ := h3 (M.length - 1) (by omega)
  have hfr : bufferFrames x L ov 0 = .ok M := by
    unfold buffer at hM
    cases hb : bufferFrames x L ov 0 with
    | error e => rw [hb] at hM; cases hM
    | ok m => rw [hb] at hM; exact hM
  unfold buffer
  rw [hfr]
  simp only [bind, Except.bind, if_true]
  rw [getLast_getD M hne]
  simp only []
  rw [if_neg (by omega), if_pos]
  · rfl
  · obtain ⟨k, hk⟩ : ∃ k : ℕ, ((M.length - 1 : ℕ) : ℤ) * (L - ov) = k :=
      ⟨(((M.length - 1 : ℕ) : ℤ) * (L - ov)).toNat, by
        have : 0 ≤ ((M.length - 1 : ℕ) : ℤ) * (L - ov) := mul_nonneg (by omega) (by omega)
        omega⟩
    rw [hk] at hstart hval
    have v0 := hval 0 (by omega)
    unfold npIn
    rw [List.any_eq_true]
    have hlk : k < (hankel x (x.reverse.take L)).dropLast.length := by simp [hankel]; omega
    refine ⟨_, List.getElem_mem hlk, ?_⟩
    rw [List.any_eq_true]
    refine ⟨true, ?_, rfl⟩
    rw [List.mem_iff_getElem]
    refine ⟨0, ?_, ?_⟩
    · rw [List.length_zipWith, hlen]
      simp [hankel]
      omega
    · rw [List.getElem_zipWith, decide_eq_true_eq]
      have e1 : (M.getD (M.length - 1) [])[0]'(by omega) = sample x ((k : ℤ) + (0 : ℕ) - (0 : ℕ)) := by
        rw [← v0, getD_of_lt 0 _ (by omega)]
      rw [e1]
      simp only [hankel, List.getElem_dropLast, List.getElem_map, List.getElem_range, add_zero, sample]
      rw [if_pos (by push_cast; omega)]
      simp only [Nat.cast_zero, add_zero, sub_zero, Int.toNat_natCast]
      simp only [List.getD_eq_getElem?_getD]
      rw [List.getElem?_append_left (by omega)]

/-- ... for example the incomplete frame [7, 8, 0] stays, ... -/
theorem C42_negative_clip_keeps :
    buffer [(1 : Int), 2, 3, 4, 5, 6, 7, 8] 3 0 0 true = .ok [[1, 2, 3], [4, 5, 6], [7, 8, 0]] := by
  decide +kernel

/-- ... while complete frames can be removed. -/
theorem C42_negative_clip_removes : buffer [(1 : Int), 2, 3] 1 0 0 true = .ok [[1], [2]] := by
  decide +kernel

theorem mem_vals (x r : List α) (hr : ∀ a ∈ r, a ∈ x) (i : ℕ) (hi : i < (x ++ r).length) : (x ++ r).getD i 0 ∈ x := by
  have := mem_of_getD (0:α) (x ++ r) hi
  rw [List.mem_append] at this
  rcases this with h | h
  · exact h
  · exact hr _ h

/-- **C42** (partial: the only kind of incomplete frame that clipping removes). If the last frame starts at
the last sample, is longer than one, the last sample occurs nowhere else and the signal has no zero,
clipping removes it. -/
theorem C42_clip_partial (x : List α) (L : ℕ) (ov : ℤ) (h0 : 0 ≤ ov) (h : ov < L) (hL : L ≤ x.length)
    (M : List (List α)) (hM : buffer x L ov 0 = .ok M) (hne : M ≠ [])
    (hstart : ((M.length - 1 : ℕ) : ℤ) * (L - ov) = x.length - 1)
    (hu : ∀ i, i + 1 < x.length → x.getD i 0 ≠ x.getD (x.length - 1) 0) (hz : (0 : α) ∉ x) :
    buffer x L ov 0 true = .ok M.dropLast := by
  have hx : x ≠ [] := by rintro rfl; simp at hL; omega
  have hxl := List.length_pos_of_ne_nil hx
  have hpos := List.length_pos_of_ne_nil hne
  obtain ⟨M', h1, h2, h3⟩ := C42_frames x hx L ov 0 h
  rw [hM] at h1
  have : M = M' := Except.ok.inj h1
  subst this
  obtain ⟨hlen, hval⟩ := h3 (M.length - 1) (by omega)
  have hfr : bufferFrames x L ov 0 = .ok M := by
    unfold buffer at hM
    cases hb : bufferFrames x L ov 0 with
    | error e => rw [hb] at hM; cases hM
    | ok m => rw [hb] at hM; exact hM
  unfold buffer
  rw [hfr]
  simp only [bind, Except.bind, if_true]
  rw [getLast_getD M hne]
  simp only []
  rw [if_neg (by omega), if_neg]
  · rfl
  · rw [hstart] at hval
    unfold npIn
    simp only [List.any_eq_true, not_exists, not_and]
    intro m hm b hb hbt
    rw [id_eq] at hbt
    subst hbt
    rw [List.mem_iff_getElem] at hm
    obtain ⟨i, hi, rfl⟩ := hm
    rw [List.mem_iff_getElem] at hb
    obtain ⟨j, hj, hb⟩ := hb
    rw [List.getElem_zipWith, decide_eq_true_eq] at hb
    have hi' : i + 1 < x.length := by simp [hankel] at hi; omega
    have hj' : j < L := by simp [hankel] at hj; omega
    have e1 : (M.getD (M.length - 1) [])[j]'(by omega) = sample x ((x.length : ℤ) - 1 + j) := by
      have := hval j hj'
      rw [getD_of_lt 0 _ (by omega)] at this
      rw [this]
      congr 1
      push_cast
      ring
    rw [e1] at hb
    simp only [hankel, List.getElem_dropLast, List.getElem_map, List.getElem_range] at hb
    rcases Nat.eq_zero_or_pos j with rfl | hj0
    · refine hu i hi' ?_
      unfold sample at hb
      rw [if_pos (by omega), show ((x.length : ℤ) - 1 + (0 : ℕ)).toNat = x.length - 1 by omega] at hb
      rw [← hb]
      simp only [add_zero, List.getD_eq_getElem?_getD]
      rw [List.getElem?_append_left (by omega)]
    · have hs0 : sample x ((x.length : ℤ) - 1 + j) = 0 := by
        unfold sample
        rw [if_pos (by omega), getD_of_le 0 x (by omega)]
      rw [hs0] at hb
      apply hz
      rw [← hb]
      apply mem_vals
      · intro a ha
        have := List.mem_of_mem_drop ha
        have := List.mem_of_mem_take this
        simpa using this
      · simp
        omega

example : buffer [(1 : Int), 2, 3, 4, 5] 3 1 1 = .ok [[0, 1, 2], [2, 3, 4], [4, 5, 0]] := by decide +kernel
example : buffer [(1 : Int), 2, 3, 4, 5] 2 (-1) 0 = .ok [[1, 2], [4, 5]] := by decide +kernel
example : buffer [(1 : Int), 2, 3, 4] 3 0 0 true = .ok [[1, 2, 3]] := by decide +kernel

/-! ## C43 upsample and zoh -/

/-- **C43.** `upsample(x, r)[i*r+j]` is `x[i]` for `j = 0` and zero otherwise; the length is `r * len`. -/
theorem C43_upsample (x : List α) (r : ℕ) (hr : 0 < r) :
    ∃ y, upsample x r = .ok y ∧ y.length = x.length * r ∧
      ∀ i j, i < x.length → j < r → y.getD (i * r + j) 0 = if j = 0 then x.getD i 0 else 0 := by
  have huni : ∀ row ∈ x.map (fun a => a :: List.replicate (r - 1) (0:α)), row.length = r := by
    intro row hrow
    rw [List.mem_map] at hrow
    obtain ⟨a, _, rfl⟩ := hrow
    simp
    omega
  refine ⟨_, by unfold upsample; rw [if_neg (by omega)], ?_, fun i j hi hj => ?_⟩
  · rw [flatten_uniform_length r _ huni]; simp
  · rw [flatten_getD 0 r _ huni i j (by simpa using hi) hj, getD_map_lt _ 0 [] _ hi]
    cases j with
    | zero => simp
    | succ j =>
      rw [List.getD_cons_succ, if_neg (by omega)]
      simp only [List.getD_eq_getElem?_getD, List.getElem?_replicate]
      split <;> rfl

/-- **C43.** `zoh(x, h)[i*h+j] = x[i]`; the length is `h * len`. -/
theorem C43_zoh (x : List α) (h : ℕ) :
    (zoh x h).length = x.length * h ∧ ∀ i j, i < x.length → j < h → (zoh x h).getD (i * h + j) 0 = x.getD i 0 := by
  have huni : ∀ row ∈ x.map (fun a => List.replicate h a), row.length = h := by
    intro row hrow
    rw [List.mem_map] at hrow
    obtain ⟨a, _, rfl⟩ := hrow
    simp
  unfold zoh
  refine ⟨by rw [flatten_uniform_length h _ huni]; simp, fun i j hi hj => ?_⟩
  rw [flatten_getD 0 h _ huni i j (by simpa using hi) hj, getD_map_lt _ 0 [] _ hi]
  simp [List.getD_eq_getElem?_getD, hj]

/-- **C43.** Taking every `r`-th sample (`y[::r]`, i.e. the samples at `i*r`) inverts both. -/
theorem C43_decimate (x : List α) (r : ℕ) (hr : 0 < r) (y : List α) (hy : upsample x r = .ok y) :
    (List.range ((y.length + r - 1) / r)).map (fun i => y.getD (i * r) 0) = x ∧
    (List.range (((zoh x r).length + r - 1) / r)).map (fun i => (zoh x r).getD (i * r) 0) = x := by
  have key : ∀ n : ℕ, (n * r + r - 1) / r = n := by
    intro n
    rw [Nat.add_sub_assoc hr, Nat.add_comm, Nat.add_mul_div_right _ _ hr, Nat.div_eq_of_lt (by omega), zero_add]
  obtain ⟨y', h1, h2, h3⟩ := C43_upsample x r hr
  rw [hy] at h1
  have : y = y' := Except.ok.inj h1
  subst this
  obtain ⟨z1, z2⟩ := C43_zoh x r
  rw [h2, z1, key]
  constructor
  · apply ext_getD 0 (by simp)
    intro i hi
    have hi' : i < x.length := by simpa using hi
    rw [getD_map_lt _ 0 0 _ (by simpa using hi'), getD_of_lt 0 (List.range _) (by simpa using hi'), List.getElem_range]
    have := h3 i 0 hi' hr
    simpa using this
  · apply ext_getD 0 (by simp)
    intro i hi
    have hi' : i < x.length := by simpa using hi
    rw [getD_map_lt _ 0 0 _ (by simpa using hi'), getD_of_lt 0 (List.range _) (by simpa using hi'), List.getElem_range]
    have := z2 i 0 hi' hr
    simpa using this

/-- **C43.** Both distribute over concatenation, so they can be applied chunk by chunk. -/
theorem C43_append (x y : List α) (r : ℕ) (hr : 0 < r) :
    (∃ a b, upsample x r = .ok a ∧ upsample y r = .ok b ∧ upsample (x ++ y) r = .ok (a ++ b)) ∧
    zoh (x ++ y) r = zoh x r ++ zoh y r := by
  unfold upsample zoh
  have h0 : ¬ r = 0 := by omega
  refine ⟨⟨_, _, if_neg h0, if_neg h0, (if_neg h0).trans (by simp)⟩, by simp⟩

/-- rate 0 raises ValueError; a hold of 0 gives the empty signal -/
theorem C43_zero_rate (x : List α) : upsample x 0 = .error .valueError ∧ zoh x 0 = [] := by
  refine ⟨rfl, ?_⟩
  unfold zoh
  induction x with
  | nil => rfl
  | cons a x ih => simp

example : upsample [(3 : Int), 5] 3 = .ok [3, 0, 0, 5, 0, 0] := by decide +kernel
example : zoh [(3 : Int), 5] 3 = [3, 3, 3, 5, 5, 5] := by decide +kernel

end Verif
