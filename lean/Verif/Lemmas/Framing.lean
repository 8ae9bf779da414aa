import Verif.Model.Framing
import Verif.Spec.Framing
import Verif.Lemmas.Linear

/-! Lemmas: frames. -/

namespace Verif
open Spec

variable {α : Type*} [Zero α] [DecidableEq α]
set_option linter.unusedSectionVars false

theorem getD_append_replicate (l : List α) (n i : ℕ) : (l ++ List.replicate n 0).getD i 0 = l.getD i 0 := by
  rcases Nat.lt_or_ge i l.length with h | h
  · simp [List.getD_eq_getElem?_getD, List.getElem?_append_left h]
  · rw [getD_of_le 0 l h]
    simp only [List.getD_eq_getElem?_getD]
    rw [List.getElem?_append_right h, List.getElem?_replicate]
    split <;> rfl

omit [DecidableEq α] in
theorem full_getD (d : ℕ) (x : List α) (i : ℕ) : (List.replicate d 0 ++ x).getD i 0 = sample x ((i : ℤ) - d) := by
  unfold sample
  rcases Nat.lt_or_ge i d with h | h
  · rw [if_neg (by omega)]
    simp [List.getD_eq_getElem?_getD, List.getElem?_append, h]
  · rw [if_pos (by omega), show ((i : ℤ) - d).toNat = i - d by omega]
    simp [List.getD_eq_getElem?_getD, List.getElem?_append, Nat.not_lt.2 h]

/-- the Hankel matrix of the zero extended signal -/
theorem hankel_frame (d L : ℕ) (x : List α) (i j : ℕ) (hi : i < d + x.length + L) (hj : j < L) :
    ((hankel (List.replicate d 0 ++ x ++ List.replicate L 0)
      ((List.replicate d 0 ++ x ++ List.replicate L 0).reverse.take L)).getD i []).getD j 0
      = sample x ((i : ℤ) + j - d) ∧
    ((hankel (List.replicate d 0 ++ x ++ List.replicate L 0)
      ((List.replicate d 0 ++ x ++ List.replicate L 0).reverse.take L)).getD i []).length = L := by
  have hr : (List.replicate d 0 ++ x ++ List.replicate L (0:α)).reverse.take L = List.replicate L 0 := by
    rw [List.reverse_append, List.reverse_replicate]
    simp
  rw [hr]
  unfold hankel
  rw [getD_map_lt _ 0 [] _ (by simp; omega), getD_of_lt 0 (List.range _) (by simp; omega), List.getElem_range]
  refine ⟨?_, by simp⟩
  rw [getD_map_lt _ 0 0 _ (by simpa using hj), getD_of_lt 0 (List.range _) (by simpa using hj), List.getElem_range,
    List.drop_replicate, List.append_assoc, List.replicate_append_replicate, getD_append_replicate, full_getD]
  congr 1

theorem arange_length (stop step : ℕ) : (arange stop step).length = (stop + step - 1) / step := by simp [arange]

theorem arange_getD (stop step k : ℕ) (hk : k < (stop + step - 1) / step) : (arange stop step).getD k 0 = k * step := by
  unfold arange
  rw [getD_map_lt _ 0 0 _ (by simpa using hk), getD_of_lt 0 (List.range _) (by simpa using hk), List.getElem_range]

theorem arange_count (stop step : ℕ) (hs : 0 < step) (k : ℕ) : k < (stop + step - 1) / step ↔ k * step < stop := by
  rw [Nat.lt_iff_add_one_le, Nat.le_div_iff_mul_le hs, Nat.succ_mul]
  omega

/-- number of indices below `n` that reach a threshold of a monotone condition -/
theorem countP_range_tail (n m : ℕ) (p : ℕ → Bool) (h : ∀ k < n, p k = true ↔ m ≤ k) :
    (List.range n).countP p = n - m := by
  induction n with
  | zero => simp
  | succ n ih =>
    rw [List.range_succ, List.countP_append, ih (fun k hk => h k (by omega)), List.countP_singleton]
    have := h n (by omega)
    by_cases hp : p n = true
    · rw [if_pos hp]
      have := this.1 hp
      omega
    · rw [if_neg hp]
      have : ¬ m ≤ n := fun hm => hp (this.2 hm)
      omega

/-- number of frames -/
def nFrames (N L : ℕ) (ov : ℤ) (d : ℕ) : ℕ :=
  ((d + N : ℤ) - max ov 0).toNat / ((L : ℤ) - ov).toNat + (if ((d + N : ℤ) - max ov 0).toNat % ((L : ℤ) - ov).toNat = 0 then 0 else 1)

theorem nFrames_iff (N L : ℕ) (ov : ℤ) (d : ℕ) (h : ov < L) (r : ℕ) :
    r < nFrames N L ov d ↔ (r : ℤ) * (L - ov) < d + N - max ov 0 := by
  obtain ⟨s, hs⟩ : ∃ s : ℕ, (L : ℤ) - ov = s := ⟨((L:ℤ) - ov).toNat, by omega⟩
  have hspos : 0 < s := by omega
  unfold nFrames
  rw [hs, Int.toNat_natCast]
  obtain ⟨M, hM⟩ : ∃ M : ℕ, ((d + N : ℤ) - max ov 0).toNat = M := ⟨_, rfl⟩
  rw [hM]
  have h1 : (r : ℤ) * s < d + N - max ov 0 ↔ r * s < M := by
    rw [← hM]
    have : ((r * s : ℕ) : ℤ) = (r : ℤ) * s := by push_cast; ring
    constructor
    · intro h; omega
    · intro h; omega
  rw [h1]
  have hdm := Nat.div_add_mod M s
  have hlt := Nat.mod_lt M hspos
  split
  · rename_i h0
    rw [add_zero, Nat.lt_div_iff_mul_lt' (Nat.dvd_of_mod_eq_zero h0), Nat.mul_comm]
  · rename_i h0
    rw [Nat.lt_succ_iff, Nat.le_div_iff_mul_le hspos]
    constructor
    · intro h
      rcases Nat.lt_or_ge (r * s) M with h2 | h2
      · exact h2
      · exfalso
        have : M = r * s := by omega
        rw [this, Nat.mul_mod_left] at h0
        exact h0 rfl
    · intro h; omega

/-- without clipping -/
theorem bufferFrames_spec (x : List α) (hx : x ≠ []) (L : ℕ) (ov : ℤ) (d : ℕ) (h : ov < L) :
    ∃ M, bufferFrames x L ov d = .ok M ∧ M.length = nFrames x.length L ov d ∧
      ∀ r, r < M.length → (M.getD r []).length = L ∧
        ∀ c, c < L → (M.getD r []).getD c 0 = sample x ((r : ℤ) * (L - ov) + c - d) := by
  obtain ⟨s, hs⟩ : ∃ s : ℕ, (L : ℤ) - ov = s := ⟨((L:ℤ) - ov).toNat, by omega⟩
  have hspos : 0 < s := by omega
  unfold bufferFrames
  simp only []
  rw [hs, if_neg (by omega), if_neg hx, if_neg (by omega)]
  simp only [Int.toNat_natCast]
  set starts := arange (d + x.length + L) s with hst
  have hlen : starts.length = (d + x.length + L + s - 1) / s := arange_length _ _
  have hn := nFrames_iff x.length L ov d h
  have hle : nFrames x.length L ov d ≤ starts.length := by
    rw [hlen]
    by_contra hcon
    have h1 : (d + x.length + L + s - 1) / s < nFrames x.length L ov d := by omega
    rw [hn] at h1
    have h2 : ¬ ((d + x.length + L + s - 1) / s < (d + x.length + L + s - 1) / s) := lt_irrefl _
    rw [arange_count _ _ hspos] at h2
    rw [hs] at h1
    have : (((d + x.length + L + s - 1) / s * s : ℕ) : ℤ) = (((d + x.length + L + s - 1) / s : ℕ) : ℤ) * s := by push_cast; ring
    omega
  have hcount : starts.countP (fun (i : ℕ) =>
      decide (((d + x.length + L : ℕ) : ℤ) - L - max ov 0 ≤ i) && decide (i < d + x.length + L))
      = starts.length - nFrames x.length L ov d := by
    rw [hlen, hst]
    unfold arange
    rw [List.countP_map]
    apply countP_range_tail
    intro k hk
    rw [arange_count _ _ hspos] at hk
    simp only [Function.comp_apply, Bool.and_eq_true, decide_eq_true_eq]
    have := hn k
    rw [hs] at this
    have e : ((k * s : ℕ) : ℤ) = (k : ℤ) * s := by push_cast; ring
    constructor
    · rintro ⟨h1, _⟩
      by_contra hcon
      have := this.1 (by omega)
      push_cast at h1
      omega
    · intro h1
      refine ⟨?_, hk⟩
      have : ¬ ((k : ℤ) * s < d + x.length - max ov 0) := fun h2 => by have := this.2 h2; omega
      push_cast
      omega
  refine ⟨_, rfl, ?_⟩
  rw [hcount]
  have hlen2 : ((starts.map (fun i => (hankel (List.replicate d 0 ++ x ++ List.replicate L 0)
      ((List.replicate d 0 ++ x ++ List.replicate L 0).reverse.take L)).getD i [])).take
        ((starts.map (fun i => (hankel (List.replicate d 0 ++ x ++ List.replicate L 0)
      ((List.replicate d 0 ++ x ++ List.replicate L 0).reverse.take L)).getD i [])).length
        - (starts.length - nFrames x.length L ov d))).length = nFrames x.length L ov d := by
    rw [List.length_take, List.length_map]
    omega
  refine ⟨hlen2, fun r hr => ?_⟩
  rw [hlen2] at hr
  have hr2 : r < starts.length := by omega
  have hr3 : r * s < d + x.length + L := by
    rw [← arange_count _ _ hspos, ← hlen]; exact hr2
  have hrow : ((starts.map (fun i => (hankel (List.replicate d 0 ++ x ++ List.replicate L 0)
      ((List.replicate d 0 ++ x ++ List.replicate L 0).reverse.take L)).getD i [])).take
        ((starts.map (fun i => (hankel (List.replicate d 0 ++ x ++ List.replicate L 0)
      ((List.replicate d 0 ++ x ++ List.replicate L 0).reverse.take L)).getD i [])).length
        - (starts.length - nFrames x.length L ov d))).getD r []
      = (hankel (List.replicate d 0 ++ x ++ List.replicate L 0)
      ((List.replicate d 0 ++ x ++ List.replicate L 0).reverse.take L)).getD (r * s) [] := by
    have e1 : starts.getD r 0 = r * s := arange_getD _ _ _ (by rw [← hlen]; exact hr2)
    rw [List.length_map]
    have e2 := getD_map_lt (fun i => (hankel (List.replicate d 0 ++ x ++ List.replicate L 0)
      ((List.replicate d 0 ++ x ++ List.replicate L 0).reverse.take L)).getD i []) 0 [] starts hr2
    rw [e1] at e2
    rw [← e2]
    simp only [List.getD_eq_getElem?_getD]
    rw [List.getElem?_take, if_pos (by omega)]
  rw [hrow]
  have hL : ∀ c, c < L → _ := fun c hc => hankel_frame d L x (r * s) c hr3 hc
  constructor
  · rcases Nat.eq_zero_or_pos L with h0 | h0
    · subst h0
      unfold hankel
      rw [getD_map_lt _ 0 [] _ (by simp; omega)]
      simp
    · exact (hL 0 h0).2
  · intro c hc
    rw [(hL c hc).1]
    congr 1

end Verif
