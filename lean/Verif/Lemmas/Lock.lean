import Verif.Model.Checker
import Verif.Lemmas.ListAux
import Mathlib.Order.Defs.LinearOrder
import Mathlib.Order.Lattice
import Mathlib.Data.List.Rotate
import Mathlib.Tactic.Linarith
import Mathlib.Tactic.Ring
import Mathlib.Algebra.Order.BigOperators.Group.Finset

/-! Lemmas on argmax/argmin, tiling and correlation used by the pattern lock. -/

namespace Verif

section Arg
variable {α : Type*} [LinearOrder α]

theorem exists_max (l : List α) (h : l ≠ []) : ∃ x ∈ l, ∀ y ∈ l, y ≤ x := by
  induction l with
  | nil => exact absurd rfl h
  | cons a l ih =>
    by_cases hl : l = []
    · subst hl; exact ⟨a, by simp, by simp⟩
    · obtain ⟨x, hx, hm⟩ := ih hl
      rcases le_total a x with hax | hax
      · exact ⟨x, by simp [hx], fun y hy => by
          rcases List.mem_cons.1 hy with rfl | hy
          · exact hax
          · exact hm y hy⟩
      · exact ⟨a, by simp, fun y hy => by
          rcases List.mem_cons.1 hy with rfl | hy
          · exact le_rfl
          · exact (hm y hy).trans hax⟩

theorem exists_min (l : List α) (h : l ≠ []) : ∃ x ∈ l, ∀ y ∈ l, x ≤ y :=
  exists_max (α := αᵒᵈ) l h

theorem argmax_lt (l : List α) (h : l ≠ []) : argmax l < l.length := by
  obtain ⟨x, hx, hm⟩ := exists_max l h
  exact List.findIdx_lt_length_of_exists ⟨x, hx, by simpa using hm⟩

theorem argmax_spec (l : List α) (h : l ≠ []) : ∀ y ∈ l, y ≤ l[argmax l]'(argmax_lt l h) := by
  have := List.findIdx_getElem (p := fun x => l.all (fun y => decide (y ≤ x))) (xs := l)
    (w := argmax_lt l h)
  simp only [List.all_eq_true, decide_eq_true_eq] at this
  exact this

theorem argmax_first (l : List α) (j : Nat) (hj : j < argmax l) (hjl : j < l.length) :
    ∃ y ∈ l, l[j] < y := by
  have := List.not_of_lt_findIdx (p := fun x => l.all (fun y => decide (y ≤ x))) (xs := l) hj
  simpa using this

theorem argmin_lt (l : List α) (h : l ≠ []) : argmin l < l.length := by
  obtain ⟨x, hx, hm⟩ := exists_min l h
  exact List.findIdx_lt_length_of_exists ⟨x, hx, by simpa using hm⟩

theorem argmin_spec (l : List α) (h : l ≠ []) : ∀ y ∈ l, l[argmin l]'(argmin_lt l h) ≤ y := by
  have := List.findIdx_getElem (p := fun x => l.all (fun y => decide (x ≤ y))) (xs := l)
    (w := argmin_lt l h)
  simp only [List.all_eq_true, decide_eq_true_eq] at this
  exact this

theorem argmin_first (l : List α) (j : Nat) (hj : j < argmin l) (hjl : j < l.length) :
    ∃ y ∈ l, y < l[j] := by
  have := List.not_of_lt_findIdx (p := fun x => l.all (fun y => decide (x ≤ y))) (xs := l) hj
  simpa using this

/-- value form of the argmax property on a tabulated function -/
theorem argmax_map_range (f : Nat → α) (n : Nat) (hn : 0 < n) :
    argmax ((List.range n).map f) < n ∧ (∀ k < n, f k ≤ f (argmax ((List.range n).map f))) ∧
    (∀ j < argmax ((List.range n).map f), f j < f (argmax ((List.range n).map f))) := by
  have hne : (List.range n).map f ≠ [] := by
    intro h; have := congrArg List.length h; simp at this; omega
  have h1 := argmax_lt _ hne
  have h2 := argmax_spec _ hne
  have h3 := argmax_first ((List.range n).map f)
  simp only [List.length_map, List.length_range] at h1 h3
  simp only [List.getElem_map, List.getElem_range] at h2 h3
  have h2' : ∀ k < n, f k ≤ f (argmax ((List.range n).map f)) := fun k hk =>
    h2 _ (List.mem_map.2 ⟨k, by simpa using hk, rfl⟩)
  refine ⟨h1, h2', fun j hj => ?_⟩
  obtain ⟨y, hy, hlt⟩ := h3 j hj (by omega)
  exact lt_of_lt_of_le hlt (h2 y hy)

theorem argmin_map_range (f : Nat → α) (n : Nat) (hn : 0 < n) :
    argmin ((List.range n).map f) < n ∧ (∀ k < n, f (argmin ((List.range n).map f)) ≤ f k) ∧
    (∀ j < argmin ((List.range n).map f), f (argmin ((List.range n).map f)) < f j) :=
  argmax_map_range (α := αᵒᵈ) f n hn

end Arg

theorem tile_map {α β : Type*} (f : α → β) (l : List α) (k : Nat) :
    (tile l k).map f = tile (l.map f) k := by
  simp [tile, List.map_flatten]

theorem getD_eq_of_getElem? {α : Type*} {l m : List α} {i j : Nat} (d : α) (h : l[i]? = m[j]?) :
    l.getD i d = m.getD j d := by
  simp [List.getD_eq_getElem?_getD, h]

theorem zipWith_take_left {α β γ : Type*} (f : α → β → γ) (l : List α) (m : List β) :
    List.zipWith f l m = List.zipWith f (l.take m.length) m := by
  induction l generalizing m with
  | nil => simp
  | cons x l ih => cases m with
    | nil => simp
    | cons y m => simp [ih m]

/-- correlation of the periodically repeated pattern at phase `k` with `v` -/
def corr {α : Type*} [Semiring α] (p v : List α) (k : Nat) : α :=
  ∑ i ∈ Finset.range v.length, p.getD ((k + i) % p.length) 0 * v.getD i 0

theorem correlateValid_tile {α : Type} [Semiring α] (p v : List α) (hv : v.length ≤ p.length) :
    correlateValid (tile p 2) v = (List.range (2 * p.length - v.length + 1)).map (corr p v) := by
  unfold correlateValid
  rw [tile_length]
  apply List.map_congr_left
  intro k hk
  rw [List.mem_range] at hk
  have e := zipWith_take_left (· * ·) ((tile p 2).drop k) v
  rw [e, sum_zipWith_eq _ 0 0 _ _ (by simp [tile_length]; omega)]
  unfold corr
  have hl : (((tile p 2).drop k).take v.length).length = v.length := by
    simp [tile_length]; omega
  rw [hl]
  apply Finset.sum_congr rfl
  intro i hi
  rw [Finset.mem_range] at hi
  congr 1
  apply getD_eq_of_getElem?
  rw [List.getElem?_take, if_pos hi, List.getElem?_drop, tile_getElem? _ _ _ (by omega)]

theorem corr_add_period {α : Type*} [Semiring α] (p v : List α) (k : Nat) :
    corr p v (k + p.length) = corr p v k := by
  unfold corr
  apply Finset.sum_congr rfl
  intro i _
  rw [show k + p.length + i = k + i + p.length by omega, Nat.add_mod_right]

theorem corr_mod {α : Type*} [Semiring α] (p v : List α) (k : Nat) :
    corr p v (k % p.length) = corr p v k := by
  unfold corr
  apply Finset.sum_congr rfl
  intro i _
  rw [Nat.mod_add_mod]

/-- the index chosen by the lock is a phase below one period with maximal correlation -/
theorem lock_core {α : Type} [Semiring α] [LinearOrder α] (p v : List α) (hp : 0 < p.length)
    (hv : v.length ≤ p.length) :
    argmax (correlateValid (tile p 2) v) < p.length ∧
      ∀ k, corr p v k ≤ corr p v (argmax (correlateValid (tile p 2) v)) := by
  rw [correlateValid_tile p v hv]
  obtain ⟨h1, h2, h3⟩ := argmax_map_range (corr p v) (2 * p.length - v.length + 1) (by omega)
  generalize argmax ((List.range (2 * p.length - v.length + 1)).map (corr p v)) = s at *
  constructor
  · by_contra hs
    have := h3 (s - p.length) (by omega)
    rw [← corr_add_period, Nat.sub_add_cancel (by omega)] at this
    exact lt_irrefl _ this
  · intro k
    rw [← corr_mod]
    exact h2 _ (by have := Nat.mod_lt k hp; omega)

/-- the slice of the doubled pattern is a rotation -/
theorem tile_slice {α : Type*} (p : List α) (s : Nat) (hs : s < p.length) :
    ((tile p 2).drop s).take p.length = p.rotate s := by
  apply List.ext_getElem?
  intro i
  by_cases hi : i < p.length
  · rw [List.getElem?_take, if_pos hi, List.getElem?_drop, tile_getElem? _ _ _ (by omega),
      List.getElem?_rotate hi, Nat.add_comm]
  · rw [List.getElem?_take, if_neg hi, List.getElem?_eq_none (by simp; omega)]

theorem sum_shift_period {α : Type*} [AddCommGroup α] (f : Nat → α) (P : Nat)
    (hf : ∀ i, f (i + P) = f i) (s : Nat) :
    ∑ i ∈ Finset.range P, f (s + i) = ∑ i ∈ Finset.range P, f i := by
  induction s with
  | zero => simp
  | succ s ih =>
    rw [← ih]
    have h1 := Finset.sum_range_succ (fun i => f (s + i)) P
    have h2 := Finset.sum_range_succ' (fun i => f (s + i)) P
    rw [h1] at h2
    simp only [hf, Nat.add_zero] at h2
    have := add_right_cancel h2
    rw [this]
    apply Finset.sum_congr rfl
    intro i _; congr 1; omega

end Verif
