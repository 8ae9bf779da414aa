import Verif.Model.Coding
import Verif.Spec.Symbol
import Verif.Lemmas.Symbol
import Mathlib.Tactic.Linarith
import Mathlib.Tactic.Ring
import Mathlib.Tactic.NormNum

/-! Lemmas about the line codes. -/

namespace Verif
open Spec

/-- list equality from lengths and `getD` -/
theorem ext_getD {α : Type*} (d : α) {a b : List α} (hl : a.length = b.length)
    (h : ∀ i, i < a.length → a.getD i d = b.getD i d) : a = b := by
  apply List.ext_getElem hl
  intro i h1 h2
  have := h i h1
  simpa [List.getD_eq_getElem?_getD, h1, h2] using this

theorem getD_of_lt {α : Type*} (d : α) (l : List α) {i : ℕ} (h : i < l.length) :
    l.getD i d = l[i] := by simp [List.getD_eq_getElem?_getD, h]

theorem getD_of_le {α : Type*} (d : α) (l : List α) {i : ℕ} (h : l.length ≤ i) :
    l.getD i d = d := by simp [List.getD_eq_getElem?_getD, h]

theorem getD_map_lt {α β : Type*} (f : α → β) (d : α) (e : β) (l : List α) {i : ℕ} (h : i < l.length) :
    (l.map f).getD i e = f (l.getD i d) := by simp [List.getD_eq_getElem?_getD, h]

theorem mem_of_getD {α : Type*} (d : α) (l : List α) {i : ℕ} (h : i < l.length) : l.getD i d ∈ l := by
  rw [getD_of_lt d l h]; exact List.getElem_mem h

theorem zipWith_getD {α β γ : Type*} (f : α → β → γ) (da : α) (db : β) (e : γ) (a : List α) (b : List β)
    {i : ℕ} (ha : i < a.length) (hb : i < b.length) :
    (List.zipWith f a b).getD i e = f (a.getD i da) (b.getD i db) := by
  rw [getD_of_lt e _ (by simp; omega), getD_of_lt _ _ ha, getD_of_lt _ _ hb, List.getElem_zipWith]

/-- sum of the first `n` entries -/
def pre (p : List Int) (n : ℕ) : Int := (p.take n).sum

theorem pre_zero (p : List Int) : pre p 0 = 0 := by simp [pre]

theorem pre_succ (p : List Int) (n : ℕ) : pre p (n + 1) = pre p n + p.getD n 0 := by
  unfold pre
  rcases lt_or_ge n p.length with h | h
  · rw [List.take_add_one, List.sum_append]; simp [h, List.getD_eq_getElem?_getD]
  · rw [getD_of_le 0 _ h, List.take_of_length_le h, List.take_of_length_le (by omega), add_zero]

theorem cumsumFrom_length (a : Int) (l : List Int) : (cumsumFrom a l).length = l.length := by
  induction l generalizing a with
  | nil => rfl
  | cons x t ih => simp [cumsumFrom, ih]

theorem cumsumFrom_getD (l : List Int) : ∀ (a : Int) (i : ℕ), i < l.length →
    (cumsumFrom a l).getD i 0 = a + pre l (i + 1) := by
  induction l with
  | nil => intro a i h; simp at h
  | cons x t ih =>
    intro a i h
    cases i with
    | zero => simp [cumsumFrom, pre]
    | succ i =>
      simp only [cumsumFrom, List.getD_cons_succ]
      rw [ih (a + x) i (by simpa using h)]
      simp [pre, add_assoc]

theorem codingDifferential_length (p : List Int) (c : Constellation) :
    (codingDifferential p c).length = p.length := by
  simp [codingDifferential, cumsumFrom_length]

theorem codingDifferential_getD (p : List Int) (c : Constellation) {i : ℕ} (h : i < p.length) :
    (codingDifferential p c).getD i 0 = pre p (i + 1) % ((intLevels c).length : Int) := by
  unfold codingDifferential
  rw [getD_map_lt _ 0 0 _ (by rw [cumsumFrom_length]; exact h), cumsumFrom_getD p 0 i h, zero_add]

theorem firstDiff_length (p : List Int) : (firstDiff p).length = p.length := by
  simp [firstDiff]

theorem firstDiff_getD (p : List Int) {i : ℕ} (h : i < p.length) :
    (firstDiff p).getD i 0 = p.getD i 0 - (0 :: p).getD i 0 := by
  unfold firstDiff
  exact zipWith_getD _ 0 0 0 _ _ h (by simp; omega)

theorem diff_code_aux (m : Int) (l : List Int) : ∀ a : Int,
    (List.zipWith (· - ·) ((cumsumFrom a l).map (· % m)) ((a % m) :: (cumsumFrom a l).map (· % m))).map
      (· % m) = l.map (· % m) := by
  induction l with
  | nil => intro a; simp [cumsumFrom]
  | cons x t ih =>
    intro a
    simp only [cumsumFrom, List.map_cons, List.zipWith_cons_cons]
    rw [ih (a + x)]
    congr 1
    rw [← Int.sub_emod]
    congr 1; ring

theorem code_diff_aux (m : Int) (l : List Int) : ∀ a q : Int, a % m = q % m →
    (cumsumFrom a ((List.zipWith (· - ·) l (q :: l)).map (· % m))).map (· % m) = l.map (· % m) := by
  induction l with
  | nil => intro a q _; simp [cumsumFrom]
  | cons x t ih =>
    intro a q haq
    simp only [List.zipWith_cons_cons, List.map_cons, cumsumFrom]
    have hx : (a + (x - q) % m) % m = x % m := by
      have h1 : (a + (x - q) % m) ≡ q + (x - q) [ZMOD m] :=
        Int.ModEq.add haq (Int.mod_modEq _ _)
      have h2 : q + (x - q) = x := by ring
      rw [h2] at h1
      exact h1
    rw [hx, ih _ x hx]

theorem map_mod_self (m : Int) (l : List Int) (h : ∀ x ∈ l, 0 ≤ x ∧ x < m) : l.map (· % m) = l := by
  conv_rhs => rw [← List.map_id l]
  exact List.map_congr_left (fun x hx => Int.emod_eq_of_lt (h x hx).1 (h x hx).2)

/-! ### check_binary -/

theorem checkBinary_ok {p : List Int} (h : IsBinary p) : checkBinary p = .ok () := by
  have hsub : p.dedup ⊆ [0, 1] := by
    intro x hx
    rcases h x (List.mem_dedup.1 hx) with rfl | rfl <;> simp
  have hlen : p.dedup.length ≤ 2 :=
    ((List.nodup_dedup p).subperm hsub).length_le
  have hmem : p.dedup.length ≠ 0 → (0 ∈ p.dedup ∨ 1 ∈ p.dedup) := by
    intro h0
    obtain ⟨x, hx⟩ := List.exists_mem_of_length_pos (Nat.pos_of_ne_zero h0)
    rcases h x (List.mem_dedup.1 hx) with rfl | rfl
    · exact Or.inl hx
    · exact Or.inr hx
  unfold checkBinary
  simp only []
  rw [if_neg, if_neg, if_neg]
  · omega
  · rintro ⟨h1, h2, h3⟩
    rcases hmem (by omega) with h | h
    · exact h2 h
    · exact h3 h
  · rintro ⟨h1, h2, h3⟩
    rcases hmem (by omega) with h | h
    · exact h2 h
    · exact h3 h

/-! ### Manchester -/

theorem manchester_cells {p : List Int} (h : IsBinary p) :
    codingManchester p = .ok (p.map (fun b => [b, 1 - b])).flatten := by
  unfold codingManchester
  rw [checkBinary_ok h]
  simp only [bind, Except.bind]
  rw [npTake_ok [[0, 1], [1, 0]] p (fun b => [b, 1 - b]) (by
    intro x hx
    rcases h x hx with rfl | rfl <;> rfl)]
  rfl

theorem flatten_pairs_getD (f g : Int → Int) (p : List Int) : ∀ i, i < p.length →
    (p.map (fun b => [f b, g b])).flatten.getD (2 * i) 0 = f (p.getD i 0) ∧
    (p.map (fun b => [f b, g b])).flatten.getD (2 * i + 1) 0 = g (p.getD i 0) := by
  induction p with
  | nil => intro i h; simp at h
  | cons x t ih =>
    intro i h
    cases i with
    | zero => simp
    | succ i =>
      have := ih i (by simpa using h)
      rw [show 2 * (i + 1) = 2 * i + 1 + 1 by ring]
      simpa using this

theorem flatten_pairs_length (f g : Int → Int) (p : List Int) :
    (p.map (fun b => [f b, g b])).flatten.length = 2 * p.length := by
  induction p with
  | nil => rfl
  | cons x t ih => simp at ih ⊢; omega

theorem rows2_getD (p : List Int) (i : ℕ) (hi : i < p.length / 2) :
    ((rows 2 p).getD i []).getD 0 0 = p.getD (2 * i) 0 ∧
    ((rows 2 p).getD i []).getD 1 0 = p.getD (2 * i + 1) 0 := by
  have h1 : 2 * i + 1 < p.length := by omega
  rw [getD_of_lt [] _ (by rw [rows_length]; exact hi)]
  simp only [rows, List.getElem_map, List.getElem_range]
  constructor
  · simp [List.getD_eq_getElem?_getD, List.getElem?_drop, Nat.mul_comm]
  · simp [List.getD_eq_getElem?_getD, List.getElem?_drop, Nat.mul_comm]

/-! ### differential Manchester -/

/-- cells of the differential Manchester code with starting level `s` -/
def dmCells (s : Int) : List Int → List (List Int)
  | [] => []
  | b :: t => [s, if b = 0 then 1 - s else s] :: dmCells (if b = 0 then s else 1 - s) t

theorem dmCells_length (s : Int) (p : List Int) : (dmCells s p).length = p.length := by
  induction p generalizing s with
  | nil => rfl
  | cons b t ih => simp [dmCells, ih]

theorem dm_aux : ∀ (p : List Int), IsBinary p → ∀ (k : ℕ) (a : Int),
    (List.zip (List.zipWith (fun (i : Nat) s => ((i : Int) + s) % 2)
        ((List.range p.length).map (· + k))
        (cumsumFrom a (0 :: (p.map (fun x => 1 - x)).dropLast)))
        (p.map (fun x => 1 - x))).mapM (fun q => (do
      let r ← npGet [[[0, 0], [0, 1]], [[1, 1], [1, 0]]] q.1
      npGet r q.2 : Py (List Int))) = .ok (dmCells (((k : Int) + a) % 2) p) := by
  intro p
  induction p with
  | nil => intro _ k a; simp [dmCells]; rfl
  | cons b t ih =>
    intro hb k a
    have hbt : IsBinary t := fun x hx => hb x (List.mem_cons_of_mem _ hx)
    have hb0 := hb b (by simp)
    have hr : (List.range (b :: t).length).map (· + k)
        = k :: (List.range t.length).map (· + (k + 1)) := by
      rw [List.length_cons, List.range_succ_eq_map]
      simp [Function.comp_def, Nat.add_comm, Nat.add_left_comm]
    have hc : cumsumFrom a (0 :: ((b :: t).map (fun x => 1 - x)).dropLast)
        = if t = [] then [a] else a :: cumsumFrom (a + (1 - b)) (0 :: (t.map (fun x => 1 - x)).dropLast) := by
      cases t with
      | nil => simp [cumsumFrom]
      | cons b' t' => simp [cumsumFrom]
    have hcell : (do
        let r ← npGet [[[0, 0], [0, 1]], [[1, 1], [1, 0]]] (((k : Int) + a) % 2)
        npGet r (1 - b) : Py (List Int))
        = .ok [((k : Int) + a) % 2, if b = 0 then 1 - ((k : Int) + a) % 2 else ((k : Int) + a) % 2] := by
      rcases Int.emod_two_eq_zero_or_one ((k : Int) + a) with h | h <;>
        rcases hb0 with rfl | rfl <;> rw [h] <;> rfl
    rw [hr, hc]
    by_cases ht : t = []
    · subst ht
      simp only [if_true, List.zipWith_cons_cons, List.map_cons, List.zip_cons_cons, List.mapM_cons, hcell]
      rfl
    · simp only [if_neg ht, List.zipWith_cons_cons, List.map_cons, List.zip_cons_cons, List.mapM_cons, hcell]
      rw [ih hbt (k + 1) (a + (1 - b))]
      simp only [bind, Except.bind, pure, Except.pure, dmCells]
      congr 3
      push_cast
      rcases hb0 with rfl | rfl <;> simp <;> omega

theorem codingDiffManchester_eq {p : List Int} (h : IsBinary p) :
    codingDiffManchester p = .ok (dmCells 0 p).flatten := by
  unfold codingDiffManchester
  rw [checkBinary_ok h]
  have := dm_aux p h 0 0
  simp only [bind, Except.bind, List.length_map] at this ⊢
  simp only [Nat.add_zero, List.map_id'] at this
  rw [this]
  rfl

theorem dmCells_spec : ∀ (p : List Int), IsBinary p → ∀ s : Int, (s = 0 ∨ s = 1) →
    IsBinary (dmCells s p).flatten ∧ (dmCells s p).flatten.length = 2 * p.length ∧
    (p ≠ [] → (dmCells s p).flatten.getD 0 0 = s) ∧
    (∀ i, i < p.length → ((dmCells s p).flatten.getD (2 * i) 0 ≠ (dmCells s p).flatten.getD (2 * i + 1) 0
      ↔ p.getD i 0 = 0)) ∧
    (∀ i, i + 1 < p.length →
      (dmCells s p).flatten.getD (2 * i + 1) 0 ≠ (dmCells s p).flatten.getD (2 * i + 2) 0) := by
  intro p
  induction p with
  | nil => intro _ s _; simp [dmCells, IsBinary]
  | cons b t ih =>
    intro hb s hs
    have hbt : IsBinary t := fun x hx => hb x (List.mem_cons_of_mem _ hx)
    have hb0 := hb b (by simp)
    have hs' : (if b = 0 then s else 1 - s) = 0 ∨ (if b = 0 then s else 1 - s) = 1 := by
      rcases hb0 with rfl | rfl <;> rcases hs with rfl | rfl <;> simp
    obtain ⟨h1, h2, h3, h4, h5⟩ := ih hbt _ hs'
    refine ⟨?_, ?_, ?_, ?_, ?_⟩
    · intro x hx
      simp only [dmCells, List.flatten_cons, List.mem_append, List.mem_cons, List.not_mem_nil, or_false] at hx
      rcases hx with (rfl | rfl) | hx
      · exact hs
      · rcases hb0 with rfl | rfl <;> rcases hs with rfl | rfl <;> simp
      · exact h1 x hx
    · simp [dmCells] at h2 ⊢; omega
    · intro _; simp [dmCells]
    · intro i hi
      cases i with
      | zero =>
        simp only [dmCells, List.flatten_cons]
        rcases hb0 with rfl | rfl <;> rcases hs with rfl | rfl <;> simp
      | succ i =>
        have := h4 i (by simpa using hi)
        rw [show 2 * (i + 1) = 2 * i + 1 + 1 by ring]
        simpa [dmCells] using this
    · intro i hi
      cases i with
      | zero =>
        have hne : t ≠ [] := by intro h; subst h; simp at hi
        have := h3 hne
        simp only [dmCells, List.flatten_cons]
        simp only [Nat.mul_zero, Nat.zero_add, List.cons_append, List.nil_append, List.getD_cons_succ,
          List.getD_cons_zero]
        rw [this]
        rcases hb0 with rfl | rfl <;> rcases hs with rfl | rfl <;> simp
      | succ i =>
        have := h5 i (by simpa using hi)
        rw [show 2 * (i + 1) = 2 * i + 1 + 1 by ring]
        simpa [dmCells] using this

end Verif
