import Verif.Model.Linear
import Verif.Spec.Linear
import Verif.Lemmas.Coding
import Verif.Lemmas.Lock
import Mathlib.Algebra.Order.BigOperators.Group.Finset
import Mathlib.Tactic.Positivity
import Mathlib.Data.Nat.Bitwise

/-! Lemmas for enumeration, Hamming distance and block codes. -/

namespace Verif
open Spec

/-- congruence of finite sums modulo `m` -/
theorem sum_emod_congr (m : Int) (n : ℕ) (f g : ℕ → Int) (h : ∀ i < n, f i % m = g i % m) :
    (∑ i ∈ Finset.range n, f i) % m = (∑ i ∈ Finset.range n, g i) % m := by
  rw [Finset.sum_int_mod, Finset.sum_int_mod _ _ g]
  congr 1
  exact Finset.sum_congr rfl (fun i hi => h i (Finset.mem_range.1 hi))

/-! ### argmin -/

theorem argmin_eq {α : Type*} [LinearOrder α] (d : α) (l : List α) (i : ℕ) (hi : i < l.length)
    (h1 : ∀ j < l.length, l.getD i d ≤ l.getD j d) (h2 : ∀ j < i, l.getD i d < l.getD j d) :
    argmin l = i := by
  have hne : l ≠ [] := by intro h; subst h; simp at hi
  have ha := argmin_lt l hne
  have hs := argmin_spec l hne
  rcases Nat.lt_trichotomy (argmin l) i with h | h | h
  · exfalso
    have := h2 _ h
    rw [getD_of_lt d l hi, getD_of_lt d l ha] at this
    exact absurd (hs _ (List.getElem_mem hi)) (not_le.2 this)
  · exact h
  · exfalso
    obtain ⟨y, hy, hlt⟩ := argmin_first l i h hi
    obtain ⟨j, hj, rfl⟩ := List.getElem_of_mem hy
    have := h1 j hj
    rw [getD_of_lt d l hi, getD_of_lt d l hj] at this
    exact absurd hlt (not_lt.2 this)

theorem argmin_getD_spec {α : Type*} [LinearOrder α] (d : α) (l : List α) (h : l ≠ []) :
    argmin l < l.length ∧ (∀ j < l.length, l.getD (argmin l) d ≤ l.getD j d) ∧
      (∀ j < argmin l, l.getD (argmin l) d < l.getD j d) := by
  have ha := argmin_lt l h
  have hs := argmin_spec l h
  refine ⟨ha, fun j hj => ?_, fun j hj => ?_⟩
  · rw [getD_of_lt d l ha, getD_of_lt d l hj]; exact hs _ (List.getElem_mem hj)
  · have hjl : j < l.length := by omega
    obtain ⟨y, hy, hlt⟩ := argmin_first l j hj hjl
    rw [getD_of_lt d l ha, getD_of_lt d l hjl]
    exact lt_of_le_of_lt (hs y hy) hlt

/-! ### flattening rows -/

theorem flatten_uniform_length {α : Type*} (w : ℕ) (L : List (List α)) (h : ∀ r ∈ L, r.length = w) :
    L.flatten.length = L.length * w := by
  induction L with
  | nil => simp
  | cons a t ih =>
    rw [List.flatten_cons, List.length_append, h a (by simp), ih (fun r hr => h r (by simp [hr])),
      List.length_cons]
    ring

theorem flatten_getD {α : Type*} (d : α) (w : ℕ) (L : List (List α)) (h : ∀ r ∈ L, r.length = w)
    (r j : ℕ) (hr : r < L.length) (hj : j < w) :
    L.flatten.getD (r * w + j) d = (L.getD r []).getD j d := by
  induction L generalizing r with
  | nil => simp at hr
  | cons a t ih =>
    have ha := h a (by simp)
    cases r with
    | zero =>
      simp only [List.flatten_cons, Nat.zero_mul, Nat.zero_add, List.getD_cons_zero]
      simp [List.getD_eq_getElem?_getD, List.getElem?_append_left (show j < a.length by omega)]
    | succ r =>
      rw [List.getD_cons_succ, ← ih (fun r hr => h r (by simp [hr])) r (by simpa using hr), List.flatten_cons]
      simp only [List.getD_eq_getElem?_getD]
      rw [List.getElem?_append_right (by rw [ha, Nat.succ_mul]; omega), ha]
      congr 2
      rw [Nat.succ_mul]; omega

theorem rows_getD {α : Type*} (d : α) (w : ℕ) (l : List α) (r i : ℕ) (hr : r < l.length / w) (hi : i < w) :
    ((rows w l).getD r []).getD i d = l.getD (r * w + i) d := by
  rw [getD_of_lt [] _ (by rw [rows_length]; exact hr)]
  simp only [rows, List.getElem_map, List.getElem_range]
  simp [List.getD_eq_getElem?_getD, List.getElem?_drop, hi]

theorem rows_getD_eq {α : Type*} (w : ℕ) (l : List α) (r : ℕ) (hr : r < l.length / w) :
    (rows w l).getD r [] = (l.drop (r * w)).take w := by
  rw [getD_of_lt [] _ (by rw [rows_length]; exact hr)]
  simp [rows]

/-! ### enumeration -/

theorem binPerm_row (k x : ℕ) :
    (List.range k).map (fun i => if x &&& (1 <<< (k - 1 - i)) > 0 then (1 : Int) else 0)
      = (symBits k (x : Int)).reverse := by
  apply ext_getD 0 (by simp [symBits_length])
  intro i hi
  have hi' : i < k := by simpa using hi
  rw [getD_map_lt _ 0 0 _ (by simpa using hi'), getD_of_lt 0 _ (by simpa using hi'),
    getD_of_lt 0 _ (by simpa [symBits_length] using hi'), List.getElem_reverse, List.getElem_range]
  simp only [symBits, List.getElem_map, List.getElem_range, List.length_map, List.length_range]
  rw [Nat.one_shiftLeft, Nat.and_two_pow, Nat.testBit_eq_decide_div_mod_eq]
  have e : (x : Int) / 2 ^ (k - 1 - i) % 2 = ((x / 2 ^ (k - 1 - i) % 2 : ℕ) : Int) := by push_cast; rfl
  rw [e]
  have h2 : x / 2 ^ (k - 1 - i) % 2 = 0 ∨ x / 2 ^ (k - 1 - i) % 2 = 1 := by omega
  rcases h2 with h | h <;> rw [h] <;> simp

theorem getBinPerm_eq (k : ℕ) :
    getBinPerm k = (List.range (2 ^ k)).map (fun (x : ℕ) => (symBits k (x : Int)).reverse) := by
  unfold getBinPerm
  exact List.map_congr_left (fun x _ => binPerm_row k x)

theorem getBinPerm_length (k : ℕ) : (getBinPerm k).length = 2 ^ k := by simp [getBinPerm]

theorem getBinPerm_word (k : ℕ) : ∀ u ∈ getBinPerm k, Word k u := by
  intro u hu
  rw [getBinPerm_eq, List.mem_map] at hu
  obtain ⟨x, _, rfl⟩ := hu
  exact ⟨by simp [symBits_length], binary_reverse (symBits_binary k _)⟩

/-- index of a word in the enumeration -/
theorem word_index (k : ℕ) (u : List Int) (h : Word k u) :
    ∃ x : ℕ, x < 2 ^ k ∧ (x : Int) = leVal u.reverse ∧ (getBinPerm k).getD x [] = u := by
  obtain ⟨hl, hb⟩ := h
  have hr := leVal_range u.reverse (binary_reverse hb)
  rw [List.length_reverse, hl] at hr
  obtain ⟨x, hx⟩ := Int.eq_ofNat_of_zero_le hr.1
  have hx2 : x < 2 ^ k := by
    have := hr.2; rw [hx] at this; exact_mod_cast this
  refine ⟨x, hx2, hx.symm, ?_⟩
  rw [getBinPerm_eq, getD_map_lt _ 0 [] _ (by simpa using hx2), getD_of_lt 0 _ (by simpa using hx2),
    List.getElem_range, ← hx]
  have := symBits_leVal u.reverse (binary_reverse hb)
  rw [List.length_reverse, hl] at this
  rw [this, List.reverse_reverse]

theorem mem_getBinPerm (k : ℕ) (u : List Int) : u ∈ getBinPerm k ↔ Word k u := by
  constructor
  · exact getBinPerm_word k u
  · intro h
    obtain ⟨x, hx, _, e⟩ := word_index k u h
    rw [← e]
    exact mem_of_getD [] _ (by rw [getBinPerm_length]; exact hx)

/-! ### Hamming distance -/

theorem hammingDist_eq_sum (n : ℕ) (a b : List Int) (ha : a.length = n) (hb : b.length = n) :
    hammingDist a b = ∑ i ∈ Finset.range n, |a.getD i 0 - b.getD i 0| := by
  unfold hammingDist
  rw [sum_zipWith_eq (fun x y => |x - y|) 0 0 a b (by rw [ha, hb]), ha]

theorem hammingDist_nonneg (a b : List Int) : 0 ≤ hammingDist a b := by
  unfold hammingDist
  apply List.sum_nonneg
  intro x hx
  obtain ⟨i, hi, rfl⟩ := List.getElem_of_mem hx
  rw [List.getElem_zipWith]
  exact abs_nonneg _

/-- on binary words the distance counts the differing positions -/
theorem hammingDist_eq (n : ℕ) (a b : List Int) (ha : Word n a) (hb : Word n b) :
    hammingDist a b = dist n (seq a) (seq b) := by
  rw [hammingDist_eq_sum n a b ha.1 hb.1, dist, Finset.card_filter]
  push_cast
  refine Finset.sum_congr rfl (fun i _ => ?_)
  unfold seq
  rcases binary_getD ha.2 i with e | e <;> rcases binary_getD hb.2 i with f | f <;> rw [e, f] <;> simp

theorem hammingDist_self (a : List Int) : hammingDist a a = 0 := by
  unfold hammingDist
  induction a with
  | nil => rfl
  | cons x t ih => simp

theorem hammingDist_eq_zero (a b : List Int) (hl : a.length = b.length) (h : hammingDist a b = 0) : a = b := by
  unfold hammingDist at h
  induction a generalizing b with
  | nil => cases b with
    | nil => rfl
    | cons y t => simp at hl
  | cons x s ih =>
    cases b with
    | nil => simp at hl
    | cons y t =>
      simp only [List.zipWith_cons_cons, List.sum_cons] at h
      have h1 := hammingDist_nonneg s t
      unfold hammingDist at h1
      have h2 := abs_nonneg (x - y)
      have h3 : |x - y| = 0 := by omega
      rw [ih t (by simpa using hl) (by omega), sub_eq_zero.1 (abs_eq_zero.1 h3)]

theorem dist_comm (n : ℕ) (a b : ℕ → Int) : dist n a b = dist n b a := by
  unfold dist; congr 1; ext i; simp [ne_comm]

theorem dist_triangle (n : ℕ) (a b c : ℕ → Int) : dist n a c ≤ dist n a b + dist n b c := by
  unfold dist
  refine le_trans (Finset.card_le_card ?_) (Finset.card_union_le _ _)
  intro i hi
  simp only [Finset.mem_filter, Finset.mem_union, Finset.mem_range] at hi ⊢
  by_cases h : a i = b i
  · right; exact ⟨hi.1, by rw [← h]; exact hi.2⟩
  · left; exact ⟨hi.1, h⟩

theorem dist_congr (n : ℕ) {a a' b b' : ℕ → Int} (ha : ∀ i < n, a i = a' i) (hb : ∀ i < n, b i = b' i) :
    dist n a b = dist n a' b' := by
  unfold dist
  congr 1
  apply Finset.filter_congr
  intro i hi
  rw [Finset.mem_range] at hi
  rw [ha i hi, hb i hi]

/-! ### codewords -/

theorem cols_eq {n : ℕ} {G : List (List Int)} (hG : BinaryMatrix n G) (hk : 0 < G.length) : cols G = n := by
  unfold cols
  exact (hG _ (mem_of_getD [] G hk)).1

theorem vecMat_length (G : List (List Int)) (u : List Int) : (vecMat G u).length = cols G := by simp [vecMat]

theorem vecMat_binary (G : List (List Int)) (u : List Int) : IsBinary (vecMat G u) := by
  intro x hx
  unfold vecMat at hx
  rw [List.mem_map] at hx
  obtain ⟨j, _, rfl⟩ := hx
  exact Int.emod_two_eq_zero_or_one _

theorem vecMat_getD (G : List (List Int)) (u : List Int) (hu : u.length = G.length) (j : ℕ) (hj : j < cols G) :
    (vecMat G u).getD j 0 = codeBit G (seq u) j := by
  unfold vecMat codeBit
  rw [getD_map_lt _ 0 0 _ (by simpa using hj), getD_of_lt 0 _ (by simpa using hj), List.getElem_range,
    sum_zipWith_eq (fun a r => a * r.getD j 0) 0 [] u G hu, hu]
  rfl

theorem vecMat_inj {n : ℕ} {G : List (List Int)} (hk : 0 < G.length) (hG : BinaryMatrix n G)
    (hind : RowsIndependent n G) (u v : List Int) (hu : Word G.length u) (hv : Word G.length v)
    (h : vecMat G u = vecMat G v) : u = v := by
  have hc := cols_eq hG hk
  -- the XOR of the two words is a word in the kernel
  set w : List Int := (List.range G.length).map (fun i => (u.getD i 0 + v.getD i 0) % 2) with hw
  have hwl : w.length = G.length := by simp [hw]
  have hwg : ∀ i, i < G.length → w.getD i 0 = (u.getD i 0 + v.getD i 0) % 2 := by
    intro i hi
    rw [hw, getD_map_lt _ 0 0 _ (by simpa using hi), getD_of_lt 0 (List.range _) (by simpa using hi), List.getElem_range]
  have hword : Word G.length w := by
    refine ⟨hwl, fun x hx => ?_⟩
    rw [hw, List.mem_map] at hx
    obtain ⟨i, _, rfl⟩ := hx
    exact Int.emod_two_eq_zero_or_one _
  have hz := hind w hword (by
    intro j hj
    have e1 := vecMat_getD G u hu.1 j (by omega)
    have e2 := vecMat_getD G v hv.1 j (by omega)
    rw [h] at e1
    have e : codeBit G (seq u) j = codeBit G (seq v) j := by rw [← e1, ← e2]
    unfold codeBit at e ⊢
    have hs : ∀ a b : Int, a % 2 = b % 2 → (a + b) % 2 = 0 := by intro a b; omega
    have := hs _ _ e
    rw [← Finset.sum_add_distrib] at this
    refine Eq.trans ?_ this
    apply sum_emod_congr
    intro i hi
    unfold seq
    rw [hwg i hi, ← add_mul]
    exact Int.ModEq.mul (Int.mod_modEq _ _) (Int.ModEq.refl _))
  apply ext_getD 0 (by rw [hu.1, hv.1])
  intro i hi
  rw [hu.1] at hi
  have h0 := hz _ (mem_of_getD 0 w (by rw [hwl]; exact hi))
  rw [hwg i hi] at h0
  have a := binary_getD hu.2 i
  have b := binary_getD hv.2 i
  omega

/-! ### ML decoding of a block -/

/-- the ML decoder picks the first entry at minimal distance -/
theorem ml_pick (perms codebook : List (List Int)) (hl : perms.length = codebook.length)
    (hne : codebook ≠ []) (b : List Int) :
    ∃ i, i < perms.length ∧ argmin (codebook.map (fun c => hammingDist c b)) = i ∧
      (∀ j < codebook.length, hammingDist (codebook.getD i []) b ≤ hammingDist (codebook.getD j []) b) ∧
      (∀ j < i, hammingDist (codebook.getD i []) b < hammingDist (codebook.getD j []) b) := by
  have hne' : codebook.map (fun c => hammingDist c b) ≠ [] := by simpa using hne
  obtain ⟨h1, h2, h3⟩ := argmin_getD_spec 0 _ hne'
  rw [List.length_map] at h1 h2
  have hg : ∀ j, j < codebook.length → (codebook.map (fun c => hammingDist c b)).getD j 0
      = hammingDist (codebook.getD j []) b := fun j hj => getD_map_lt _ [] 0 _ hj
  refine ⟨_, by rw [hl]; exact h1, rfl, fun j hj => ?_, fun j hj => ?_⟩
  · have := h2 j hj
    rwa [hg j hj, hg _ h1] at this
  · have := h3 j hj
    rwa [hg j (by omega), hg _ h1] at this

/-- decoding one block of the linear code -/
theorem linear_pick (G : List (List Int)) (b : List Int) :
    ∃ u, Word G.length u ∧
      (getBinPerm G.length).getD (argmin (((getBinPerm G.length).map (vecMat G)).map (fun c => hammingDist c b))) [] = u ∧
      ∀ v, Word G.length v → hammingDist (vecMat G u) b ≤ hammingDist (vecMat G v) b := by
  have hlen : (getBinPerm G.length).length = ((getBinPerm G.length).map (vecMat G)).length := by simp
  have hne : (getBinPerm G.length).map (vecMat G) ≠ [] := by
    intro h
    have := congrArg List.length h
    rw [List.length_map, getBinPerm_length, List.length_nil] at this
    exact absurd this (by positivity)
  obtain ⟨i, hi, he, hmin, _⟩ := ml_pick _ _ hlen hne b
  refine ⟨(getBinPerm G.length).getD i [], getBinPerm_word _ _ (mem_of_getD [] _ hi), by rw [he], ?_⟩
  intro v hv
  obtain ⟨x, hx, _, e⟩ := word_index G.length v hv
  have := hmin x (by rw [List.length_map, getBinPerm_length]; exact hx)
  rwa [getD_map_lt _ [] [] _ hi, getD_map_lt _ [] [] _ (by rw [getBinPerm_length]; exact hx), e] at this

end Verif
