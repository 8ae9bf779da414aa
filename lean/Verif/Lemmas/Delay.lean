import Verif.Model.Delay
import Verif.Lemmas.Pulse
import Mathlib.LinearAlgebra.Lagrange
import Mathlib.Algebra.CharZero.Defs
import Mathlib.Data.Int.CharZero

/-! Interpolation filters. -/

set_option linter.unusedSectionVars false

open Finset

namespace Verif

open Spec (withPast)

variable {K : Type*} [Field K]

/-- position of the zero-delay tap -/
def zeroTap (n : ℕ) (forward : Bool) : ℕ := if n % 2 = 1 ∧ forward = false then n / 2 + 1 else n / 2

theorem getIndices_eq (n : ℕ) (forward : Bool) :
    getIndices n forward = (List.range (n + 1)).map (fun k : ℕ => (k : ℤ) - zeroTap n forward) := by
  unfold getIndices arangeZ zeroTap
  by_cases h1 : n % 2 = 0
  · rw [if_pos h1, if_neg (by omega), show (((n / 2 : ℕ) : ℤ) + 1 - -((n / 2 : ℕ) : ℤ)).toNat = n + 1 by omega]
    exact List.map_congr_left fun k _ => by ring
  · rw [if_neg h1]
    cases forward
    · rw [if_neg (by decide), if_pos (by simp; omega),
        show (((n / 2 : ℕ) : ℤ) + 1 - (-((n / 2 : ℕ) : ℤ) - 1)).toNat = n + 1 by omega]
      exact List.map_congr_left fun k _ => by push_cast; ring
    · rw [if_pos rfl, if_neg (by simp), show (((n / 2 : ℕ) : ℤ) + 2 - -((n / 2 : ℕ) : ℤ)).toNat = n + 1 by omega]
      exact List.map_congr_left fun k _ => by ring

theorem range_getD (n k : ℕ) (h : k < n) : (List.range n).getD k 0 = k := by
  rw [List.getD_eq_getElem?_getD, List.getElem?_range h]; rfl

theorem map_range_getD {α : Type*} (f : ℕ → α) (d : α) (n k : ℕ) (h : k < n) :
    ((List.range n).map f).getD k d = f k := by
  rw [getD_map_lt f 0 d _ (by simpa using h), range_getD n k h]

theorem prod_eq_range {M : Type*} [CommMonoid M] (l : List M) : l.prod = ∏ c ∈ range l.length, l.getD c 1 := by
  induction l with
  | nil => simp
  | cons a l ih => rw [List.length_cons, prod_range_succ', List.prod_cons, ih, mul_comm]; rfl

theorem offDiag_prod {M : Type*} [CommMonoid M] (l : List M) (r : ℕ) :
    (offDiag l r).prod = ∏ c ∈ range l.length, if c = r then 1 else l.getD c 1 := by
  unfold offDiag
  induction l generalizing r with
  | nil => simp
  | cons a l ih =>
    rw [List.length_cons, prod_range_succ']
    cases r with
    | zero =>
      rw [List.eraseIdx_zero, if_pos rfl, mul_one, List.tail_cons, prod_eq_range]
      refine prod_congr rfl fun c _ => ?_
      rw [if_neg (by omega), List.getD_cons_succ]
    | succ r =>
      rw [List.eraseIdx_cons_succ, List.prod_cons, ih, if_neg (by omega), List.getD_cons_zero, mul_comm]
      congr 1
      refine prod_congr rfl fun c _ => ?_
      rw [List.getD_cons_succ]
      simp

/-- the denominators of the Lagrange coefficients -/
def lagDen (n r : ℕ) : ℤ := ∏ c ∈ range (n + 1), if c = r then 1 else ((r : ℤ) - c)

/-- tap positions -/
def tapPos (K : Type*) [Field K] (o k : ℕ) : K := (((k : ℤ) - o : ℤ) : K)

theorem tapPos_inj [CharZero K] (o n : ℕ) : Set.InjOn (tapPos K o) (range (n + 1)) := by
  intro a _ b _ h
  unfold tapPos at h
  have : (a : ℤ) - o = (b : ℤ) - o := by exact_mod_cast h
  omega

theorem basis_eval [CharZero K] (n o r : ℕ) (hr : r < n + 1) (α : K) :
    Polynomial.eval α (Lagrange.basis (range (n + 1)) (tapPos K o) r)
      = (∏ c ∈ range (n + 1), if c = r then 1 else (α - tapPos K o c)) / (lagDen n r : ℤ) := by
  unfold Lagrange.basis lagDen
  rw [Polynomial.eval_prod, div_eq_mul_inv]
  push_cast
  rw [← prod_inv_distrib, ← prod_mul_distrib, ← mul_prod_erase (range (n + 1)) _ (mem_range.2 hr)]
  rw [if_pos rfl, if_pos rfl, inv_one, mul_one, one_mul]
  refine prod_congr rfl fun c hc => ?_
  rw [if_neg (ne_of_mem_erase hc), if_neg (ne_of_mem_erase hc), Lagrange.basisDivisor]
  simp only [Polynomial.eval_mul, Polynomial.eval_C, Polynomial.eval_sub, Polynomial.eval_X]
  unfold tapPos
  push_cast
  rw [mul_comm, show ((r : K) - o - (c - o)) = r - c by ring]

theorem lagrangeCoeffs_eq [CharZero K] (w : ℤ → ℤ) (n : ℕ) (hn : 0 < n) (α : K) (forward : Bool)
    (hw : ∀ r ≤ n, w (lagDen n r) = lagDen n r) :
    lagrangeCoeffs w n α forward = .ok ((List.range (n + 1)).map fun r =>
      Polynomial.eval α (Lagrange.basis (range (n + 1)) (tapPos K (zeroTap n forward)) r)) := by
  obtain ⟨o, ho⟩ : ∃ o, o = zeroTap n forward := ⟨_, rfl⟩
  unfold lagrangeCoeffs
  simp only [getIndices_eq, ← ho, List.length_map, List.length_range]
  rw [if_neg (by omega)]
  congr 1
  refine ext_getD 0 (by simp) fun r hr => ?_
  have hr' : r < n + 1 := by simpa using hr
  rw [zipWith_getD _ 0 0 0 _ _ (by simpa using hr') (by simpa using hr'), map_range_getD _ _ _ _ hr',
    map_range_getD _ _ _ _ hr', map_range_getD _ _ _ _ hr',
    map_range_getD _ _ _ _ hr', basis_eval n o r hr']
  congr 1
  · rw [offDiag_prod]
    simp only [List.length_map, List.length_range]
    refine prod_congr rfl fun c hc => ?_
    split_ifs with h
    · rfl
    · rw [getD_map_lt _ 0 1 _ (by simpa using hc), map_range_getD _ _ _ _ (mem_range.1 hc)]
      rfl
  · congr 1
    rw [offDiag_prod]
    simp only [List.length_map, List.length_range]
    rw [← hw r (by omega)]
    congr 1
    refine prod_congr rfl fun c hc => ?_
    split_ifs with h
    · rfl
    · rw [getD_map_lt _ 0 1 _ (by simpa using hc), map_range_getD _ _ _ _ (mem_range.1 hc)]
      ring

theorem lagDen_small : ∀ n ≤ 20, ∀ r ≤ n, wrap64 (lagDen n r) = lagDen n r := by
  unfold lagDen
  decide +kernel

theorem lagrange_reproduces [CharZero K] (n o : ℕ) (α : K) (f : Polynomial K) (hf : f.natDegree ≤ n) :
    ∑ r ∈ range (n + 1), Polynomial.eval α (Lagrange.basis (range (n + 1)) (tapPos K o) r)
      * f.eval (tapPos K o r) = f.eval α := by
  have h := Lagrange.eq_interpolate (s := range (n + 1)) (v := tapPos K o) (f := f) (tapPos_inj o n)
    (by
      rw [card_range]
      refine lt_of_le_of_lt Polynomial.degree_le_natDegree ?_
      exact_mod_cast Nat.lt_succ_of_le hf)
  conv_rhs => rw [h]
  rw [Lagrange.interpolate_apply, Polynomial.eval_finsetSum]
  refine sum_congr rfl fun r _ => ?_
  rw [Polynomial.eval_mul, Polynomial.eval_C, mul_comm]

/-! ### oversampling -/

section
variable [DecidableEq K]

/-- the columns of `output_mat` after the first one: `Σ_j c_j x[r+j]` in row `r` -/
def delayCol (c x : List K) (order : ℕ) : List K :=
  (List.range (x.length - order)).map fun r => ∑ j ∈ range (order + 1), c.getD j 0 * x.getD (r + j) 0

theorem firFilter_eq (c x : List K) (order : ℕ) (hc : c.length = order + 1) (hx : 0 < x.length) :
    ∃ y, firFilter c.reverse x = .ok y ∧ y.drop order = delayCol c x order := by
  have hb : c.reverse.length = order + 1 := by simpa using hc
  have e : lfilter c.reverse [1] x (List.replicate (c.reverse.length - 1) 0)
      = .ok (lfRun id c.reverse [1] (List.replicate order 0) x) := by
    unfold lfilter
    rw [hb, if_neg (by simp), if_neg (by simp), if_neg (by omega)]
    simp only [List.getD_cons_zero, map_div_one]
    rfl
  refine ⟨_, by unfold firFilter; rw [e]; rfl, ?_⟩
  unfold delayCol
  refine ext_getD 0 (by simp [lfRun_length]) fun r hr => ?_
  have hr' : r < x.length - order := by simpa [lfRun_length] using hr
  rw [drop_getD, map_range_getD _ _ _ _ hr']
  have := lfRun_diff c.reverse [1] (List.replicate order 0) x (by simp) (by simp [hc]) (by simp) (order + r) (by omega)
  simp only [List.getD_cons_zero, map_div_one, one_mul] at this
  rw [this, replicate_getD, hb]
  simp only [List.length_singleton, Ico_self, sum_empty, sub_zero, add_zero]
  rw [← sum_range_reflect]
  refine sum_congr rfl fun j hj => ?_
  rw [mem_range] at hj
  rw [reverse_getD 0 c _ (by omega), show ((order + r : ℕ) : ℤ) - ((order + 1 - 1 - j : ℕ) : ℤ) = ((r + j : ℕ) : ℤ) by omega,
    withPast_nat]
  congr 2
  omega

theorem delayColumns_eq (coeffs : K → Py (List K)) (cf : K → List K) (x : List K) (order : ℕ) (as : List K)
    (hc : ∀ a ∈ as, coeffs a = .ok (cf a) ∧ (cf a).length = order + 1) (hx : 0 < x.length) :
    delayColumns coeffs x order as = .ok (as.map fun a => delayCol (cf a) x order) := by
  induction as with
  | nil => rfl
  | cons a as ih =>
    obtain ⟨h1, h2⟩ := hc a (by simp)
    obtain ⟨y, e1, e2⟩ := firFilter_eq (cf a) x order h2 hx
    unfold delayColumns
    rw [h1]
    show ((firFilter (cf a).reverse x).bind _) = _
    rw [e1]
    show ((delayColumns coeffs x order as).bind _) = _
    rw [ih fun b hb => hc b (by simp [hb])]
    show Except.ok (y.drop order :: _) = _
    rw [e2]
    rfl

theorem trimmed_getD (x : List K) (order r : ℕ) (hr : r < x.length - order) :
    (trimmed x (order / 2) (order / 2 + order % 2)).getD r 0 = x.getD (order / 2 + r) 0 := by
  unfold trimmed
  split_ifs with h
  · rw [drop_getD]
  · rw [take_getD _ _ _ _ (by omega), drop_getD]

theorem alphas_mem (osr : ℕ) (a : K) (h : a ∈ (alphas osr : List K)) : ∃ k : ℕ, 0 < k ∧ k < osr ∧ a = (k : K) / osr := by
  unfold alphas at h
  simp only [List.mem_map, List.mem_range] at h
  obtain ⟨k, hk, rfl⟩ := h
  exact ⟨k + 1, by omega, by omega, by push_cast; rfl⟩

theorem digitalOversample_eq (coeffs : K → Py (List K)) (cf : K → List K) (x : List K) (osr order : ℕ)
    (hc : ∀ k : ℕ, 0 < k → k < osr → coeffs ((k : K) / osr) = .ok (cf ((k : K) / osr)) ∧ (cf ((k : K) / osr)).length = order + 1)
    (ho : 0 < osr) (hx : 0 < x.length) (hN : order ≤ x.length) :
    ∃ t x2 x1, digitalOversample coeffs x osr order = .ok (t, x2, x1) ∧ t.length = (x.length - order) * osr ∧
      (∀ r k : ℕ, r < x.length - order → k < osr → t.getD (r * osr + k) 0
        = if k = 0 then x.getD (order / 2 + r) 0
          else ∑ j ∈ range (order + 1), (cf ((k : K) / osr)).getD j 0 * x.getD (r + j) 0) ∧
      x2.length = t.length ∧ (∀ m : ℕ, m < t.length → x2.getD m 0 = (m : K) / osr) ∧
      x1 = (List.range (x.length - order + 1)).map (fun k : ℕ => (k : K)) := by
  have hsplit : order / 2 + (order / 2 + order % 2) = order := by omega
  have hrows : x.length - order / 2 - (order / 2 + order % 2) = x.length - order := by omega
  unfold digitalOversample
  simp only [hrows]
  rw [if_neg (by omega), if_neg (by omega), delayColumns_eq coeffs cf x order (alphas osr)
    (fun a ha => by
      obtain ⟨k, h0, h1, rfl⟩ := alphas_mem osr a ha
      exact hc k h0 h1) hx]
  have huni : ∀ row ∈ (List.range (x.length - order)).map (fun r => (trimmed x (order / 2) (order / 2 + order % 2) ::
      (alphas osr).map fun a => delayCol (cf a) x order).map (fun c => c.getD r 0)), row.length = osr := by
    intro row hrow
    rw [List.mem_map] at hrow
    obtain ⟨r, -, rfl⟩ := hrow
    simp only [List.length_map, List.length_cons, alphas, List.length_range]
    omega
  refine ⟨_, _, _, rfl, ?_, ?_, ?_, ?_, rfl⟩
  · rw [flatten_uniform_length osr _ huni]; simp
  · intro r k hr hk
    rw [flatten_getD 0 osr _ huni r k (by simpa using hr) hk, map_range_getD _ _ _ _ hr]
    cases k with
    | zero => rw [if_pos rfl, List.map_cons, List.getD_cons_zero, trimmed_getD x order r hr]
    | succ k =>
      rw [if_neg (by omega), List.map_cons, List.getD_cons_succ, List.map_map,
        getD_map_lt _ 0 0 _ (by simp [alphas]; omega)]
      simp only [Function.comp]
      unfold alphas
      rw [map_range_getD _ _ _ _ (by omega)]
      unfold delayCol
      rw [map_range_getD _ _ _ _ hr]
      push_cast
      rfl
  · simp
  · intro m hm
    rw [map_range_getD _ _ _ _ hm]

end

end Verif
