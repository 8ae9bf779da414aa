import Mathlib.Analysis.Calculus.LocalExtr.Rolle
import Mathlib.Analysis.Calculus.IteratedDeriv.Lemmas
import Mathlib.Analysis.Calculus.ContDiff.Deriv
import Mathlib.Analysis.Calculus.ContDiff.Polynomial
import Mathlib.Analysis.SpecialFunctions.Trigonometric.Basic
import Mathlib.Analysis.Calculus.Deriv.Polynomial
import Mathlib.Analysis.SpecialFunctions.Trigonometric.Deriv
import Mathlib.LinearAlgebra.Lagrange
import Mathlib.Data.Finset.Sort

/-! The error of polynomial interpolation of a smooth function. -/

open Finset

namespace Verif

/-- Rolle's theorem, iterated: `N + 1` zeros of a function leave a zero of its `N`-th derivative. -/
theorem rolle_iterated (N : ℕ) : ∀ (g : ℝ → ℝ) (z : ℕ → ℝ), ContDiff ℝ N g → (∀ i < N, z i < z (i + 1)) →
    (∀ i ≤ N, g (z i) = 0) → ∃ ξ, iteratedDeriv N g ξ = 0 := by
  induction N with
  | zero => intro g z _ _ h; exact ⟨z 0, by rw [iteratedDeriv_zero]; exact h 0 le_rfl⟩
  | succ N ih =>
    intro g z hg hz h0
    have hg' : ContDiff ℝ ((N : WithTop ℕ∞) + 1) g := by exact_mod_cast hg
    obtain ⟨hd, -, hc⟩ := contDiff_succ_iff_deriv.1 hg'
    have hex : ∀ i : ℕ, ∃ y, i < N + 1 → (z i < y ∧ y < z (i + 1)) ∧ deriv g y = 0 := by
      intro i
      by_cases hi : i < N + 1
      · obtain ⟨y, hy, hy0⟩ := exists_deriv_eq_zero (f := g) (hz i hi) hd.continuous.continuousOn
          (by rw [h0 i (by omega), h0 (i + 1) (by omega)])
        exact ⟨y, fun _ => ⟨⟨hy.1, hy.2⟩, hy0⟩⟩
      · exact ⟨0, fun h => absurd h hi⟩
    choose y hy using hex
    obtain ⟨ξ, hξ⟩ := ih (deriv g) y hc
      (fun i hi => lt_trans (hy i (by omega)).1.2 (hy (i + 1) (by omega)).1.1)
      (fun i hi => (hy i (by omega)).2)
    exact ⟨ξ, by rw [iteratedDeriv_succ']; exact hξ⟩

/-- The same for a finite set of zeros. -/
theorem rolle_finset (N : ℕ) (g : ℝ → ℝ) (hg : ContDiff ℝ N g) (S : Finset ℝ) (hS : #S = N + 1) (h0 : ∀ t ∈ S, g t = 0) :
    ∃ ξ, iteratedDeriv N g ξ = 0 := by
  refine rolle_iterated N g (fun i => if h : i < N + 1 then S.orderEmbOfFin hS ⟨i, h⟩ else 0) hg ?_ ?_
  · intro i hi
    simp only [dif_pos (show i < N + 1 by omega), dif_pos (show i + 1 < N + 1 by omega)]
    exact (S.orderEmbOfFin hS).strictMono (by simp [Fin.lt_def])
  · intro i hi
    simp only [dif_pos (show i < N + 1 by omega)]
    exact h0 _ (S.orderEmbOfFin_mem hS _)

theorem iteratedDeriv_poly (q : Polynomial ℝ) (k : ℕ) :
    iteratedDeriv k (fun t => q.eval t) = fun t => ((Polynomial.derivative^[k]) q).eval t := by
  induction k generalizing q with
  | zero => simp [iteratedDeriv_zero]
  | succ k ih =>
    rw [iteratedDeriv_succ', show deriv (fun t => q.eval t) = fun t => q.derivative.eval t from funext fun t => q.deriv, ih,
      Function.iterate_succ_apply]

theorem iteratedDeriv_poly_top (q : Polynomial ℝ) (n : ℕ) (hq : q.natDegree ≤ n) (t : ℝ) :
    iteratedDeriv n (fun t => q.eval t) t = n.factorial * q.coeff n := by
  rw [iteratedDeriv_poly]
  have hd : ((Polynomial.derivative^[n]) q).natDegree ≤ 0 := le_trans (Polynomial.natDegree_iterate_derivative _ _) (by omega)
  rw [Polynomial.eq_C_of_natDegree_le_zero hd]
  simp only [Polynomial.eval_C]
  rw [Polynomial.coeff_iterate_derivative, zero_add, Nat.descFactorial_self, nsmul_eq_mul]

/-- The error of the interpolating polynomial. -/
theorem interp_error (f : ℝ → ℝ) (n : ℕ) (hf : ContDiff ℝ (n + 1 : ℕ) f) (M : ℝ) (hM : ∀ t, |iteratedDeriv (n + 1) f t| ≤ M)
    (v : ℕ → ℝ) (hv : Function.Injective v) (x : ℝ) :
    ∃ p : Polynomial ℝ, p.natDegree ≤ n ∧ (∀ j ≤ n, p.eval (v j) = f (v j)) ∧
      |p.eval x - f x| ≤ M / (n + 1).factorial * ∏ j ∈ range (n + 1), |x - v j| := by
  have hvs : Set.InjOn v (range (n + 1) : Finset ℕ) := hv.injOn
  obtain ⟨p, hp⟩ : ∃ p, p = Lagrange.interpolate (range (n + 1)) v (fun j => f (v j)) := ⟨_, rfl⟩
  have hpd : p.natDegree ≤ n := by
    rw [hp]
    have := Lagrange.degree_interpolate_lt (fun j => f (v j)) hvs
    rw [card_range] at this
    by_cases h0 : Lagrange.interpolate (range (n + 1)) v (fun j => f (v j)) = 0
    · rw [h0, Polynomial.natDegree_zero]; exact Nat.zero_le _
    · exact Nat.lt_succ_iff.1 ((Polynomial.natDegree_lt_iff_degree_lt h0).2 this)
  have hpe : ∀ j ≤ n, p.eval (v j) = f (v j) := fun j hj => by
    rw [hp]; exact Lagrange.eval_interpolate_at_node _ hvs (mem_range.2 (by omega))
  have hM0 : 0 ≤ M := le_trans (abs_nonneg _) (hM 0)
  refine ⟨p, hpd, hpe, ?_⟩
  by_cases hx : ∃ j ≤ n, x = v j
  · obtain ⟨j, hj, rfl⟩ := hx
    rw [hpe j hj, sub_self, abs_zero]
    exact mul_nonneg (div_nonneg hM0 (Nat.cast_nonneg _)) (prod_nonneg fun _ _ => abs_nonneg _)
  push Not at hx
  obtain ⟨w, hw⟩ : ∃ w : Polynomial ℝ, w = Lagrange.nodal (range (n + 1)) v := ⟨_, rfl⟩
  have hwx : w.eval x = ∏ j ∈ range (n + 1), (x - v j) := by rw [hw, Lagrange.eval_nodal]
  have hwx0 : w.eval x ≠ 0 := by
    rw [hwx]
    exact prod_ne_zero_iff.2 fun j hj => sub_ne_zero.2 (hx j (by have := mem_range.1 hj; omega))
  have hwd : w.natDegree = n + 1 := by rw [hw, Lagrange.natDegree_nodal, card_range]
  have hwm : w.coeff (n + 1) = 1 := by rw [← hwd]; rw [hw]; exact Lagrange.nodal_monic
  obtain ⟨k, hk⟩ : ∃ k, k = (f x - p.eval x) / w.eval x := ⟨_, rfl⟩
  obtain ⟨q, hq⟩ : ∃ q : Polynomial ℝ, q = p + Polynomial.C k * w := ⟨_, rfl⟩
  have hqd : q.natDegree ≤ n + 1 := by
    rw [hq]
    refine le_trans (Polynomial.natDegree_add_le _ _) (max_le (by omega) ?_)
    exact le_trans (Polynomial.natDegree_C_mul_le _ _) hwd.le
  have hqc : q.coeff (n + 1) = k := by
    rw [hq, Polynomial.coeff_add, Polynomial.coeff_C_mul, hwm, mul_one,
      Polynomial.coeff_eq_zero_of_natDegree_lt (by omega), zero_add]
  have hqs : ContDiff ℝ (n + 1 : ℕ) (fun t => q.eval t) := q.contDiff_aeval (n + 1 : ℕ)
  have hxS : x ∉ (range (n + 1)).image v := by
    intro h
    obtain ⟨j, hj, e⟩ := mem_image.1 h
    exact hx j (by have := mem_range.1 hj; omega) e.symm
  obtain ⟨ξ, hξ⟩ := rolle_finset (n + 1) (fun t => f t - q.eval t) (hf.sub hqs) (insert x ((range (n + 1)).image v))
    (by rw [card_insert_of_notMem hxS, card_image_of_injective _ hv, card_range]) (by
      intro t ht
      rcases mem_insert.1 ht with rfl | h
      · rw [hq, Polynomial.eval_add, Polynomial.eval_mul, Polynomial.eval_C, hk, div_mul_cancel₀ _ hwx0]; ring
      · obtain ⟨j, hj, rfl⟩ := mem_image.1 h
        rw [hq, Polynomial.eval_add, Polynomial.eval_mul, hpe j (by have := mem_range.1 hj; omega), hw,
          Lagrange.eval_nodal_at_node hj, mul_zero, add_zero, sub_self])
  have hsub : iteratedDeriv (n + 1) (fun t => f t - q.eval t) ξ = iteratedDeriv (n + 1) f ξ - iteratedDeriv (n + 1) (fun t => q.eval t) ξ :=
    iteratedDeriv_sub hf.contDiffAt hqs.contDiffAt
  rw [hsub, iteratedDeriv_poly_top q (n + 1) hqd, hqc, sub_eq_zero] at hξ
  have hfac : (0 : ℝ) < (n + 1).factorial := by exact_mod_cast Nat.factorial_pos _
  have hk' : |k| ≤ M / (n + 1).factorial := by
    rw [le_div_iff₀ hfac, mul_comm, ← abs_of_pos hfac, ← abs_mul, ← hξ]
    exact hM ξ
  have he : p.eval x - f x = -(k * w.eval x) := by rw [hk, div_mul_cancel₀ _ hwx0]; ring
  rw [he, abs_neg, abs_mul, hwx, abs_prod]
  exact mul_le_mul_of_nonneg_right hk' (prod_nonneg fun _ _ => abs_nonneg _)

/-- The derivatives of a sinusoid. -/
theorem iteratedDeriv_sinusoid (A ω φ : ℝ) (k : ℕ) :
    iteratedDeriv k (fun t => A * Real.cos (ω * t + φ)) = fun t => A * ω ^ k * Real.cos (ω * t + φ + k * (Real.pi / 2)) := by
  induction k with
  | zero => simp [iteratedDeriv_zero]
  | succ k ih =>
    rw [iteratedDeriv_succ, ih]
    funext t
    have h1 : HasDerivAt (fun t : ℝ => ω * t + φ + k * (Real.pi / 2)) ω t := by
      simpa using (((hasDerivAt_id t).const_mul ω).add_const φ).add_const (k * (Real.pi / 2))
    rw [(h1.cos.const_mul (A * ω ^ k)).deriv]
    push_cast
    rw [show ω * t + φ + (k + 1) * (Real.pi / 2) = ω * t + φ + k * (Real.pi / 2) + Real.pi / 2 by ring, Real.cos_add_pi_div_two]
    ring

theorem iteratedDeriv_sinusoid_le (A ω φ : ℝ) (k : ℕ) (t : ℝ) :
    |iteratedDeriv k (fun t => A * Real.cos (ω * t + φ)) t| ≤ |A| * |ω| ^ k := by
  rw [iteratedDeriv_sinusoid, abs_mul, abs_mul, abs_pow]
  exact mul_le_of_le_one_right (by positivity) (Real.abs_cos_le_one _)

/-- The product of the distances for consecutive integer nodes around the point: an odd order. -/
theorem node_prod_odd (m : ℕ) (α : ℝ) (h0 : 0 ≤ α) (h1 : α ≤ 1) :
    ∏ j ∈ range (2 * m + 2), |α - ((j : ℝ) - m)| ≤ ((2 * m + 2).factorial : ℝ) / 4 ^ (m + 1) := by
  have key : ∀ m : ℕ, ∏ j ∈ range (2 * m + 2), |α - ((j : ℝ) - m)| = ∏ i ∈ range (m + 1), ((α + i) * (i + 1 - α)) := by
    intro m
    induction m with
    | zero =>
      rw [show 2 * 0 + 2 = 1 + 1 by norm_num, prod_range_succ, prod_range_one, zero_add, prod_range_one]
      push_cast
      rw [sub_zero, sub_zero, sub_zero, abs_of_nonneg h0, abs_of_nonpos (by linarith)]; ring
    | succ m ih =>
      rw [prod_range_succ _ (m + 1), ← ih, show 2 * (m + 1) + 2 = (2 * m + 2) + 1 + 1 by ring, prod_range_succ, prod_range_succ']
      have e : ∀ j : ℕ, |α - (((j + 1 : ℕ) : ℝ) - (m + 1 : ℕ))| = |α - ((j : ℝ) - m)| := by
        intro j; congr 1; push_cast; ring
      rw [prod_congr rfl fun j _ => e j]
      have e1 : |α - (((0 : ℕ) : ℝ) - ((m + 1 : ℕ) : ℝ))| = α + (m + 1 : ℕ) := by
        rw [abs_of_nonneg] <;> push_cast <;> [ring; (have := Nat.cast_nonneg (α := ℝ) m; linarith)]
      have e2 : |α - (((2 * m + 2 + 1 : ℕ) : ℝ) - ((m + 1 : ℕ) : ℝ))| = (m + 1 : ℕ) + 1 - α := by
        have := Nat.cast_nonneg (α := ℝ) m
        rw [abs_of_nonpos] <;> push_cast <;> [ring; linarith]
      rw [e1, e2]; ring
  rw [key]
  have hfac : ∀ m : ℕ, ∏ i ∈ range (m + 1), ((i : ℝ) + 1 / 2) ^ 2 ≤ ((2 * m + 2).factorial : ℝ) / 4 ^ (m + 1) := by
    intro m
    induction m with
    | zero => norm_num [Nat.factorial]
    | succ m ih =>
      rw [prod_range_succ]
      have hf : ((2 * (m + 1) + 2).factorial : ℝ) = (2 * m + 4) * (2 * m + 3) * (2 * m + 2).factorial := by
        rw [show 2 * (m + 1) + 2 = (2 * m + 2) + 1 + 1 by ring, Nat.factorial_succ, Nat.factorial_succ]; push_cast; ring
      rw [hf, pow_succ _ (m + 1)]
      have hm := Nat.cast_nonneg (α := ℝ) m
      calc (∏ i ∈ range (m + 1), ((i : ℝ) + 1 / 2) ^ 2) * (((m + 1 : ℕ) : ℝ) + 1 / 2) ^ 2
          ≤ (((2 * m + 2).factorial : ℝ) / 4 ^ (m + 1)) * (((m + 1 : ℕ) : ℝ) + 1 / 2) ^ 2 :=
            mul_le_mul_of_nonneg_right ih (by positivity)
        _ ≤ (((2 * m + 2).factorial : ℝ) / 4 ^ (m + 1)) * ((2 * m + 4) * (2 * m + 3) / 4) := by
            apply mul_le_mul_of_nonneg_left _ (by positivity)
            push_cast; nlinarith
        _ = _ := by field_simp
  refine le_trans (prod_le_prod (fun i _ => ?_) fun i _ => ?_) (hfac m)
  · have := Nat.cast_nonneg (α := ℝ) i
    exact mul_nonneg (by linarith) (by linarith)
  · nlinarith [sq_nonneg (α - 1 / 2)]

/-- The same for an even order. -/
theorem node_prod_even (m : ℕ) (α : ℝ) (h0 : 0 ≤ α) (h1 : α ≤ 1) :
    ∏ j ∈ range (2 * m + 3), |α - ((j : ℝ) - (m + 1 : ℕ))| ≤ ((2 * m + 3).factorial : ℝ) / 4 ^ (m + 1) := by
  have hm := Nat.cast_nonneg (α := ℝ) m
  rw [show 2 * m + 3 = (2 * m + 2) + 1 by ring, prod_range_succ', Nat.factorial_succ]
  have e : ∀ j : ℕ, |α - (((j + 1 : ℕ) : ℝ) - (m + 1 : ℕ))| = |α - ((j : ℝ) - m)| := by
    intro j; congr 1; push_cast; ring
  rw [prod_congr rfl fun j _ => e j]
  have e1 : |α - (((0 : ℕ) : ℝ) - ((m + 1 : ℕ) : ℝ))| ≤ 2 * m + 3 := by
    rw [abs_of_nonneg] <;> push_cast <;> linarith
  calc _ ≤ ((2 * m + 2).factorial : ℝ) / 4 ^ (m + 1) * (2 * m + 3) :=
        mul_le_mul (node_prod_odd m α h0 h1) e1 (abs_nonneg _) (by positivity)
    _ = _ := by push_cast; ring

/-- Both parities: `n + 1` consecutive integer nodes, the point in the unit interval behind node `n / 2`. -/
theorem node_prod (n : ℕ) (hn : 0 < n) (α : ℝ) (h0 : 0 ≤ α) (h1 : α ≤ 1) :
    ∏ j ∈ range (n + 1), |α - ((j : ℝ) - (n / 2 : ℕ))| ≤ ((n + 1).factorial : ℝ) / 2 ^ (n + 1) * (if n % 2 = 1 then 1 else 2) := by
  have e4 : ∀ k : ℕ, (4 : ℝ) ^ k = 2 ^ (2 * k) := fun k => by rw [pow_mul]; norm_num
  split_ifs with h
  · obtain ⟨m, rfl⟩ : ∃ m, n = 2 * m + 1 := ⟨n / 2, by omega⟩
    have := node_prod_odd m α h0 h1
    rw [e4] at this
    rw [show (2 * m + 1) / 2 = m by omega, mul_one]
    exact this
  · obtain ⟨m, rfl⟩ : ∃ m, n = 2 * m + 2 := ⟨n / 2 - 1, by omega⟩
    have := node_prod_even m α h0 h1
    rw [e4] at this
    rw [show (2 * m + 2) / 2 = m + 1 by omega]
    refine this.trans (le_of_eq ?_)
    rw [show 2 * m + 2 + 1 = 2 * m + 3 by ring, show 2 * (m + 1) = 2 * m + 2 by ring, show 2 * m + 3 = (2 * m + 2) + 1 by ring]
    field_simp
    ring

end Verif
