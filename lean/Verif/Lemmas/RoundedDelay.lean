import Verif.Model.RoundedDelay
import Verif.Spec.FloatProd
import Verif.Props.RoundedFilter
import Verif.Lemmas.InterpError
import Verif.Lemmas.DelayFreq

/-! Rounded products, and the sum of the absolute values of the Lagrange coefficients. -/

open Finset

namespace Verif
open Spec

theorem near_pow_nonneg {u : ℝ} (hu : 0 ≤ u) (k : ℕ) : (0 : ℝ) ≤ (1 + u) ^ k - 1 :=
  sub_nonneg.2 (one_le_pow₀ (by linarith))

theorem near_refl {u : ℝ} (hu : 0 ≤ u) (k : ℕ) (x : ℝ) : Near u k x x := by
  unfold Near
  rw [sub_self, abs_zero]
  exact mul_nonneg (near_pow_nonneg hu k) (abs_nonneg _)

theorem near_mono {u : ℝ} (hu : 0 ≤ u) {k l : ℕ} (h : k ≤ l) {a b : ℝ} (hab : Near u k a b) : Near u l a b :=
  le_trans hab (mul_le_mul_of_nonneg_right (sub_le_sub_right (pow_le_pow_right₀ (by linarith) h) 1) (abs_nonneg _))

theorem near_abs {u : ℝ} {k : ℕ} {a b : ℝ} (h : Near u k a b) : |a| ≤ (1 + u) ^ k * |b| := by
  unfold Near at h
  have := abs_sub_abs_le_abs_sub a b
  linarith

theorem near_trans {u : ℝ} (hu : 0 ≤ u) {k l : ℕ} {a b c : ℝ} (h1 : Near u k c b) (h2 : Near u l b a) : Near u (k + l) c a := by
  have h3 := near_abs h2
  unfold Near at *
  have h4 := mul_le_mul_of_nonneg_left h3 (near_pow_nonneg hu k)
  have h5 := abs_sub_le c b a
  rw [pow_add]
  nlinarith

theorem near_mul {u : ℝ} (hu : 0 ≤ u) {k l : ℕ} {a b c d : ℝ} (h1 : Near u k a b) (h2 : Near u l c d) :
    Near u (k + l) (a * c) (b * d) := by
  have h3 : Near u k (a * c) (b * c) := by
    unfold Near at *
    rw [← sub_mul, abs_mul, abs_mul, ← mul_assoc]
    exact mul_le_mul_of_nonneg_right h1 (abs_nonneg _)
  have h4 : Near u l (b * c) (b * d) := by
    unfold Near at *
    rw [← mul_sub, abs_mul, abs_mul, mul_left_comm]
    exact mul_le_mul_of_nonneg_left h2 (abs_nonneg _)
  exact near_trans hu h3 h4

theorem near_inv {u : ℝ} (hu : 0 ≤ u) (hu2 : u ≤ 1 / 2) {a b : ℝ} (h : Near u 1 a b) : Near u 2 a⁻¹ b⁻¹ := by
  unfold Near at *
  rw [pow_one, add_sub_cancel_left] at h
  rcases eq_or_ne b 0 with rfl | hb
  · rw [abs_zero, mul_zero, sub_zero, abs_nonpos_iff] at h
    rw [h]; simp
  have hb' : 0 < |b| := abs_pos.2 hb
  have ha' : (1 - u) * |b| ≤ |a| := by
    have := abs_sub_abs_le_abs_sub b a
    rw [abs_sub_comm] at this
    linarith
  have ha0 : 0 < |a| := lt_of_lt_of_le (mul_pos (by linarith) hb') ha'
  have ha : a ≠ 0 := abs_pos.1 ha0
  have e : a⁻¹ - b⁻¹ = (b - a) / (a * b) := by field_simp
  rw [e, abs_div, abs_mul, abs_inv, abs_sub_comm, div_le_iff₀ (mul_pos ha0 hb')]
  have e2 : ((1 + u) ^ 2 - 1) * |b|⁻¹ * (|a| * |b|) = (2 * u + u ^ 2) * |a| := by field_simp; ring
  rw [e2]
  have h1 : u * |b| ≤ (2 * u + u ^ 2) * ((1 - u) * |b|) := by
    have : u ≤ (2 * u + u ^ 2) * (1 - u) := by nlinarith [mul_nonneg hu hu, mul_nonneg hu (sub_nonneg.2 hu2)]
    calc u * |b| ≤ ((2 * u + u ^ 2) * (1 - u)) * |b| := mul_le_mul_of_nonneg_right this hb'.le
      _ = _ := by ring
  exact (h.trans h1).trans (mul_le_mul_of_nonneg_left ha' (by positivity))

theorem near_round {u : ℝ} {r : ℝ → ℝ} (hr : ∀ x, |r x - x| ≤ u * |x|) (x : ℝ) : Near u 1 (r x) x := by
  unfold Near
  rw [pow_one, add_sub_cancel_left]
  exact hr x

theorem roundedProd_near {r : ℝ → ℝ} {u : ℝ} (hu : 0 ≤ u) (hr : ∀ x, |r x - x| ≤ u * |x|) {l : List ℝ} {s : ℝ}
    (h : RoundedProd r l s) : Near u (l.length - 1) s l.prod := by
  induction h with
  | nil => exact near_refl hu _ _
  | single a => simpa using near_refl hu 0 a
  | mul l m s t hl hm _ _ h1 h2 =>
    rw [List.prod_append, List.length_append]
    refine near_mono hu ?_ (near_trans hu (near_round hr (s * t)) (near_mul hu h1 h2))
    have := List.length_pos_iff.2 hl
    have := List.length_pos_iff.2 hm
    omega
  | perm l m s hp _ h => rw [← hp.prod_eq, ← hp.length_eq]; exact h

theorem near_map_prod {u : ℝ} (hu : 0 ≤ u) {β : Type*} (f g : β → ℝ) (h : ∀ i, Near u 1 (f i) (g i)) (l : List β) :
    Near u l.length (l.map f).prod (l.map g).prod := by
  induction l with
  | nil => exact near_refl hu _ _
  | cons a l ih =>
    rw [List.map_cons, List.map_cons, List.prod_cons, List.prod_cons, List.length_cons, add_comm]
    exact near_mul hu (h a) ih

theorem offDiag_map {β γ : Type*} (f : β → γ) (l : List β) (k : ℕ) : offDiag (l.map f) k = (offDiag l k).map f := by
  unfold offDiag
  exact (List.eraseIdx_map ..)

/-- each Lagrange coefficient in rounded arithmetic against the exact one -/
theorem lagrangeCoeffsR_near {r : ℝ → ℝ} {u : ℝ} (hu : 0 ≤ u) (hu2 : u ≤ 1 / 2) (hr : ∀ x, |r x - x| ≤ u * |x|)
    (prodR : List ℝ → ℝ) (hp : ∀ l, RoundedProd r l (prodR l)) (w : ℤ → ℤ) (n : ℕ) (hn : 0 < n) (α : ℝ) (forward : Bool) :
    ∃ c' c, lagrangeCoeffsR r prodR w n α forward = .ok c' ∧ lagrangeCoeffs w n α forward = .ok c ∧ c'.length = n + 1 ∧
      c.length = n + 1 ∧ ∀ k, Near u (2 * n + 3) (c'.getD k 0) (c.getD k 0) := by
  have hlen : (getIndices n forward).length = n + 1 := by rw [getIndices_eq]; simp
  unfold lagrangeCoeffsR lagrangeCoeffs
  simp only [hlen]
  rw [if_neg (by omega), if_neg (by omega)]
  refine ⟨_, _, rfl, rfl, by simp, by simp, fun k => ?_⟩
  rcases Nat.lt_or_ge k (n + 1) with hk | hk
  · rw [zipWith_getD _ 0 0 0 _ _ (by simpa using hk) (by simpa using hk), zipWith_getD _ 0 0 0 _ _ (by simpa using hk) (by simpa using hk),
      map_range_getD _ _ _ _ hk, map_range_getD _ _ _ _ hk, map_range_getD _ _ _ _ hk]
    generalize w (offDiag _ k).prod = d
    rw [offDiag_map, offDiag_map]
    have hol : (offDiag (getIndices n forward) k).length = n := by
      unfold offDiag
      rw [List.length_eraseIdx_of_lt (by omega), hlen]
      omega
    generalize offDiag (getIndices n forward) k = l at hol
    have h1 := roundedProd_near hu hr (hp (l.map fun i : ℤ => r (α - (i : ℝ))))
    have h2 := near_map_prod hu (fun i : ℤ => r (α - (i : ℝ))) (fun i : ℤ => α - (i : ℝ)) (fun i => near_round hr _) l
    have h3 := near_inv hu hu2 (near_round hr (d : ℝ))
    have h4 := near_trans hu (near_round hr _) (near_mul hu (near_trans hu h1 h2) h3)
    rw [List.length_map, hol] at h4
    rw [div_eq_mul_inv, div_eq_mul_inv]
    exact near_mono hu (by omega) h4
  · rw [getD_of_le 0 _ (by simpa using hk), getD_of_le 0 _ (by simpa using hk)]
    exact near_refl hu _ _

/-! ### the sum of the absolute values of the coefficients -/

theorem max_node_prod_odd (m : ℕ) (α : ℝ) (h0 : 0 ≤ α) (h1 : α ≤ 1) :
    (∏ j ∈ range (2 * m + 2), max 1 |α - ((j : ℝ) - m)|) * 2 ^ (2 * m + 1) ≤ (m + 2) * ((2 * m + 1).factorial : ℝ) := by
  induction m with
  | zero =>
    rw [show 2 * 0 + 2 = 1 + 1 by norm_num, prod_range_succ, prod_range_one]
    push_cast
    rw [max_eq_left (by rw [abs_le]; constructor <;> linarith), max_eq_left (by rw [abs_le]; constructor <;> linarith)]
    norm_num
  | succ m ih =>
    have hm := Nat.cast_nonneg (α := ℝ) m
    rw [show 2 * (m + 1) + 2 = (2 * m + 2) + 1 + 1 by ring, prod_range_succ, prod_range_succ']
    have e : ∀ j : ℕ, max 1 |α - (((j + 1 : ℕ) : ℝ) - (m + 1 : ℕ))| = max 1 |α - ((j : ℝ) - m)| := by
      intro j; congr 2; push_cast; ring
    rw [prod_congr rfl fun j _ => e j]
    have e1 : max 1 |α - (((0 : ℕ) : ℝ) - ((m + 1 : ℕ) : ℝ))| = α + m + 1 := by
      rw [abs_of_nonneg (by push_cast; linarith), max_eq_right (by push_cast; linarith)]; push_cast; ring
    have e2 : max 1 |α - (((2 * m + 2 + 1 : ℕ) : ℝ) - ((m + 1 : ℕ) : ℝ))| = m + 2 - α := by
      rw [abs_of_nonpos (by push_cast; linarith), max_eq_right (by push_cast; linarith)]; push_cast; ring
    rw [e1, e2]
    have hf : ((2 * (m + 1) + 1).factorial : ℝ) = (2 * m + 3) * (2 * m + 2) * (2 * m + 1).factorial := by
      rw [show 2 * (m + 1) + 1 = (2 * m + 1) + 1 + 1 by ring, Nat.factorial_succ, Nat.factorial_succ]; push_cast; ring
    rw [hf, show 2 * (m + 1) + 1 = (2 * m + 1) + 2 by ring, pow_add]
    generalize ∏ j ∈ range (2 * m + 2), max 1 |α - ((j : ℝ) - m)| = P at ih
    have hfp : (0 : ℝ) ≤ (2 * m + 1).factorial := Nat.cast_nonneg _
    generalize ((2 * m + 1).factorial : ℝ) = F at ih hfp
    generalize (2 : ℝ) ^ (2 * m + 1) = T at ih
    have q1 : (α + m + 1) * (m + 2 - α) * 4 ≤ (2 * m + 3) ^ 2 := by nlinarith [sq_nonneg (α - 1 / 2)]
    have q0 : 0 ≤ (α + m + 1) * (m + 2 - α) := mul_nonneg (by linarith) (by linarith)
    calc P * (α + m + 1) * (m + 2 - α) * (T * 2 ^ 2) = (P * T) * ((α + m + 1) * (m + 2 - α) * 4) := by ring
      _ ≤ ((m + 2) * F) * ((α + m + 1) * (m + 2 - α) * 4) := mul_le_mul_of_nonneg_right ih (by linarith)
      _ ≤ ((m + 2) * F) * (2 * m + 3) ^ 2 := mul_le_mul_of_nonneg_left q1 (mul_nonneg (by linarith) hfp)
      _ = F * ((m + 2) * (2 * m + 3) ^ 2) := by ring
      _ ≤ F * (((m + 1 : ℕ) + 2) * ((2 * m + 3) * (2 * m + 2))) := by
          refine mul_le_mul_of_nonneg_left ?_ hfp
          push_cast
          nlinarith [mul_nonneg hm hm]
      _ = _ := by ring

theorem max_node_prod (n : ℕ) (hn : 0 < n) (α : ℝ) (h0 : 0 ≤ α) (h1 : α ≤ 1) :
    (∏ j ∈ range (n + 1), max 1 |α - ((j : ℝ) - (n / 2 : ℕ))|) * 2 ^ n ≤ ((n / 2 : ℕ) + 3) * (n.factorial : ℝ) := by
  rcases Nat.mod_two_eq_zero_or_one n with h | h
  · obtain ⟨m, rfl⟩ : ∃ m, n = 2 * m + 2 := ⟨n / 2 - 1, by omega⟩
    have hm := Nat.cast_nonneg (α := ℝ) m
    rw [show (2 * m + 2) / 2 = m + 1 by omega, prod_range_succ', Nat.factorial_succ (2 * m + 1)]
    have e : ∀ j : ℕ, max 1 |α - (((j + 1 : ℕ) : ℝ) - (m + 1 : ℕ))| = max 1 |α - ((j : ℝ) - m)| := by
      intro j; congr 2; push_cast; ring
    rw [prod_congr rfl fun j _ => e j]
    have e1 : max 1 |α - (((0 : ℕ) : ℝ) - ((m + 1 : ℕ) : ℝ))| = α + m + 1 := by
      rw [abs_of_nonneg (by push_cast; linarith), max_eq_right (by push_cast; linarith)]; push_cast; ring
    rw [e1]
    have ih := max_node_prod_odd m α h0 h1
    have hP : 0 ≤ ∏ j ∈ range (2 * m + 2), max 1 |α - ((j : ℝ) - m)| :=
      prod_nonneg fun _ _ => le_trans zero_le_one (le_max_left _ _)
    generalize ∏ j ∈ range (2 * m + 2), max 1 |α - ((j : ℝ) - m)| = P at ih hP
    have hfp : (0 : ℝ) ≤ (2 * m + 1).factorial := Nat.cast_nonneg _
    rw [pow_succ, Nat.cast_mul]
    generalize ((2 * m + 1).factorial : ℝ) = F at ih hfp
    generalize (2 : ℝ) ^ (2 * m + 1) = T at ih
    calc P * (α + m + 1) * (T * 2) = (P * T) * ((α + m + 1) * 2) := by ring
      _ ≤ ((m + 2) * F) * ((α + m + 1) * 2) := mul_le_mul_of_nonneg_right ih (by linarith)
      _ ≤ ((m + 2) * F) * ((m + 2) * 2) := mul_le_mul_of_nonneg_left (by linarith) (mul_nonneg (by linarith) hfp)
      _ = F * ((m + 2) * ((m + 2) * 2)) := by ring
      _ ≤ F * (((m + 1 : ℕ) + 3) * (2 * m + 1 + 1 : ℕ)) := by
          refine mul_le_mul_of_nonneg_left ?_ hfp
          push_cast
          nlinarith [mul_nonneg hm hm]
      _ = _ := by ring
  · obtain ⟨m, rfl⟩ : ∃ m, n = 2 * m + 1 := ⟨n / 2, by omega⟩
    rw [show (2 * m + 1) / 2 = m by omega]
    exact (max_node_prod_odd m α h0 h1).trans (mul_le_mul_of_nonneg_right (by linarith) (Nat.cast_nonneg _))

theorem basis_abs_sum (n : ℕ) (hn : 0 < n) (α : ℝ) (h0 : 0 ≤ α) (h1 : α ≤ 1) :
    ∑ k ∈ range (n + 1), |Polynomial.eval α (Lagrange.basis (range (n + 1)) (tapPos ℝ (n / 2)) k)| ≤ (n / 2 : ℕ) + 3 := by
  have hmax := max_node_prod n hn α h0 h1
  obtain ⟨P, hP⟩ : ∃ P, P = ∏ j ∈ range (n + 1), max 1 |α - ((j : ℝ) - (n / 2 : ℕ))| := ⟨_, rfl⟩
  rw [← hP] at hmax
  have hfac : (0 : ℝ) < n.factorial := by exact_mod_cast n.factorial_pos
  have htp : ∀ k : ℕ, tapPos ℝ (n / 2) k = (k : ℝ) - (n / 2 : ℕ) := fun k => by
    unfold tapPos; rw [Int.cast_sub, Int.cast_natCast, Int.cast_natCast]
  have key : ∀ k ∈ range (n + 1), |Polynomial.eval α (Lagrange.basis (range (n + 1)) (tapPos ℝ (n / 2)) k)|
      ≤ P / n.factorial * n.choose k := by
    intro k hk
    rw [mem_range] at hk
    obtain ⟨d, hd⟩ : ∃ d, n = k + d := ⟨n - k, by omega⟩
    rw [basis_eval n (n / 2) k hk, abs_div]
    have hden : |((lagDen n k : ℤ) : ℝ)| = (k.factorial : ℝ) * d.factorial := by
      rw [hd, lagDen_eq]; push_cast
      rw [abs_mul, abs_mul, abs_pow, abs_neg, abs_one, one_pow, one_mul, abs_of_nonneg (Nat.cast_nonneg _), abs_of_nonneg (Nat.cast_nonneg _)]
    have hch : (n.choose k : ℝ) * ((k.factorial : ℝ) * d.factorial) = n.factorial := by
      have := Nat.choose_mul_factorial_mul_factorial (show k ≤ n by omega)
      rw [show n - k = d by omega, mul_assoc] at this
      exact_mod_cast this
    have hnum : |∏ c ∈ range (n + 1), (if c = k then 1 else (α - tapPos ℝ (n / 2) c))| ≤ P := by
      rw [abs_prod, hP]
      refine prod_le_prod (fun _ _ => abs_nonneg _) fun c _ => ?_
      split_ifs
      · rw [abs_one]; exact le_max_left _ _
      · rw [htp]; exact le_max_right _ _
    have hkd : (0 : ℝ) < (k.factorial : ℝ) * d.factorial := by
      have := k.factorial_pos
      have := d.factorial_pos
      positivity
    rw [hden, div_mul_eq_mul_div, div_le_div_iff₀ hkd hfac, ← hch]
    calc _ ≤ P * ((n.choose k : ℝ) * ((k.factorial : ℝ) * d.factorial)) := mul_le_mul_of_nonneg_right hnum (by positivity)
      _ = _ := by ring
  refine (sum_le_sum key).trans ?_
  rw [← mul_sum]
  have h2 : ∑ k ∈ range (n + 1), (n.choose k : ℝ) = 2 ^ n := by exact_mod_cast Nat.sum_range_choose n
  rw [h2, div_mul_eq_mul_div, div_le_iff₀ hfac]
  exact hmax

/-! ### oversampling -/

theorem lfilterR_delay (p : ℕ) (conv : List ℝ → List ℝ → List ℝ) (hconv : IsConvolve (fl p) conv) (c x : List ℝ) (order : ℕ)
    (hc : c.length = order + 1) (hx : 0 < x.length) :
    ∃ y, lfilterR (fl p) conv c.reverse [1] x (List.replicate (c.reverse.length - 1) 0) = .ok y ∧ y.1.length = x.length ∧
      ∀ r < x.length - order, |(y.1.drop order).getD r 0 - ∑ j ∈ range (order + 1), c.getD j 0 * x.getD (r + j) 0|
        ≤ ((1 + 2 ^ (-(p : ℤ))) ^ (2 * order + 3) - 1) * ∑ j ∈ range (order + 1), |c.getD j 0| * |x.getD (r + j) 0| := by
  have hb : c.reverse.length = order + 1 := by simpa using hc
  obtain ⟨y, z, e, hl, h⟩ := C90_residual p conv hconv c.reverse (.num 1) x (by omega) (by simp [Denom.coeffs])
    (by simp [Denom.coeffs]) hx none (by simp)
  have hrest : channelRest c.reverse (.num (1 : ℝ)) = List.replicate (c.reverse.length - 1) 0 := by
    simp only [channelRest, hb]
    congr 1
  refine ⟨(y, z), ?_, hl, fun r hr => ?_⟩
  · rw [← e]; unfold awgnChannelR; rw [Option.getD_none, hrest]; rfl
  · have h := h (order + r) (by omega)
    have hm : ((channelMemory c.reverse (.num 1) none).getD (order + r) 0) = 0 := by
      unfold channelMemory
      rw [Option.getD_none, hrest, replicate_getD]
    have hmax : max c.reverse.length (Denom.num (1 : ℝ)).coeffs.length = order + 1 := by rw [hb]; simp [Denom.coeffs]
    rw [hm, hmax, hb] at h
    simp only [Denom.coeffs, List.getD_cons_zero, div_one, List.length_singleton, Ico_self, sum_empty, sub_zero, add_zero,
      abs_zero] at h
    rw [drop_getD]
    show |y.getD (order + r) 0 - _| ≤ _
    have e1 : ∀ F : ℝ → ℝ → ℝ, ∑ i ∈ range (order + 1), F (c.reverse.getD i 0) (withPast [] x (((order + r : ℕ) : ℤ) - (i : ℤ)))
        = ∑ j ∈ range (order + 1), F (c.getD j 0) (x.getD (r + j) 0) := by
      intro F
      rw [← sum_range_reflect]
      refine sum_congr rfl fun j hj => ?_
      rw [mem_range] at hj
      rw [reverse_getD 0 c _ (by omega), show ((order + r : ℕ) : ℤ) - ((order + 1 - 1 - j : ℕ) : ℤ) = ((r + j : ℕ) : ℤ) by omega,
        withPast_nat]
      congr 2
      omega
    have f1 := e1 (fun a b => a * b)
    have f2 := e1 (fun a b => |a| * |b|)
    rw [f1, f2] at h
    exact h

theorem delayColumnsR_eq (p : ℕ) (conv : List ℝ → List ℝ → List ℝ) (hconv : IsConvolve (fl p) conv) (coeffs : ℝ → Py (List ℝ))
    (cf : ℝ → List ℝ) (x : List ℝ) (order : ℕ) (hx : 0 < x.length) (as : List ℝ)
    (hc : ∀ a ∈ as, coeffs a = .ok (cf a) ∧ (cf a).length = order + 1) :
    ∃ cols, delayColumnsR (fl p) conv coeffs x order as = .ok cols ∧ cols.length = as.length ∧
      ∀ i < as.length, ∀ r < x.length - order,
        |(cols.getD i []).getD r 0 - ∑ j ∈ range (order + 1), (cf (as.getD i 0)).getD j 0 * x.getD (r + j) 0|
        ≤ ((1 + 2 ^ (-(p : ℤ))) ^ (2 * order + 3) - 1)
          * ∑ j ∈ range (order + 1), |(cf (as.getD i 0)).getD j 0| * |x.getD (r + j) 0| := by
  induction as with
  | nil => exact ⟨[], rfl, rfl, by simp⟩
  | cons a as ih =>
    obtain ⟨h1, h2⟩ := hc a (by simp)
    obtain ⟨y, e1, -, e2⟩ := lfilterR_delay p conv hconv (cf a) x order h2 hx
    obtain ⟨cols, e3, e4, e5⟩ := ih fun b hb => hc b (by simp [hb])
    refine ⟨y.1.drop order :: cols, ?_, by simp [e4], fun i hi => ?_⟩
    · unfold delayColumnsR
      rw [h1]
      show ((lfilterR (fl p) conv (cf a).reverse [1] x _).bind _) = _
      rw [e1]
      show ((delayColumnsR (fl p) conv coeffs x order as).bind _) = _
      rw [e3]
      rfl
    · cases i with
      | zero => simpa only [List.getD_cons_zero] using e2
      | succ i =>
        simp only [List.getD_cons_succ]
        exact e5 i (by simpa using hi)

theorem digitalOversampleR_eq (p : ℕ) (conv : List ℝ → List ℝ → List ℝ) (hconv : IsConvolve (fl p) conv)
    (coeffs : ℝ → Py (List ℝ)) (cf : ℝ → List ℝ) (x : List ℝ) (osr order : ℕ)
    (hc : ∀ a, coeffs a = .ok (cf a) ∧ (cf a).length = order + 1) (ho : 0 < osr) (hx : 0 < x.length) (hN : order ≤ x.length) :
    ∃ t x2 x1, digitalOversampleR (fl p) conv coeffs x osr order = .ok (t, x2, x1) ∧ t.length = (x.length - order) * osr ∧
      (∀ r < x.length - order, t.getD (r * osr) 0 = x.getD (order / 2 + r) 0) ∧
      (∀ r k : ℕ, r < x.length - order → 0 < k → k < osr →
        |t.getD (r * osr + k) 0 - ∑ j ∈ range (order + 1), (cf (fl p ((k : ℝ) / osr))).getD j 0 * x.getD (r + j) 0|
        ≤ ((1 + 2 ^ (-(p : ℤ))) ^ (2 * order + 3) - 1)
          * ∑ j ∈ range (order + 1), |(cf (fl p ((k : ℝ) / osr))).getD j 0| * |x.getD (r + j) 0|) ∧
      x2.length = t.length ∧ (∀ m < t.length, x2.getD m 0 = fl p ((m : ℝ) / osr)) ∧
      x1 = (List.range (x.length - order + 1)).map (fun k : ℕ => (k : ℝ)) := by
  have hrows : x.length - order / 2 - (order / 2 + order % 2) = x.length - order := by omega
  obtain ⟨cols, e1, e2, e3⟩ := delayColumnsR_eq p conv hconv coeffs cf x order hx (alphasR (fl p) osr) fun a _ => hc a
  have hal : (alphasR (fl p) osr).length = osr - 1 := by simp [alphasR]
  have hag : ∀ k < osr - 1, (alphasR (fl p) osr).getD k 0 = fl p (((k + 1 : ℕ) : ℝ) / osr) := by
    intro k hk
    unfold alphasR
    rw [map_range_getD _ _ _ _ hk]
    push_cast
    rfl
  unfold digitalOversampleR
  simp only [hrows]
  rw [if_neg (by omega), if_neg (by omega), e1]
  have huni : ∀ row ∈ (List.range (x.length - order)).map (fun r => (trimmed x (order / 2) (order / 2 + order % 2) ::
      cols).map (fun c => c.getD r 0)), row.length = osr := by
    intro row hrow
    rw [List.mem_map] at hrow
    obtain ⟨r, -, rfl⟩ := hrow
    simp only [List.length_map, List.length_cons, e2, hal]
    omega
  refine ⟨_, _, _, rfl, ?_, ?_, ?_, ?_, ?_, rfl⟩
  · rw [flatten_uniform_length osr _ huni]; simp
  · intro r hr
    have := flatten_getD 0 osr _ huni r 0 (by simpa using hr) ho
    rw [add_zero] at this
    rw [this, map_range_getD _ _ _ _ hr, List.map_cons, List.getD_cons_zero, trimmed_getD x order r hr]
  · intro r k hr h0 hk
    rw [flatten_getD 0 osr _ huni r k (by simpa using hr) hk, map_range_getD _ _ _ _ hr]
    obtain ⟨k, rfl⟩ : ∃ k', k = k' + 1 := ⟨k - 1, by omega⟩
    rw [List.map_cons, List.getD_cons_succ, getD_map_lt _ [] 0 _ (by omega), ← hag k (by omega)]
    exact e3 k (by omega) r hr
  · simp
  · intro m hm
    rw [map_range_getD _ _ _ _ hm]

end Verif
