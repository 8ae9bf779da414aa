import Mathlib.Algebra.Order.Chebyshev
import Verif.Lemmas.RefSeq
import Verif.Lemmas.EstimPrbs2

/-! The mean squared error of a decision feedback equalizer as a quadratic form of the tap errors, and one gradient step. -/

open Finset

namespace Verif

section
variable (x : ℤ → ℝ) (L J : ℕ)

/-- error at the slicer caused by the tap errors -/
noncomputable def errSig (E : ℕ → ℝ) (n : ℤ) : ℝ := ∑ j ∈ range J, E j * x (n - 1 - j)

/-- mean squared error -/
noncomputable def lossQ (E : ℕ → ℝ) : ℝ := (∑ n ∈ range L, errSig x J E n ^ 2) / L

/-- correlation of error and symbols over the whole record -/
noncomputable def corrB (E : ℕ → ℝ) (j : ℕ) : ℝ := (∑ n ∈ range L, errSig x J E n * x (n - 1 - j)) / L

/-- correlation of error and symbols over the samples the tap sees -/
noncomputable def corrA (E : ℕ → ℝ) (j : ℕ) : ℝ :=
  (∑ n ∈ Ico (j + 1) L, errSig x J E n * x (n - 1 - j)) / (L - (j + 1) : ℕ)

/-- squared length of the tap errors -/
noncomputable def tapNorm (E : ℕ → ℝ) : ℝ := ∑ j ∈ range J, E j ^ 2

theorem tapNorm_nonneg (E : ℕ → ℝ) : 0 ≤ tapNorm J E := sum_nonneg fun _ _ => sq_nonneg _

theorem lossQ_nonneg (E : ℕ → ℝ) : 0 ≤ lossQ x L J E := div_nonneg (sum_nonneg fun _ _ => sq_nonneg _) (Nat.cast_nonneg _)

theorem lossQ_corr (E : ℕ → ℝ) : lossQ x L J E = ∑ j ∈ range J, E j * corrB x L J E j := by
  unfold lossQ corrB
  simp only [mul_div_assoc', ← sum_div, mul_sum]
  rw [sum_comm]
  congr 1
  refine sum_congr rfl fun n _ => ?_
  rw [sq]
  conv_lhs => rw [errSig.eq_1 (n := (n : ℤ)), sum_mul]
  refine sum_congr rfl fun j _ => ?_
  rw [errSig]; ring

variable {x L J}

theorem errSig_sub (E δ : ℕ → ℝ) (n : ℤ) : errSig x J (fun j => E j - δ j) n = errSig x J E n - errSig x J δ n := by
  unfold errSig
  rw [← sum_sub_distrib]
  exact sum_congr rfl fun j _ => by ring

theorem lossQ_sub (E δ : ℕ → ℝ) : lossQ x L J (fun j => E j - δ j)
    = lossQ x L J E - 2 * ∑ j ∈ range J, δ j * corrB x L J E j + lossQ x L J δ := by
  have h : ∑ j ∈ range J, δ j * corrB x L J E j = (∑ n ∈ range L, errSig x J E n * errSig x J δ n) / L := by
    unfold corrB
    simp only [mul_div_assoc', ← sum_div, mul_sum]
    rw [sum_comm]
    congr 1
    refine sum_congr rfl fun n _ => ?_
    rw [errSig.eq_1 (E := δ), mul_sum]
    exact sum_congr rfl fun j _ => by ring
  rw [h]
  unfold lossQ
  simp only [errSig_sub]
  rw [← mul_div_assoc, ← sub_div, ← add_div, mul_sum, ← sum_sub_distrib, ← sum_add_distrib]
  congr 1
  exact sum_congr rfl fun n _ => by ring

theorem errSig_le (hx : ∀ t, |x t| ≤ 1) (E : ℕ → ℝ) (n : ℤ) : |errSig x J E n| ≤ ∑ j ∈ range J, |E j| := by
  unfold errSig
  refine (abs_sum_le_sum_abs _ _).trans (sum_le_sum fun j _ => ?_)
  rw [abs_mul]
  exact mul_le_of_le_one_right (abs_nonneg _) (hx _)

theorem sum_abs_sq (E : ℕ → ℝ) : (∑ j ∈ range J, |E j|) ^ 2 ≤ J * tapNorm J E := by
  have := sq_sum_le_card_mul_sum_sq (s := range J) (f := fun j => |E j|)
  simpa [tapNorm] using this

theorem errSig_sq (hx : ∀ t, |x t| ≤ 1) (E : ℕ → ℝ) (n : ℤ) : errSig x J E n ^ 2 ≤ J * tapNorm J E := by
  refine le_trans ?_ (sum_abs_sq E)
  rw [← sq_abs]
  exact pow_le_pow_left₀ (abs_nonneg _) (errSig_le hx E n) 2

theorem lossQ_le (hx : ∀ t, |x t| ≤ 1) (hL : 0 < L) (E : ℕ → ℝ) : lossQ x L J E ≤ J * tapNorm J E := by
  have hL' : (0 : ℝ) < L := by exact_mod_cast hL
  unfold lossQ
  rw [div_le_iff₀ hL']
  refine (sum_le_sum fun (n : ℕ) _ => errSig_sq hx E (n : ℤ)).trans ?_
  rw [sum_const, card_range, nsmul_eq_mul, mul_comm]

theorem corrB_sq (hx : ∀ t, |x t| ≤ 1) (hL : 0 < L) (E : ℕ → ℝ) (j : ℕ) : corrB x L J E j ^ 2 ≤ lossQ x L J E := by
  have hL' : (0 : ℝ) < L := by exact_mod_cast hL
  unfold corrB lossQ
  rw [div_pow, div_le_div_iff₀ (by positivity) hL']
  have h1 := sum_mul_sq_le_sq_mul_sq (range L) (fun n : ℕ => errSig x J E n) (fun n : ℕ => x ((n : ℤ) - 1 - j))
  have h2 : ∑ n ∈ range L, x ((n : ℤ) - 1 - j) ^ 2 ≤ L := by
    refine (sum_le_sum fun n _ => (sq_le_one_iff_abs_le_one _).2 (hx _)).trans ?_
    simp
  have h3 : 0 ≤ ∑ n ∈ range L, errSig x J E n ^ 2 := sum_nonneg fun _ _ => sq_nonneg _
  calc _ ≤ (∑ n ∈ range L, errSig x J E n ^ 2) * (∑ n ∈ range L, x ((n : ℤ) - 1 - j) ^ 2) * L :=
        mul_le_mul_of_nonneg_right h1 hL'.le
    _ ≤ (∑ n ∈ range L, errSig x J E n ^ 2) * L * L := by gcongr
    _ = _ := by ring

theorem corrB_norm (hx : ∀ t, |x t| ≤ 1) (hL : 0 < L) (E : ℕ → ℝ) :
    tapNorm J (corrB x L J E) ≤ J * lossQ x L J E := by
  unfold tapNorm
  refine (sum_le_sum fun j _ => corrB_sq hx hL E j).trans ?_
  rw [sum_const, card_range, nsmul_eq_mul]

/-- the samples that a tap does not see -/
theorem corrA_near (hx0 : ∀ t, 0 ≤ x t) (hx1 : ∀ t, x t ≤ 1) (E : ℕ → ℝ) (j : ℕ) (hj : j + 1 < L) :
    |corrA x L J E j - corrB x L J E j| ≤ (j + 1) / L * ∑ i ∈ range J, |E i| := by
  obtain ⟨m, rfl⟩ : ∃ m, L = j + 1 + m := ⟨L - (j + 1), by omega⟩
  have hm : 0 < m := by omega
  have hm' : (0 : ℝ) < m := by exact_mod_cast hm
  have hL' : (0 : ℝ) < (j : ℝ) + 1 + m := by positivity
  have hb : ∀ i n : ℤ, 0 ≤ x i * x n ∧ x i * x n ≤ 1 := fun i n =>
    ⟨mul_nonneg (hx0 _) (hx0 _), mul_le_one₀ (hx1 _) (hx0 _) (hx1 _)⟩
  have hA : ∀ (s : Finset ℕ), ∑ n ∈ s, errSig x J E n * x ((n : ℤ) - 1 - j)
      = ∑ i ∈ range J, E i * ∑ n ∈ s, x ((n : ℤ) - 1 - i) * x ((n : ℤ) - 1 - j) := by
    intro s
    simp only [mul_sum]
    rw [sum_comm]
    refine sum_congr rfl fun n _ => ?_
    rw [errSig, sum_mul]
    exact sum_congr rfl fun i _ => by ring
  unfold corrA corrB
  rw [hA, hA, sum_div, sum_div, ← sum_sub_distrib, mul_sum]
  refine (abs_sum_le_sum_abs _ _).trans (sum_le_sum fun i _ => ?_)
  have h1 : 0 ≤ ∑ n ∈ Ico (j + 1) (j + 1 + m), x ((n : ℤ) - 1 - i) * x ((n : ℤ) - 1 - j) :=
    sum_nonneg fun n _ => (hb _ _).1
  have h2 : ∑ n ∈ Ico (j + 1) (j + 1 + m), x ((n : ℤ) - 1 - i) * x ((n : ℤ) - 1 - j) ≤ m := by
    refine (sum_le_sum fun n _ => (hb _ _).2).trans ?_
    rw [sum_const, Nat.card_Ico, nsmul_eq_mul, Nat.add_sub_cancel_left, mul_one]
  have h3 : 0 ≤ ∑ n ∈ range (j + 1), x ((n : ℤ) - 1 - i) * x ((n : ℤ) - 1 - j) := sum_nonneg fun n _ => (hb _ _).1
  have h4 : ∑ n ∈ range (j + 1), x ((n : ℤ) - 1 - i) * x ((n : ℤ) - 1 - j) ≤ j + 1 := by
    refine (sum_le_sum fun n _ => (hb _ _).2).trans ?_
    rw [sum_const, card_range, nsmul_eq_mul, mul_one]
    push_cast; rfl
  rw [← sum_range_add_sum_Ico _ (show j + 1 ≤ j + 1 + m by omega), Nat.add_sub_cancel_left]
  generalize ∑ n ∈ Ico (j + 1) (j + 1 + m), x ((n : ℤ) - 1 - i) * x ((n : ℤ) - 1 - j) = A at h1 h2 ⊢
  generalize ∑ n ∈ range (j + 1), x ((n : ℤ) - 1 - i) * x ((n : ℤ) - 1 - j) = B at h3 h4 ⊢
  push_cast
  have e : E i * A / m - E i * (B + A) / ((j : ℝ) + 1 + m) = E i * (((j + 1) * (A / m) - B) / ((j : ℝ) + 1 + m)) := by
    field_simp; ring
  have h5 : 0 ≤ A / m := by positivity
  have h6 : A / m ≤ 1 := by rw [div_le_one hm']; exact h2
  have h7 : (0 : ℝ) ≤ (j : ℝ) + 1 := by positivity
  rw [e, abs_mul, abs_div, abs_of_pos hL', mul_comm]
  refine mul_le_mul_of_nonneg_right (div_le_div_of_nonneg_right ?_ hL'.le) (abs_nonneg _)
  rw [abs_le]
  constructor <;> nlinarith

/-- the difference of the two correlations in terms of the tap errors -/
theorem corrA_norm (hx0 : ∀ t, 0 ≤ x t) (hx1 : ∀ t, x t ≤ 1) (hJ : J < L) (E : ℕ → ℝ) :
    tapNorm J (fun j => corrA x L J E j - corrB x L J E j) ≤ (J ^ 2 / L) ^ 2 * tapNorm J E := by
  have hL' : (0 : ℝ) < L := by exact_mod_cast (by omega : 0 < L)
  have h : ∀ j ∈ range J, (corrA x L J E j - corrB x L J E j) ^ 2 ≤ (J / L) ^ 2 * (J * tapNorm J E) := by
    intro j hj
    rw [mem_range] at hj
    have hj' : ((j : ℝ) + 1) ≤ J := by exact_mod_cast hj
    have h1 := corrA_near (J := J) hx0 hx1 E j (by omega : j + 1 < L)
    have hS0 : 0 ≤ ∑ i ∈ range J, |E i| := sum_nonneg fun _ _ => abs_nonneg _
    have h2 : |corrA x L J E j - corrB x L J E j| ≤ J / L * ∑ i ∈ range J, |E i| :=
      h1.trans (mul_le_mul_of_nonneg_right (div_le_div_of_nonneg_right hj' hL'.le) hS0)
    rw [← sq_abs]
    refine (pow_le_pow_left₀ (abs_nonneg _) h2 2).trans ?_
    rw [mul_pow]
    exact mul_le_mul_of_nonneg_left (sum_abs_sq E) (sq_nonneg _)
  unfold tapNorm at h ⊢
  refine (sum_le_sum h).trans (le_of_eq ?_)
  rw [sum_const, card_range, nsmul_eq_mul]
  ring

/-! ### one gradient step -/

theorem tapNorm_sub (E δ : ℕ → ℝ) : tapNorm J (fun j => E j - δ j)
    = tapNorm J E - 2 * ∑ j ∈ range J, δ j * E j + tapNorm J δ := by
  unfold tapNorm
  rw [mul_sum, ← sum_sub_distrib, ← sum_add_distrib]
  exact sum_congr rfl fun j _ => by ring

theorem tapNorm_add_le (b p : ℕ → ℝ) : tapNorm J (fun j => b j + p j) ≤ 2 * (tapNorm J b + tapNorm J p) := by
  unfold tapNorm
  rw [← sum_add_distrib, mul_sum]
  exact sum_le_sum fun j _ => by nlinarith [sq_nonneg (b j - p j)]

theorem tapNorm_smul (c : ℝ) (b : ℕ → ℝ) : tapNorm J (fun j => c * b j) = c ^ 2 * tapNorm J b := by
  unfold tapNorm
  rw [mul_sum]
  exact sum_congr rfl fun j _ => by ring

/-- Cauchy-Schwarz with the squares -/
theorem tapInner_sq (b p : ℕ → ℝ) : (∑ j ∈ range J, b j * p j) ^ 2 ≤ tapNorm J b * tapNorm J p :=
  sum_mul_sq_le_sq_mul_sq _ _ _

/-- the tap errors after one pass of the training with learning rate 5e-3 -/
noncomputable def dfeStep (x : ℤ → ℝ) (L J : ℕ) (E : ℕ → ℝ) : ℕ → ℝ := fun j => E j - 1 / 400 * corrA x L J E j

/-- With a mean squared error of at least an eighth of the squared tap errors, at most 8 taps and a record of at least 40 times
the square of their number, one pass shortens the tap errors, and a decrease of the loss below 5e-9 means that they were short. -/
theorem dfeStep_bounds (hx0 : ∀ t, 0 ≤ x t) (hx1 : ∀ t, x t ≤ 1) (hJ8 : J ≤ 8) (hJ1 : 1 ≤ J) (hL : 40 * J ^ 2 ≤ L) (E : ℕ → ℝ)
    (hlow : tapNorm J E ≤ 8 * lossQ x L J E) :
    tapNorm J (dfeStep x L J E) ≤ (1 - 4 / 10000) * tapNorm J E ∧
      (lossQ x L J E - lossQ x L J (dfeStep x L J E) < 5 / 10 ^ 9 → tapNorm J E < 9 / 10 ^ 5) := by
  have hx : ∀ t, |x t| ≤ 1 := fun t => by rw [abs_of_nonneg (hx0 t)]; exact hx1 t
  have hJL : J < L := by nlinarith
  have hLp : 0 < L := by omega
  have hLr : (40 : ℝ) * (J : ℝ) ^ 2 ≤ L := by exact_mod_cast hL
  have hJr : (J : ℝ) ≤ 8 := by exact_mod_cast hJ8
  have hLr' : (0 : ℝ) < L := by exact_mod_cast hLp
  obtain ⟨b, hb⟩ : ∃ b, b = corrB x L J E := ⟨_, rfl⟩
  obtain ⟨q, hq⟩ : ∃ q : ℕ → ℝ, q = fun j => corrA x L J E j - corrB x L J E j := ⟨_, rfl⟩
  have hA : corrA x L J E = fun j => b j + q j := by rw [hb, hq]; ext j; ring
  have hstep : dfeStep x L J E = fun j => E j - (fun j => 1 / 400 * (b j + q j)) j := by unfold dfeStep; rw [hA]
  -- the quantities
  have hl := lossQ_corr x L J E
  rw [← hb] at hl
  have hbn := corrB_norm (J := J) hx hLp E
  rw [← hb] at hbn
  have hqn : tapNorm J q ≤ 1 / 1600 * tapNorm J E := by
    rw [hq]
    refine (corrA_norm hx0 hx1 hJL E).trans (mul_le_mul_of_nonneg_right ?_ (tapNorm_nonneg _ _))
    have h1 : (J : ℝ) ^ 2 / L ≤ 1 / 40 := by rw [div_le_div_iff₀ hLr' (by norm_num)]; linarith
    have h0 : (0 : ℝ) ≤ (J : ℝ) ^ 2 / L := by positivity
    nlinarith
  have hEq := tapInner_sq (J := J) q E
  have hEb := tapInner_sq (J := J) E b
  rw [← hl] at hEb
  have hqb := tapInner_sq (J := J) q b
  have hbq := tapNorm_add_le (J := J) b q
  have n0 := tapNorm_nonneg J E
  have n1 := tapNorm_nonneg J b
  have n2 := tapNorm_nonneg J q
  have l0 := lossQ_nonneg x L J E
  have hbl : tapNorm J b ≤ 8 * lossQ x L J E := hbn.trans (mul_le_mul_of_nonneg_right hJr l0)
  constructor
  · rw [hstep, tapNorm_sub, tapNorm_smul]
    have e1 : ∑ j ∈ range J, 1 / 400 * (b j + q j) * E j
        = 1 / 400 * (lossQ x L J E + ∑ j ∈ range J, q j * E j) := by
      rw [hl, ← sum_add_distrib, mul_sum]
      exact sum_congr rfl fun j _ => by ring
    rw [e1]
    generalize ∑ j ∈ range J, q j * E j = r at hEq
    have hr : -(1 / 40 * tapNorm J E) ≤ r := by
      refine (abs_le_of_sq_le_sq' ?_ (by positivity)).1
      nlinarith
    nlinarith
  · intro hd
    rw [hstep, lossQ_sub] at hd
    have e1 : ∑ j ∈ range J, 1 / 400 * (b j + q j) * corrB x L J E j
        = 1 / 400 * (tapNorm J b + ∑ j ∈ range J, q j * b j) := by
      rw [← hb]
      unfold tapNorm
      rw [← sum_add_distrib, mul_sum]
      exact sum_congr rfl fun j _ => by ring
    rw [e1] at hd
    have h2 := lossQ_le (J := J) hx hLp (fun j => 1 / 400 * (b j + q j))
    rw [tapNorm_smul] at h2
    have h3 : (J : ℝ) * ((1 / 400) ^ 2 * tapNorm J fun j => b j + q j) ≤ 8 * ((1 / 400) ^ 2 * tapNorm J fun j => b j + q j) :=
      mul_le_mul_of_nonneg_right hJr (mul_nonneg (by norm_num) (tapNorm_nonneg _ _))
    -- the tap errors against the correlations
    have h4 : tapNorm J E ≤ 64 * tapNorm J b := by
      by_contra hcon
      push Not at hcon
      have hE0 : 0 < tapNorm J E := by linarith
      have h5 : lossQ x L J E ^ 2 < tapNorm J E * (tapNorm J E / 64) :=
        lt_of_le_of_lt hEb (mul_lt_mul_of_pos_left (by linarith) hE0)
      have h6 : (tapNorm J E / 8) ^ 2 ≤ lossQ x L J E ^ 2 := pow_le_pow_left₀ (by positivity) (by linarith) 2
      nlinarith
    generalize ∑ j ∈ range J, q j * b j = r at hqb hd
    have hr : -(1 / 5 * tapNorm J b) ≤ r := by
      refine (abs_le_of_sq_le_sq' ?_ (by positivity)).1
      nlinarith
    nlinarith

/-! ### the mean squared error over whole periods of a PRBS -/

/-- power of a combination of delayed two-level symbols over one period -/
theorem period_power {N : ℕ} [NeZero N] (u : ZMod N → ℝ) (hu : ∀ τ, ∑ z, u z * u (z + τ) = if τ = 0 then (N : ℝ) else -1)
    (h1 : ∑ z, u z = 1) (E : ℕ → ℝ) (hJ : J ≤ N) :
    ∑ z, (∑ j ∈ range J, E j * (1 / 2 * u (z - 1 - j) + 1 / 2)) ^ 2
      = ((N : ℝ) + 1) / 4 * (tapNorm J E + (∑ j ∈ range J, E j) ^ 2) := by
  have hpair : ∀ i j : ℕ, i < J → j < J → ∑ z, (1 / 2 * u (z - 1 - i) + 1 / 2) * (1 / 2 * u (z - 1 - j) + 1 / 2)
      = ((N : ℝ) + 1) / 4 * (if i = j then 1 else 0) + ((N : ℝ) + 1) / 4 := by
    intro i j hi hj
    have e : ∀ z : ZMod N, (1 / 2 * u (z - 1 - i) + 1 / 2) * (1 / 2 * u (z - 1 - j) + 1 / 2)
        = 1 / 4 * (u (z + (-1 - i)) * u (z + (-1 - j))) + 1 / 4 * u (z + (-1 - i)) + 1 / 4 * u (z + (-1 - j)) + 1 / 4 := by
      intro z
      rw [show z + (-1 - (i : ZMod N)) = z - 1 - i by ring, show z + (-1 - (j : ZMod N)) = z - 1 - j by ring]
      ring
    rw [sum_congr rfl fun z _ => e z]
    simp only [sum_add_distrib, ← mul_sum]
    rw [corr_shift u hu, sum_shift u, sum_shift u, h1, sum_const, card_univ, ZMod.card, nsmul_eq_mul]
    have c : (-1 - (i : ZMod N) = -1 - j) ↔ i = j := by
      constructor
      · intro h
        have h' : (i : ZMod N) = j := by linear_combination -h
        rw [ZMod.natCast_eq_natCast_iff'] at h'
        rwa [Nat.mod_eq_of_lt (by omega), Nat.mod_eq_of_lt (by omega)] at h'
      · rintro rfl; rfl
    simp only [c]
    split_ifs <;> ring
  have e : ∀ z : ZMod N, (∑ j ∈ range J, E j * (1 / 2 * u (z - 1 - j) + 1 / 2)) ^ 2
      = ∑ i ∈ range J, ∑ j ∈ range J, E i * E j * ((1 / 2 * u (z - 1 - i) + 1 / 2) * (1 / 2 * u (z - 1 - j) + 1 / 2)) := by
    intro z
    rw [sq, sum_mul_sum]
    exact sum_congr rfl fun i _ => sum_congr rfl fun j _ => by ring
  rw [sum_congr rfl fun z _ => e z, sum_comm]
  have e2 : ∀ i ∈ range J, ∑ z, ∑ j ∈ range J, E i * E j * ((1 / 2 * u (z - 1 - i) + 1 / 2) * (1 / 2 * u (z - 1 - j) + 1 / 2))
      = ((N : ℝ) + 1) / 4 * E i ^ 2 + ((N : ℝ) + 1) / 4 * (E i * ∑ j ∈ range J, E j) := by
    intro i hi
    rw [sum_comm]
    have e3 : ∀ j ∈ range J, ∑ z, E i * E j * ((1 / 2 * u (z - 1 - i) + 1 / 2) * (1 / 2 * u (z - 1 - j) + 1 / 2))
        = ((N : ℝ) + 1) / 4 * E i * (if i = j then E j else 0) + ((N : ℝ) + 1) / 4 * E i * E j := by
      intro j hj
      rw [← mul_sum, hpair i j (mem_range.1 hi) (mem_range.1 hj)]
      split_ifs <;> ring
    rw [sum_congr rfl e3, sum_add_distrib, ← mul_sum, ← mul_sum, sum_ite_eq, if_pos hi]
    ring
  rw [sum_congr rfl e2, sum_add_distrib, ← mul_sum, ← mul_sum, ← sum_mul, tapNorm]
  ring

/-- a record of at least one period carries an eighth of the squared tap errors -/
theorem lossQ_period {N : ℕ} [NeZero N] (u : ZMod N → ℝ) (hu : ∀ τ, ∑ z, u z * u (z + τ) = if τ = 0 then (N : ℝ) else -1)
    (h1 : ∑ z, u z = 1) (E : ℕ → ℝ) (hJ : J ≤ N) (φ : ZMod N) (hx : ∀ t : ℤ, x t = 1 / 2 * u ((t : ZMod N) + φ) + 1 / 2)
    (hL : N ≤ L) : tapNorm J E ≤ 8 * lossQ x L J E := by
  have hN : 0 < N := Nat.pos_of_ne_zero (NeZero.ne N)
  have hN' : (0 : ℝ) < N := by exact_mod_cast hN
  have hL' : (0 : ℝ) < L := by exact_mod_cast (by omega : 0 < L)
  obtain ⟨q, hq⟩ : ∃ q, q = L / N := ⟨_, rfl⟩
  have hq1 : 1 ≤ q := by rw [hq]; exact (Nat.one_le_div_iff hN).2 hL
  have hqL : q * N ≤ L := by rw [hq]; exact Nat.div_mul_le_self L N
  have hLq : L ≤ 2 * (q * N) := by
    have := Nat.lt_div_mul_add hN (a := L)
    rw [← hq] at this
    nlinarith
  have hsum : q * (((N : ℝ) + 1) / 4 * (tapNorm J E + (∑ j ∈ range J, E j) ^ 2)) ≤ ∑ n ∈ range L, errSig x J E n ^ 2 := by
    rw [← period_power u hu h1 E hJ, ← sum_shift _ φ,
      ← sum_range_zmod (fun z : ZMod N => (∑ j ∈ range J, E j * (1 / 2 * u (z + φ - 1 - j) + 1 / 2)) ^ 2) q]
    refine le_trans (le_of_eq (sum_congr rfl fun n _ => ?_)) (sum_le_sum_of_subset_of_nonneg
      (range_mono hqL) fun n _ _ => sq_nonneg (errSig x J E n))
    rw [errSig]
    congr 1
    refine sum_congr rfl fun j _ => ?_
    rw [hx]
    push_cast
    rw [show (n : ZMod N) - 1 - j + φ = n + φ - 1 - j by ring]
  have n0 := tapNorm_nonneg J E
  have s0 := sq_nonneg (∑ j ∈ range J, E j)
  have hLq' : (L : ℝ) ≤ 2 * (q * N) := by exact_mod_cast hLq
  have hq0 : (0 : ℝ) ≤ q := Nat.cast_nonneg q
  unfold lossQ
  rw [← mul_div_assoc, le_div_iff₀ hL']
  have h3 : (q : ℝ) * (((N : ℝ) + 1) / 4 * tapNorm J E) ≤ q * (((N : ℝ) + 1) / 4 * (tapNorm J E + (∑ j ∈ range J, E j) ^ 2)) := by
    refine mul_le_mul_of_nonneg_left (mul_le_mul_of_nonneg_left (by linarith) (by positivity)) hq0
  have h4 : tapNorm J E * L ≤ tapNorm J E * (2 * (q * N)) := mul_le_mul_of_nonneg_left hLq' n0
  have h5 : 0 ≤ (q : ℝ) * tapNorm J E := mul_nonneg hq0 n0
  nlinarith

end
end Verif
