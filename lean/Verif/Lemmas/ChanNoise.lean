import Verif.Lemmas.LeastSq
import Verif.Lemmas.EstimPrbs2

/-! Least squares for columns with a two-valued correlation, and the noise of the average over periods. -/

open Finset Matrix

namespace Verif
open Spec

/-- weight of equation `t` in the least squares estimate of coefficient `k` for columns of correlation `N` and -1 -/
noncomputable def lsWeight {N W : ℕ} (X : Matrix (Fin N) (Fin W) ℝ) (k : Fin W) (t : Fin N) : ℝ :=
  (X t k + (∑ j, X t j) / ((N : ℝ) + 1 - W)) / ((N : ℝ) + 1)

section Two
variable {N W : ℕ} (X : Matrix (Fin N) (Fin W) ℝ) (hG : ∀ j k, ∑ t, X t j * X t k = if j = k then (N : ℝ) else -1) (hW : W ≤ N)
include hG hW

omit hW in
theorem two_quad (d : Fin W → ℝ) : ∑ t, (∑ k, X t k * d k) ^ 2 = ((N : ℝ) + 1) * ∑ k, d k ^ 2 - (∑ k, d k) ^ 2 := by
  have h1 : ∀ t, (∑ k, X t k * d k) ^ 2 = ∑ j, ∑ k, d j * d k * (X t j * X t k) := by
    intro t
    rw [sq, sum_mul_sum]
    exact sum_congr rfl (fun r _ => sum_congr rfl (fun s _ => by ring))
  have h2 : ∀ j k, ∑ t, d j * d k * (X t j * X t k) = ((N : ℝ) + 1) * (if j = k then d j * d k else 0) - d j * d k := by
    intro j k
    rw [← mul_sum, hG]
    split_ifs <;> ring
  rw [sum_congr rfl (fun z _ => h1 z), sum_comm, sum_congr rfl (fun r _ => sum_comm),
    sum_congr rfl (fun r _ => sum_congr rfl (fun s _ => h2 r s))]
  simp only [sum_sub_distrib, ← mul_sum, sum_ite_eq, mem_univ, if_true]
  rw [sq (∑ r, d r), sum_mul_sum]
  congr 1
  · congr 1
    exact sum_congr rfl (fun r _ => by ring)
  · exact sum_congr rfl (fun r _ => by rw [mul_sum])

theorem two_unique (b : Fin N → ℝ) : IsUniqueMinimiser (ridgeCost X b 0) (fun k => ∑ t, lsWeight X k t * b t) := by
  have hw : (0 : ℝ) < (N : ℝ) + 1 - W := by
    have : (W : ℝ) ≤ N := by exact_mod_cast hW
    linarith
  have hN : (0 : ℝ) < (N : ℝ) + 1 := by positivity
  obtain ⟨a, ha⟩ : ∃ a : Fin W → ℝ, ∀ k, a k = ∑ t, X t k * b t := ⟨_, fun _ => rfl⟩
  have hu : ∀ k, ∑ t, lsWeight X k t * b t = (a k + (∑ j, a j) / ((N : ℝ) + 1 - W)) / ((N : ℝ) + 1) := by
    intro k
    have e : ∑ j, a j = ∑ t, (∑ j, X t j) * b t := by
      simp only [ha, sum_mul]
      rw [sum_comm]
    rw [e, ha, sum_div, ← sum_add_distrib, sum_div]
    refine sum_congr rfl fun t _ => ?_
    rw [lsWeight]
    ring
  refine unique_of_normal X b 0 _ (fun j => ?_) (fun d hd => ?_)
  · rw [zero_mul, add_zero, mulVec_sub, Pi.sub_apply]
    have e1 : (Xᵀ *ᵥ b) j = a j := by rw [ha]; rfl
    have e2 : (Xᵀ *ᵥ (X *ᵥ fun k => ∑ t, lsWeight X k t * b t)) j
        = ∑ k, (∑ t, X t j * X t k) * ((a k + (∑ j, a j) / ((N : ℝ) + 1 - W)) / ((N : ℝ) + 1)) := by
      rw [mulVec_sum]
      simp only [mulVec_sum, hu, mul_sum, sum_mul, transpose_apply]
      rw [sum_comm]
      exact sum_congr rfl fun k _ => sum_congr rfl fun t _ => by ring
    rw [e1, e2]
    simp only [hG]
    have e3 : ∀ k, (if j = k then (N : ℝ) else -1) * ((a k + (∑ j, a j) / ((N : ℝ) + 1 - W)) / ((N : ℝ) + 1))
        = (if j = k then (a k + (∑ j, a j) / ((N : ℝ) + 1 - W)) else 0) - (a k + (∑ j, a j) / ((N : ℝ) + 1 - W)) / ((N : ℝ) + 1) := by
      intro k
      split_ifs
      · field_simp; ring
      · ring
    simp only [e3, sum_sub_distrib, sum_ite_eq, mem_univ, if_true]
    rw [← sum_div, sum_add_distrib, sum_const, card_univ, Fintype.card_fin, nsmul_eq_mul]
    field_simp
    ring
  · rw [zero_mul, add_zero]
    simp only [mulVec_sum]
    rw [two_quad X hG]
    have h1 := sq_sum_le_card_mul_sum_sq (s := (univ : Finset (Fin W))) (f := d)
    rw [card_univ, Fintype.card_fin] at h1
    have h2 := mul_pos hw (sum_sq_pos d hd)
    nlinarith

theorem two_recover (h : Fin W → ℝ) (k : Fin W) : ∑ t, lsWeight X k t * ∑ j, X t j * h j = h k := by
  have hu := two_unique X hG hW (fun t => ∑ j, X t j * h j)
  by_contra hne
  have := hu h (fun e => hne (congrFun e k).symm)
  have h0 : ridgeCost X (fun t => ∑ j, X t j * h j) 0 h = 0 := by simp [ridgeCost]
  rw [h0] at this
  have h1 : 0 ≤ ridgeCost X (fun t => ∑ j, X t j * h j) 0 (fun k => ∑ t, lsWeight X k t * ∑ j, X t j * h j) := by
    unfold ridgeCost
    rw [zero_mul, add_zero]
    exact sum_nonneg fun _ _ => sq_nonneg _
  linarith

theorem two_weight (k : Fin W) : ∑ t, lsWeight X k t ^ 2 = ((N : ℝ) + 2 - W) / (((N : ℝ) + 1) * ((N : ℝ) + 1 - W)) := by
  have hw : (0 : ℝ) < (N : ℝ) + 1 - W := by
    have : (W : ℝ) ≤ N := by exact_mod_cast hW
    linarith
  have hN : (0 : ℝ) < (N : ℝ) + 1 := by positivity
  have e1 : ∑ t, X t k ^ 2 = N := by
    have := hG k k
    rw [if_pos rfl] at this
    rw [← this]
    exact sum_congr rfl fun t _ => by ring
  have e2 : ∑ t, X t k * ∑ j, X t j = (N : ℝ) + 1 - W := by
    simp only [mul_sum]
    rw [sum_comm]
    simp only [hG]
    have : ∀ j, (if k = j then (N : ℝ) else -1) = (if k = j then (N : ℝ) + 1 else 0) - 1 := by
      intro j; split_ifs <;> ring
    simp only [this, sum_sub_distrib, sum_ite_eq, mem_univ, if_true]
    simp
  have e3 : ∑ t, (∑ j, X t j) ^ 2 = W * ((N : ℝ) + 1 - W) := by
    have := two_quad X hG (fun _ => 1)
    simp only [mul_one, one_pow, sum_const, card_univ, Fintype.card_fin, nsmul_eq_mul] at this
    rw [this]
    ring
  have e4 : ∀ t, lsWeight X k t ^ 2 = (X t k ^ 2 + 2 / ((N : ℝ) + 1 - W) * (X t k * ∑ j, X t j)
      + (1 / ((N : ℝ) + 1 - W)) ^ 2 * (∑ j, X t j) ^ 2) / ((N : ℝ) + 1) ^ 2 := by
    intro t
    rw [lsWeight]
    field_simp
    ring
  simp only [e4]
  rw [← sum_div, sum_add_distrib, sum_add_distrib, ← mul_sum, ← mul_sum, e1, e2, e3]
  field_simp
  ring

end Two

/-- a sum over complete periods, by place in the period -/
theorem sum_periods (N : ℕ) (g : ℕ → ℝ) (q : ℕ) : ∑ i ∈ range (q * N), g i = ∑ t ∈ range N, ∑ r ∈ range q, g (r * N + t) := by
  rw [sum_comm]
  induction q with
  | zero => simp
  | succ q ih => rw [Nat.succ_mul, sum_range_add, ih, sum_range_succ]

/-- weight of draw `i` in the weighted average over periods -/
noncomputable def periodWeight (N q : ℕ) (c : ℕ → ℝ) (i : ℕ) : ℝ := if i < q * N then c (i % N) / q else 0

theorem periodWeight_sum (N q n : ℕ) (hn : q * N ≤ n) (c z : ℕ → ℝ) :
    ∑ i ∈ range n, periodWeight N q c i * z i = ∑ t ∈ range N, c t * periodAvg N q z t := by
  rw [← sum_subset (range_subset_range.2 hn) (fun i _ hi => by
    rw [periodWeight, if_neg (by simpa using hi), zero_mul]), sum_periods]
  refine sum_congr rfl fun t ht => ?_
  rw [periodAvg, mul_div_assoc', mul_sum, sum_div]
  refine sum_congr rfl fun r hr => ?_
  have h1 : r * N + t < q * N := by
    have := mem_range.1 hr
    have := mem_range.1 ht
    calc r * N + t < r * N + N := by omega
      _ = (r + 1) * N := by ring
      _ ≤ q * N := Nat.mul_le_mul_right _ (by omega)
  rw [periodWeight, if_pos h1, Nat.mul_add_mod', Nat.mod_eq_of_lt (mem_range.1 ht)]
  ring

theorem periodWeight_sq (N q n : ℕ) (hq : 0 < q) (hn : q * N ≤ n) (c : ℕ → ℝ) :
    ∑ i ∈ range n, periodWeight N q c i ^ 2 = (∑ t ∈ range N, c t ^ 2) / q := by
  have h := periodWeight_sum N q n hn c (periodWeight N q c)
  simp only [sq]
  rw [h, sum_div]
  refine sum_congr rfl fun t ht => ?_
  have : ∀ r ∈ range q, periodWeight N q c (r * N + t) = c t / q := by
    intro r hr
    have h1 : r * N + t < q * N := by
      have := mem_range.1 hr
      have := mem_range.1 ht
      calc r * N + t < r * N + N := by omega
        _ = (r + 1) * N := by ring
        _ ≤ q * N := Nat.mul_le_mul_right _ (by omega)
    rw [periodWeight, if_pos h1, Nat.mul_add_mod', Nat.mod_eq_of_lt (mem_range.1 ht)]
  rw [periodAvg, sum_congr rfl this, sum_const, card_range, nsmul_eq_mul]
  have : (q : ℝ) ≠ 0 := by exact_mod_cast hq.ne'
  field_simp

/-- correlation of the NRZ reference -/
theorem nrz_corr (p : PrbsEnum) (fs bi pnPre gray : Bool) (a b : ℤ) :
    ∑ t ∈ range (2 ^ p.value - 1), periodic (2 ^ p.value - 1) (txLevel .nrz fs bi pnPre gray false (bitAt (getPolynomial p) (onesSeed p))) (t + a)
        * periodic (2 ^ p.value - 1) (txLevel .nrz fs bi pnPre gray false (bitAt (getPolynomial p) (onesSeed p))) (t + b)
      = if (a : ZMod (2 ^ p.value - 1)) = (b : ZMod (2 ^ p.value - 1)) then ((2 ^ p.value - 1 : ℕ) : ℝ) else -1 := by
  have hu := uSeq_corr p (onesSeed p) (by simp) (onesSeed_ne p)
  have hz : ∀ z, refZ p .nrz fs bi pnPre gray false z = (if pnPre then -1 else 1) * uSeq p (onesSeed p) z := by
    intro z
    rw [refZ, uSeq]
    simp only [txLevel]
    rw [flip_sign]
    have : unitScale .nrz fs = 1 := by cases fs <;> simp [unitScale]
    rw [this]
    simp
  have hs : ((if pnPre then -1 else 1 : ℝ)) * (if pnPre then -1 else 1) = 1 := by cases pnPre <;> norm_num
  have h1 := corr_shift (uSeq p (onesSeed p)) hu (a : ZMod (2 ^ p.value - 1)) (b : ZMod (2 ^ p.value - 1))
  rw [← h1, ← zmod_sum_cast (2 ^ p.value - 1) (fun z => uSeq p (onesSeed p) (z + a) * uSeq p (onesSeed p) (z + b))]
  refine sum_congr rfl fun t _ => ?_
  rw [refZ_int, refZ_int, hz, hz]
  push_cast
  linear_combination (uSeq p (onesSeed p) ((t : ZMod (2 ^ p.value - 1)) + a) * uSeq p (onesSeed p) ((t : ZMod (2 ^ p.value - 1)) + b)) * hs

/-- correlation of the NRZ reference with the channel output -/
theorem nrz_chan_corr (p : PrbsEnum) (fs bi pnPre gray : Bool) (h : List ℝ) (pre : ℕ) (φ k : ℤ) (q : ℕ) :
    ∑ t ∈ range (q * (2 ^ p.value - 1)),
      periodic (2 ^ p.value - 1) (txLevel .nrz fs bi pnPre gray false (bitAt (getPolynomial p) (onesSeed p))) (t + k)
        * chanOut h pre (periodic (2 ^ p.value - 1) (txLevel .nrz fs bi pnPre gray false (bitAt (getPolynomial p) (onesSeed p)))) (t + φ)
      = q * ((((2 ^ p.value - 1 : ℕ) : ℝ) + 1) * tapZ (2 ^ p.value - 1) h pre ((k : ZMod (2 ^ p.value - 1)) - φ)
        - ∑ j ∈ range h.length, h.getD j 0) := by
  obtain ⟨x, hx⟩ : ∃ x, x = periodic (2 ^ p.value - 1) (txLevel .nrz fs bi pnPre gray false (bitAt (getPolynomial p) (onesSeed p))) := ⟨_, rfl⟩
  have hc := nrz_corr p fs bi pnPre gray
  rw [← hx] at hc ⊢
  have hper : ∀ (t : ℤ) (r : ℕ), x (t + r * (2 ^ p.value - 1 : ℕ)) = x t := by
    intro t r
    rw [hx, refZ_int, refZ_int]
    congr 1
    push_cast [ZMod.natCast_self]
    rw [mul_zero, add_zero]
  have e1 : ∀ t ∈ range (2 ^ p.value - 1), ∑ r ∈ range q, x (((r * (2 ^ p.value - 1) + t : ℕ) : ℤ) + k) * chanOut h pre x (((r * (2 ^ p.value - 1) + t : ℕ) : ℤ) + φ)
      = q * (x ((t : ℤ) + k) * chanOut h pre x ((t : ℤ) + φ)) := by
    intro t _
    have : ∀ r ∈ range q, x (((r * (2 ^ p.value - 1) + t : ℕ) : ℤ) + k) * chanOut h pre x (((r * (2 ^ p.value - 1) + t : ℕ) : ℤ) + φ)
        = x ((t : ℤ) + k) * chanOut h pre x ((t : ℤ) + φ) := by
      intro r _
      have a1 : ∀ a : ℤ, x (((r * (2 ^ p.value - 1) + t : ℕ) : ℤ) + a) = x ((t : ℤ) + a) := by
        intro a
        rw [← hper ((t : ℤ) + a) r]
        congr 1
        push_cast
        ring
      rw [a1]
      congr 1
      unfold chanOut
      refine sum_congr rfl fun j _ => ?_
      rw [show (((r * (2 ^ p.value - 1) + t : ℕ) : ℤ) + φ + pre - j) = ((r * (2 ^ p.value - 1) + t : ℕ) : ℤ) + (φ + pre - j) by ring, a1]
      congr 2
      ring
    rw [sum_congr rfl this, sum_const, card_range, nsmul_eq_mul]
  rw [sum_periods (2 ^ p.value - 1) (fun t : ℕ => x ((t : ℤ) + k) * chanOut h pre x ((t : ℤ) + φ)) q, sum_congr rfl e1, ← mul_sum]
  congr 1
  unfold chanOut
  simp only [mul_sum]
  rw [sum_comm]
  have e2 : ∀ j ∈ range h.length, ∑ t ∈ range (2 ^ p.value - 1), x ((t : ℤ) + k) * (h.getD j 0 * x ((t : ℤ) + φ + pre - j))
      = (((2 ^ p.value - 1 : ℕ) : ℝ) + 1) * (if (pre : ZMod (2 ^ p.value - 1)) - j = (k : ZMod (2 ^ p.value - 1)) - φ then h.getD j 0 else 0) - h.getD j 0 := by
    intro j _
    have : ∑ t ∈ range (2 ^ p.value - 1), x ((t : ℤ) + k) * (h.getD j 0 * x ((t : ℤ) + φ + pre - j))
        = h.getD j 0 * ∑ t ∈ range (2 ^ p.value - 1), x ((t : ℤ) + k) * x ((t : ℤ) + (φ + pre - j)) := by
      rw [mul_sum]
      refine sum_congr rfl fun t _ => ?_
      rw [show (t : ℤ) + φ + pre - j = (t : ℤ) + (φ + pre - j) by ring]
      ring
    rw [this, hc]
    have hiff : (k : ZMod (2 ^ p.value - 1)) = ((φ + pre - j : ℤ) : ZMod (2 ^ p.value - 1)) ↔ (pre : ZMod (2 ^ p.value - 1)) - j = (k : ZMod (2 ^ p.value - 1)) - φ := by
      push_cast
      constructor
      · intro h; rw [h]; ring
      · intro h
        have := congrArg (· + (φ : ZMod (2 ^ p.value - 1))) h
        simp only [sub_add_cancel] at this
        rw [← this]; ring
    by_cases hh : (pre : ZMod (2 ^ p.value - 1)) - j = (k : ZMod (2 ^ p.value - 1)) - φ
    · rw [if_pos (hiff.2 hh), if_pos hh]; ring
    · rw [if_neg (fun h => hh (hiff.1 h)), if_neg hh]; ring
  rw [sum_congr rfl e2, sum_sub_distrib, ← mul_sum]
  rfl

end Verif
