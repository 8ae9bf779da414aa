import Verif.Lemmas.Delay
import Mathlib.Algebra.Field.Rat
import Mathlib.Tactic.NormNum
import Mathlib.Tactic.IntervalCases

/-! Property theorems C52 (Lagrange delay filters), C53 (digital oversampling), C64 (sinc and raised-cosine delay
filters). -/

set_option linter.unusedSectionVars false

open Finset

namespace Verif

variable {K : Type*} [Field K] [CharZero K]

/-! ### C52 -/

/-- **C52** (partial: for int64 denominators only orders up to 20, see `C52_negative_overflow`). For all orders,
all `alpha`, both directions, the coefficients reproduce every polynomial of degree at most `n` at `alpha`. Tap `k`
stands at position `k - n//2` (one less for odd `n` with `forward=False`). -/
theorem C52_reproduces_partial (w : ℤ → ℤ) (n : ℕ) (hw : w = id ∨ (w = wrap64 ∧ n ≤ 20)) (hn : 0 < n) (α : K)
    (forward : Bool) :
    ∃ c, lagrangeCoeffs w n α forward = .ok c ∧ c.length = n + 1 ∧
      ∀ f : Polynomial K, f.natDegree ≤ n → ∑ k ∈ range (n + 1), c.getD k 0
        * f.eval ((((k : ℤ) - (if n % 2 = 1 ∧ forward = false then n / 2 + 1 else n / 2 : ℕ) : ℤ) : K)) = f.eval α := by
  have hw' : ∀ r ≤ n, w (lagDen n r) = lagDen n r := by
    rcases hw with rfl | ⟨rfl, h⟩
    · exact fun _ _ => rfl
    · exact lagDen_small n h
  refine ⟨_, lagrangeCoeffs_eq w n hn α forward hw', by simp, fun f hf => ?_⟩
  rw [← lagrange_reproduces n (zeroTap n forward) α f hf]
  refine sum_congr rfl fun k hk => ?_
  rw [map_range_getD _ _ _ _ (mem_range.1 hk)]
  rfl

/-- **C52** (partial as above). The coefficients sum to one. -/
theorem C52_sum_partial (w : ℤ → ℤ) (n : ℕ) (hw : w = id ∨ (w = wrap64 ∧ n ≤ 20)) (hn : 0 < n) (α : K) (forward : Bool) :
    ∃ c, lagrangeCoeffs w n α forward = .ok c ∧ c.sum = 1 := by
  obtain ⟨c, e, hl, h⟩ := C52_reproduces_partial w n hw hn α forward
  refine ⟨c, e, ?_⟩
  have := h 1 (by simp)
  simp only [Polynomial.eval_one, mul_one] at this
  rw [← this, ← hl]
  clear this h e hl
  induction c with
  | nil => simp
  | cons a c ih => rw [List.sum_cons, ih, List.length_cons, sum_range_succ', add_comm]; rfl

/-- **C52** (partial as above). When `alpha` is the position of tap `k`, the filter is the unit impulse at `k`. -/
theorem C52_impulse_partial (w : ℤ → ℤ) (n : ℕ) (hw : w = id ∨ (w = wrap64 ∧ n ≤ 20)) (hn : 0 < n) (forward : Bool)
    (k : ℕ) (hk : k ≤ n) :
    lagrangeCoeffs w n (((k : ℤ) - (if n % 2 = 1 ∧ forward = false then n / 2 + 1 else n / 2 : ℕ) : ℤ) : K) forward
      = .ok ((List.range (n + 1)).map fun j => if j = k then 1 else 0) := by
  have hw' : ∀ r ≤ n, w (lagDen n r) = lagDen n r := by
    rcases hw with rfl | ⟨rfl, h⟩
    · exact fun _ _ => rfl
    · exact lagDen_small n h
  rw [lagrangeCoeffs_eq w n hn _ forward hw']
  congr 1
  refine List.map_congr_left fun j hj => ?_
  rw [List.mem_range] at hj
  show Polynomial.eval (tapPos K (zeroTap n forward) k) _ = _
  split_ifs with h
  · subst h
    exact Lagrange.eval_basis_self (tapPos_inj _ n) (mem_range.2 hj)
  · exact Lagrange.eval_basis_of_ne h (mem_range.2 (by omega))

example : lagrangeCoeffs (K := ℚ) wrap64 3 (1/2) true = .ok [-1/16, 9/16, 9/16, -1/16] := by decide +kernel
example : lagrangeCoeffs (K := ℚ) wrap64 3 (1/2) false = .ok [1/16, -5/16, 15/16, 5/16] := by decide +kernel
example : lagrangeCoeffs (K := ℚ) wrap64 2 1 true = .ok [0, 0, 1] := by decide +kernel

/-- **C52** (negation). From order 21 on the int64 denominators overflow: with order 21 and `alpha = 1/2` the
coefficients do not sum to one. -/
theorem C52_negative_overflow :
    ∃ c, lagrangeCoeffs (K := ℚ) wrap64 21 (1/2) true = .ok c ∧ c.sum = 5403239886405 / 5403251710789 :=
  ⟨_, rfl, by decide +kernel⟩

/-- **C52.** Order 0 raises ValueError. -/
theorem C52_order_zero (w : ℤ → ℤ) (α : K) (forward : Bool) : lagrangeCoeffs w 0 α forward = .error .valueError := by
  cases forward <;> rfl

/-! ### C53 -/

/-- **C53.** For every method whose coefficient vectors have `order + 1` entries, `digital_oversample` returns
`(len - order)*osr` samples; sample `r*osr` is `x[order//2 + r]`, sample `r*osr + k` is the coefficients for
`alpha = k/osr` applied to `x[r], ..., x[r+order]`; the new time axis counts in steps of `1/osr`. -/
theorem C53_samples [DecidableEq K] (coeffs : K → Py (List K)) (x : List K) (osr order : ℕ)
    (hc : ∀ k : ℕ, 0 < k → k < osr → ∃ c, coeffs ((k : K) / osr) = .ok c ∧ c.length = order + 1)
    (ho : 0 < osr) (hx : 0 < x.length) (hN : order ≤ x.length) :
    ∃ t x2 x1, digitalOversample coeffs x osr order = .ok (t, x2, x1) ∧ t.length = (x.length - order) * osr ∧
      (∀ r, r < x.length - order → t.getD (r * osr) 0 = x.getD (order / 2 + r) 0) ∧
      (∀ r k c, r < x.length - order → 0 < k → k < osr → coeffs ((k : K) / osr) = .ok c → t.getD (r * osr + k) 0
        = ∑ j ∈ range (order + 1), c.getD j 0 * x.getD (r + j) 0) ∧
      x2.length = t.length ∧ ∀ m : ℕ, m < t.length → x2.getD m 0 = (m : K) / osr := by
  obtain ⟨t, x2, x1, e, h1, h2, h3, h4, -⟩ := digitalOversample_eq coeffs
    (fun a => match coeffs a with | .ok c => c | .error _ => []) x osr order
    (fun k h0 h1 => by
      obtain ⟨c, e, hl⟩ := hc k h0 h1
      simp only [e]
      exact ⟨trivial, hl⟩) ho hx hN
  refine ⟨t, x2, x1, e, h1, fun r hr => ?_, fun r k c hr h0 hk hcc => ?_, h3, h4⟩
  · have := h2 r 0 hr ho
    rwa [if_pos rfl, add_zero] at this
  · have := h2 r k hr hk
    rw [if_neg (by omega)] at this
    simp only [hcc] at this
    exact this

/-- **C53** (partial: for int64 denominators only orders up to 20). With Lagrange interpolation the samples of a
polynomial of degree at most `order` are interpolated exactly: sample `r*osr + k` is its value at
`order//2 + r + k/osr`. -/
theorem C53_polynomial_partial [DecidableEq K] (w : ℤ → ℤ) (osr order : ℕ) (hw : w = id ∨ (w = wrap64 ∧ order ≤ 20))
    (h0 : 0 < order) (ho : 0 < osr) (x : List K) (hN : order ≤ x.length) (f : Polynomial K) (hf : f.natDegree ≤ order)
    (hx : ∀ m : ℕ, m < x.length → x.getD m 0 = f.eval (m : K)) :
    ∃ t x2 x1, digitalOversample (fun a => lagrangeCoeffs w order a true) x osr order = .ok (t, x2, x1) ∧
      t.length = (x.length - order) * osr ∧
      ∀ r k : ℕ, r < x.length - order → k < osr →
        t.getD (r * osr + k) 0 = f.eval (((order / 2 : ℕ) : K) + r + (k : K) / osr) := by
  obtain ⟨t, x2, x1, e, h1, h2, h3, -, -⟩ := C53_samples (fun a => lagrangeCoeffs w order a true) x osr order
    (fun k _ _ => by
      obtain ⟨c, e, hl, -⟩ := C52_reproduces_partial w order hw h0 ((k : K) / osr) true
      exact ⟨c, e, hl⟩) ho (by omega) hN
  refine ⟨t, x2, x1, e, h1, fun r k hr hk => ?_⟩
  rcases Nat.eq_zero_or_pos k with rfl | hk0
  · rw [add_zero, h2 r hr, hx _ (by omega), Nat.cast_zero, zero_div, add_zero]
    push_cast
    rfl
  · obtain ⟨c, e, hl, hrep⟩ := C52_reproduces_partial w order hw h0 ((k : K) / osr) true
    rw [h3 r k c hr hk0 hk e]
    have hg := hrep (f.comp (Polynomial.X + Polynomial.C (((order / 2 : ℕ) : K) + r))) (by
      rw [Polynomial.natDegree_comp, Polynomial.natDegree_X_add_C, mul_one]; exact hf)
    simp only [Polynomial.eval_comp, Polynomial.eval_add, Polynomial.eval_X, Polynomial.eval_C] at hg
    rw [add_comm ((((order / 2 : ℕ) : K) + r)), ← hg]
    refine sum_congr rfl fun j hj => ?_
    rw [mem_range] at hj
    rw [hx _ (by omega)]
    congr 2
    rw [if_neg (by simp)]
    generalize order / 2 = q
    push_cast
    ring

example : digitalOversample (K := ℚ) (fun a => lagrangeCoeffs wrap64 2 a true) [0, 1, 4, 9, 16] 2 2
    = .ok ([1, 9/4, 4, 25/4, 9, 49/4], [0, 1/2, 1, 3/2, 2, 5/2], [0, 1, 2, 3]) := by decide +kernel
example : (digitalOversample (K := ℚ) (fun a => lagrangeCoeffs wrap64 3 a true) [0, 1, 8, 27, 64] 2 3).map Prod.fst
    = .ok [1, 27/8, 8, 125/8] := by decide +kernel

/-- **C53** (negation). For order 21 the overflow of C52 changes the result: the constant signal is not reproduced. -/
theorem C53_negative_overflow :
    (digitalOversample (K := ℚ) (fun a => lagrangeCoeffs wrap64 21 a true) (List.replicate 22 1) 2 21).map Prod.fst
      = .ok [1, 5403239886405 / 5403251710789] := by decide +kernel

/-- **C53.** A signal shorter than the order is rejected (ValueError), an osr of 0 too (IndexError); order 0 with
Lagrange interpolation and an osr of at least 2 raises ValueError. -/
theorem C53_rejects [DecidableEq K] (coeffs : K → Py (List K)) (w : ℤ → ℤ) (x : List K) (osr order : ℕ) :
    (x.length < order → digitalOversample coeffs x osr order = .error .valueError) ∧
    (order ≤ x.length → digitalOversample coeffs x 0 order = .error .indexError) ∧
    (2 ≤ osr → digitalOversample (fun a => lagrangeCoeffs w 0 a true) x osr 0 = .error .valueError) := by
  refine ⟨fun h => ?_, fun h => ?_, fun h => ?_⟩
  · unfold digitalOversample
    simp only []
    rw [if_pos (by omega)]
  · unfold digitalOversample
    simp only []
    rw [if_neg (by omega), if_pos trivial]
  · obtain ⟨m, rfl⟩ : ∃ m, osr = m + 2 := ⟨osr - 2, by omega⟩
    unfold digitalOversample
    simp only []
    rw [if_neg (by omega), if_neg (by omega)]
    unfold alphas
    rw [show m + 2 - 1 = m + 1 by omega, List.range_succ_eq_map, List.map_cons]
    rfl

/-! ### C64 -/

/-- **C64.** `dig_delay_sinc_coeffs` returns `sinc(π(i - alpha))` at the tap positions `i`; when `alpha` is the position
of tap `k` this is the unit impulse at `k`. -/
theorem C64_sinc (n : ℕ) (α : ℝ) (forward : Bool) :
    (sincCoeffs n α forward).length = n + 1 ∧
    (∀ k : ℕ, k ≤ n → (sincCoeffs n α forward).getD k 0
      = Real.sinc (Real.pi * ((((k : ℤ) - (if n % 2 = 1 ∧ forward = false then n / 2 + 1 else n / 2 : ℕ) : ℤ) : ℝ) - α))) ∧
    (∀ k : ℕ, k ≤ n → α = (((k : ℤ) - (if n % 2 = 1 ∧ forward = false then n / 2 + 1 else n / 2 : ℕ) : ℤ) : ℝ) →
      sincCoeffs n α forward = (List.range (n + 1)).map fun j => if j = k then 1 else 0) := by
  have e : sincCoeffs n α forward = (List.range (n + 1)).map fun j : ℕ =>
      Real.sinc (Real.pi * ((((j : ℤ) - (zeroTap n forward : ℕ) : ℤ) : ℝ) - α)) := by
    unfold sincCoeffs
    rw [getIndices_eq, List.map_map]
    exact List.map_congr_left fun j _ => by simp only [Function.comp]; rw [npSinc_eq]
  refine ⟨by rw [e]; simp, fun k hk => ?_, fun k hk hα => ?_⟩
  · rw [e, map_range_getD _ _ _ _ (by omega)]
    rfl
  · rw [e]
    refine List.map_congr_left fun j _ => ?_
    have h : (((j : ℤ) - (zeroTap n forward : ℕ) : ℤ) : ℝ) - α = (((j : ℤ) - k : ℤ) : ℝ) := by
      rw [hα]
      show _ - (((k : ℤ) - (zeroTap n forward : ℕ) : ℤ) : ℝ) = _
      push_cast
      ring
    rw [h, sinc_int]
    by_cases hjk : j = k
    · rw [if_pos hjk, if_pos (by omega)]
    · rw [if_neg hjk, if_neg (by omega)]

/-- **C64** (partial: unless a tap meets a singular time of the raised cosine, see `C64_negative_default`).
`dig_delay_rcos_coeffs` returns the values of the continuous raised cosine at the tap positions minus `alpha`. -/
theorem C64_rcos_partial (n : ℕ) (α : ℝ) (forward : Bool) (β : ℝ) (g : ℝ → ℝ) (hg : Spec.IsRaisedCosine β g)
    (h : ∀ k : ℕ, k ≤ n → (2 * β * ((((k : ℤ) - (if n % 2 = 1 ∧ forward = false then n / 2 + 1 else n / 2 : ℕ) : ℤ) : ℝ)
      - α)) ^ 2 ≠ 1) :
    rcosCoeffs n α forward β = (List.range (n + 1)).map fun k : ℕ =>
      some (g ((((k : ℤ) - (if n % 2 = 1 ∧ forward = false then n / 2 + 1 else n / 2 : ℕ) : ℤ) : ℝ) - α)) := by
  unfold rcosCoeffs
  rw [getIndices_eq, List.map_map]
  refine List.map_congr_left fun k hk => ?_
  rw [List.mem_range] at hk
  simp only [Function.comp]
  show _ = some (g ((((k : ℤ) - (zeroTap n forward : ℕ) : ℤ) : ℝ) - α))
  have hk' : (2 * β * ((((k : ℤ) - (zeroTap n forward : ℕ) : ℤ) : ℝ) - α)) ^ 2 ≠ 1 := h k (by omega)
  generalize ((((k : ℤ) - (zeroTap n forward : ℕ) : ℤ) : ℝ) - α) = u at hk' ⊢
  have hne : 1 - (2 * β * u) ^ 2 ≠ 0 := fun h0 => hk' (by linarith)
  rw [if_neg hne, npSinc_eq, ← hg.equation u]
  rw [mul_div_cancel_left₀ _ hne]

/-- the hypotheses are met e.g. by order 2, delay 1/4, roll-off 1/2 -/
example : ∀ k : ℕ, k ≤ 2 → (2 * (1 / 2 : ℝ) * ((((k : ℤ) - (if 2 % 2 = 1 ∧ true = false then 2 / 2 + 1 else 2 / 2 : ℕ) : ℤ) : ℝ)
      - 1 / 4)) ^ 2 ≠ 1 := by
  intro k hk
  interval_cases k <;> norm_num

/-- **C64** (negation). With the default roll-off 0.5 and delay 0 (forward or even order), the coefficient of the tap
after the centre is a division by zero, where the raised cosine is 0. -/
theorem C64_negative_default (n : ℕ) (hn : 0 < n) (forward : Bool) (hf : forward = true ∨ n % 2 = 0) :
    (rcosCoeffs n 0 forward (1 / 2)).getD (n / 2 + 1) (some 7) = none := by
  have hz : zeroTap n forward = n / 2 := by
    unfold zeroTap
    rw [if_neg]
    rintro ⟨h1, h2⟩
    rcases hf with h | h
    · simp [h] at h2
    · omega
  unfold rcosCoeffs
  rw [getIndices_eq, List.map_map, hz, map_range_getD _ _ _ _ (by omega)]
  simp only [Function.comp]
  rw [if_pos]
  push_cast
  ring

/-- **C64** (negation). With roll-off 1 and delay 1/2 the coefficient of the centre tap is a division by zero. -/
theorem C64_negative_half (n : ℕ) (forward : Bool) (hf : forward = true ∨ n % 2 = 0) :
    (rcosCoeffs n (1 / 2) forward 1).getD (n / 2) (some 7) = none := by
  have hz : zeroTap n forward = n / 2 := by
    unfold zeroTap
    rw [if_neg]
    rintro ⟨h1, h2⟩
    rcases hf with h | h
    · simp [h] at h2
    · omega
  unfold rcosCoeffs
  rw [getIndices_eq, List.map_map, hz, map_range_getD _ _ _ _ (by omega)]
  simp only [Function.comp]
  rw [if_pos]
  push_cast
  ring

end Verif
