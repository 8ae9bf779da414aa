import Verif.Spec.QuantNoise
import Verif.Props.Slicer

/-!
# Quantization noise (C125)

`quantize` with `q = 2^-frac_bits` on an input that is uniformly distributed over the full range of
the quantizer, half a step beyond the outer codes included. The error is uniformly distributed over
one step and independent of the code that comes out; so it has mean zero and power `q^2/12`, and the
signal-to-noise ratio is the square of the number of levels: about 6 dB per bit.
-/

set_option linter.unusedSectionVars false

namespace Verif
open Spec MeasureTheory

/-- one cell: the output is constant inside -/
theorem cell_integral (Q : ℝ → ℝ) (F : ℝ → ℝ → ℝ) (hF : ∀ y, Continuous (F y)) (c w : ℝ)
    (hw : 0 < w) (hQ : ∀ x, |x - c| < w → Q x = c) :
    IntervalIntegrable (fun x => F (Q x) x) volume (c - w) (c + w) ∧
      ∫ x in (c - w)..(c + w), F (Q x) x = ∫ x in (c - w)..(c + w), F c x := by
  have he : Set.EqOn (fun x => F c x) (fun x => F (Q x) x) (Set.uIoo (c - w) (c + w)) := by
    intro x hx
    rw [Set.uIoo_of_le (by linarith)] at hx
    simp only
    rw [hQ x (abs_lt.2 ⟨by linarith [hx.1], by linarith [hx.2]⟩)]
  exact ⟨((hF c).intervalIntegrable _ _).congr_uIoo he,
    (intervalIntegral.integral_congr_uIoo he).symm⟩

/-- **C125** (distribution). The quantizer maps sample by sample, and for an input spread evenly
over `lo·q - q/2 .. hi·q + q/2` the error `x - Q x` is uniform over `-q/2 .. q/2`, the output code is
uniform over `lo..hi`, and the two are independent: the mean of every product of a function of the
code and a continuous function of the error is the product of the two means. -/
theorem C125_error_law (t : ℕ) (ht : 1 ≤ t) (fb : ℕ) (ty : FixType) (r : ℤ × ℤ)
    (hr : codeRange t ty = some r) :
    ∃ Q : ℝ → ℝ, (∀ signal : List ℝ, quantize signal t fb ty = .ok (signal.map Q)) ∧
      ∀ (h : ℝ → ℝ) (g : ℝ → ℝ), Continuous g →
        uniformMean (r.1 * (1 / 2 ^ fb) - (1 / 2 ^ fb) / 2) (r.2 * (1 / 2 ^ fb) + (1 / 2 ^ fb) / 2)
            (fun x => h (Q x) * g (x - Q x)) =
          codeMean r.1 r.2 (fun c => h (c * (1 / 2 ^ fb))) *
            uniformMean (-((1 / 2 ^ fb) / 2)) ((1 / 2 ^ fb) / 2) g := by
  obtain ⟨levels, hlv, hle, hmem⟩ := quantLevels_mem (K := ℝ) t ht fb ty r hr
  have hq : (0:ℝ) < 1 / 2 ^ fb := by positivity
  have hne : levels ≠ [] := List.ne_nil_of_mem ((hmem _).2 ⟨r.1, le_rfl, hle, rfl⟩)
  refine ⟨sliceOne levels, fun signal => ?_, fun h g hg => ?_⟩
  · simp only [quantize, hlv, bind, Except.bind, List.length_eq_zero_iff, hne, if_false]; rfl
  generalize (1:ℝ) / 2 ^ fb = q at *
  obtain ⟨n, hn⟩ := Int.eq_ofNat_of_zero_le (show 0 ≤ r.2 - r.1 + 1 by omega)
  have hn0 : 0 < n := by omega
  have h2 : r.2 = r.1 + n - 1 := by omega
  have hcell : ∀ c : ℤ, r.1 ≤ c → c ≤ r.2 → ∀ x : ℝ, |x - c * q| < q / 2 →
      sliceOne levels x = c * q := by
    intro c hc1 hc2 x hx
    have hc1' : (r.1:ℝ) ≤ c := by exact_mod_cast hc1
    have hc2' : (c:ℝ) ≤ r.2 := by exact_mod_cast hc2
    have hx' := abs_lt.1 hx
    have herr := grid_error levels q hq r.1 r.2 hle hmem x
      (by nlinarith [hx'.1]) (by nlinarith [hx'.2])
    obtain ⟨k, -, -, hk⟩ := (grid_slice levels q hq r.1 r.2 hle hmem x).1
    rw [hk] at herr ⊢
    have h3 : |((k:ℝ) - c) * q| < 1 * q := by
      have : ((k:ℝ) - c) * q = (x - c * q) - (x - k * q) := by ring
      rw [this]
      calc _ ≤ |x - c * q| + |x - k * q| := abs_sub _ _
        _ < 1 * q := by linarith
    rw [abs_mul, abs_of_pos hq] at h3
    have h4 := lt_of_mul_lt_mul_right h3 hq.le
    have h5 : |k - c| < 1 := by exact_mod_cast h4
    rw [Int.abs_lt_one_iff] at h5
    rw [show k = c by omega]
  have hmain := intervalIntegral.sum_integral_adjacent_intervals (μ := volume) (n := n)
    (f := fun x => h (sliceOne levels x) * g (x - sliceOne levels x))
    (a := fun i : ℕ => ((r.1 + i : ℤ):ℝ) * q - q / 2) ?_
  swap
  · intro i hi
    have := (cell_integral (sliceOne levels) (fun y x => h y * g (x - y))
      (fun y => by fun_prop) (((r.1 + i : ℤ):ℝ) * q) (q / 2) (by linarith)
      (hcell _ (by omega) (by omega))).1
    convert this using 1
    push_cast; ring
  have hcells : ∀ i ∈ Finset.range n,
      (∫ x in (((r.1 + i : ℤ):ℝ) * q - q / 2)..(((r.1 + (i + 1 : ℕ) : ℤ):ℝ) * q - q / 2),
        h (sliceOne levels x) * g (x - sliceOne levels x)) =
      h (((r.1 + i : ℤ):ℝ) * q) * ∫ x in (-(q / 2))..(q / 2), g x := by
    intro i hi
    have hi := Finset.mem_range.1 hi
    have := (cell_integral (sliceOne levels) (fun y x => h y * g (x - y))
      (fun y => by fun_prop) (((r.1 + i : ℤ):ℝ) * q) (q / 2) (by linarith)
      (hcell _ (by omega) (by omega))).2
    have hend : ((r.1 + (i + 1 : ℕ) : ℤ):ℝ) * q - q / 2 = ((r.1 + i : ℤ):ℝ) * q + q / 2 := by
      push_cast; ring
    rw [hend, this, intervalIntegral.integral_const_mul, intervalIntegral.integral_comp_sub_right]
    congr 2 <;> ring
  rw [Finset.sum_congr rfl hcells, ← Finset.sum_mul] at hmain
  have hcodes : ∑ c ∈ Finset.Icc r.1 r.2, h ((c:ℝ) * q) =
      ∑ i ∈ Finset.range n, h (((r.1 + i : ℤ):ℝ) * q) := by
    symm
    refine Finset.sum_bij (fun (i : ℕ) _ => r.1 + (i:ℤ)) ?_ ?_ ?_ ?_
    · intro i hi
      have := Finset.mem_range.1 hi
      exact Finset.mem_Icc.2 ⟨by omega, by omega⟩
    · intro a _ b _ hab
      simpa using hab
    · intro c hc
      have := Finset.mem_Icc.1 hc
      exact ⟨(c - r.1).toNat, Finset.mem_range.2 (by omega), by omega⟩
    · intro i _
      rfl
  have hr2 : (r.2:ℝ) = r.1 + n - 1 := by rw [h2]; push_cast; ring
  have e0 : ((r.1 + (0:ℕ) : ℤ):ℝ) * q - q / 2 = r.1 * q - q / 2 := by push_cast; ring
  have en : ((r.1 + (n:ℕ) : ℤ):ℝ) * q - q / 2 = r.2 * q + q / 2 := by rw [hr2]; push_cast; ring
  rw [e0, en] at hmain
  unfold uniformMean codeMean
  rw [← hmain, hcodes]
  have hnr : (n:ℝ) ≠ 0 := by exact_mod_cast hn0.ne'
  have d1 : (r.2 * q + q / 2 - (r.1 * q - q / 2) : ℝ) = n * q := by rw [hr2]; ring
  have d2 : (r.2 - r.1 + 1 : ℝ) = n := by rw [hr2]; ring
  have d3 : q / 2 - -(q / 2) = q := by ring
  rw [d1, d2, d3, div_mul_div_comm]

/-- **C125** (power). Mean error zero, error power `q^2/12`, error and output uncorrelated, and the
variance of the full-range input is `levels^2` times the error power. -/
theorem C125_power (t : ℕ) (ht : 1 ≤ t) (fb : ℕ) (ty : FixType) (r : ℤ × ℤ)
    (hr : codeRange t ty = some r) (q a b : ℝ) (hqd : q = 1 / 2 ^ fb)
    (ha : a = r.1 * q - q / 2) (hb : b = r.2 * q + q / 2) :
    ∃ Q : ℝ → ℝ, (∀ signal : List ℝ, quantize signal t fb ty = .ok (signal.map Q)) ∧
      uniformMean a b (fun x => x - Q x) = 0 ∧
      uniformMean a b (fun x => (x - Q x) ^ 2) = q ^ 2 / 12 ∧
      uniformMean a b (fun x => Q x * (x - Q x)) = 0 ∧
      uniformMean a b (fun x => (x - (a + b) / 2) ^ 2) =
        ((r.2 - r.1 + 1 : ℤ):ℝ) ^ 2 * uniformMean a b (fun x => (x - Q x) ^ 2) := by
  obtain ⟨Q, hQ, hlaw⟩ := C125_error_law t ht fb ty r hr
  rw [← hqd, ← ha, ← hb] at hlaw
  have hq : 0 < q := by rw [hqd]; positivity
  have hle : r.1 ≤ r.2 := (quantLevels_mem (K := ℝ) t ht fb ty r hr).choose_spec.2.1
  have hle' : (r.1:ℝ) ≤ r.2 := by exact_mod_cast hle
  have hm1 : uniformMean (-(q / 2)) (q / 2) (fun x => x) = 0 := by
    unfold uniformMean
    rw [integral_id]; ring_nf
  have hm2 : uniformMean (-(q / 2)) (q / 2) (fun x => x ^ 2) = q ^ 2 / 12 := by
    unfold uniformMean
    rw [integral_pow]
    have : q / 2 - -(q / 2) = q := by ring
    rw [this]
    field_simp
    push_cast
    ring
  have hone : codeMean r.1 r.2 (fun _ => 1) = 1 := by
    unfold codeMean
    have : (0:ℝ) < r.2 - r.1 + 1 := by linarith
    rw [Finset.sum_const, Int.card_Icc, nsmul_eq_mul, mul_one, div_eq_one_iff_eq this.ne']
    have h1 : (((r.2 + 1 - r.1).toNat : ℤ):ℝ) = ((r.2 + 1 - r.1 : ℤ):ℝ) := by
      rw [Int.toNat_of_nonneg (by omega)]
    push_cast at h1
    rw [h1]; ring
  have e1 := hlaw (fun _ => 1) (fun x => x) continuous_id
  have e2 := hlaw (fun _ => 1) (fun x => x ^ 2) (by fun_prop)
  have e3 := hlaw (fun y => y) (fun x => x) continuous_id
  simp only [one_mul, hone, hm1, hm2, mul_zero] at e1 e2 e3
  refine ⟨Q, hQ, e1, e2, e3, ?_⟩
  rw [e2]
  have hba : b - a = ((r.2 - r.1 + 1 : ℤ):ℝ) * q := by rw [ha, hb]; push_cast; ring
  have hpos : 0 < b - a := by rw [ha, hb]; nlinarith
  have hvar : uniformMean a b (fun x => (x - (a + b) / 2) ^ 2) = (b - a) ^ 2 / 12 := by
    unfold uniformMean
    rw [intervalIntegral.integral_comp_sub_right (fun x => x ^ 2), integral_pow]
    field_simp
    push_cast
    ring
  rw [hvar, hba]; ring

/-- **C125** (6 dB per bit). Signal-to-noise ratio at full range: `4^total_bits` for the unsigned
and two's complement types, `(2^total_bits - 1)^2` for the symmetric one. -/
theorem C125_snr (t : ℕ) (ht : 1 ≤ t) (fb : ℕ) (ty : FixType) (r : ℤ × ℤ)
    (hr : codeRange t ty = some r) (q a b : ℝ) (hqd : q = 1 / 2 ^ fb)
    (ha : a = r.1 * q - q / 2) (hb : b = r.2 * q + q / 2) :
    ∃ Q : ℝ → ℝ, (∀ signal : List ℝ, quantize signal t fb ty = .ok (signal.map Q)) ∧
      uniformMean a b (fun x => (x - (a + b) / 2) ^ 2) / uniformMean a b (fun x => (x - Q x) ^ 2) =
        if ty = .ss then (2 ^ t - 1) ^ 2 else 4 ^ t := by
  obtain ⟨Q, hQ, -, h2, -, h4⟩ := C125_power t ht fb ty r hr q a b hqd ha hb
  refine ⟨Q, hQ, ?_⟩
  have hq : 0 < q := by rw [hqd]; positivity
  have hpos : (0:ℝ) < q ^ 2 / 12 := by positivity
  rw [h4, h2, mul_div_assoc, div_self hpos.ne', mul_one]
  obtain ⟨s, rfl⟩ : ∃ s, t = s + 1 := ⟨t - 1, by omega⟩
  have h4p : (4:ℝ) ^ (s + 1) = (2 ^ (s + 1)) ^ 2 := by
    rw [← pow_mul, mul_comm, pow_mul]; norm_num
  cases ty <;> simp [codeRange, unsignedRange, signedRange, symmetricRange] at hr <;> subst hr <;>
    simp only [reduceCtorEq, if_true, if_false, h4p] <;> push_cast <;> ring_nf

/-- four bits, two of them fractional, two's complement: noise power `(1/4)^2/12`, ratio 256 -/
example : ∃ Q : ℝ → ℝ, (∀ signal : List ℝ, quantize signal 4 2 .s = .ok (signal.map Q)) ∧
    uniformMean (-8 * (1/4) - 1/8) (7 * (1/4) + 1/8) (fun x => (x - Q x) ^ 2) = 1 / 192 := by
  obtain ⟨Q, hQ, -, h2, -, -⟩ := C125_power 4 (by norm_num) 2 .s (-8, 7) rfl (1/4) (-8 * (1/4) - 1/8)
    (7 * (1/4) + 1/8) (by norm_num) (by norm_num) (by norm_num)
  exact ⟨Q, hQ, h2.trans (by norm_num)⟩

end Verif
