import Verif.Lemmas.RoundedTrain
import Mathlib.Analysis.SpecificLimits.Basic
import Mathlib.Algebra.Order.BigOperators.Ring.Finset

/-! **C130**: training an equalizer with the LMS gradients in floating-point arithmetic. -/

open Finset

namespace Verif
open Spec

/-- **C130.** One pass of the FFE training loop in `p`-bit arithmetic, with any number of samples dropped: it succeeds, every new tap is
within `passError` of the tap of the pass in exact arithmetic, and the loss within `lossError`. -/
theorem C130_pass (p : ℕ) (conv : List ℝ → List ℝ → List ℝ) (hconv : IsConvValid (fl p) conv) (sumR : List ℝ → ℝ) (hs : IsSum (fl p) sumR)
    (skip : ℕ) (y d levels t : List ℝ) (mu A B : ℝ) (ht : 1 ≤ t.length) (htN : skip + t.length ≤ y.length)
    (hd : d.length = y.length - skip) (hlv : levels ≠ []) (hA : ∀ v ∈ y, |v| ≤ A) (hB : ∀ v ∈ d, |v| ≤ B) (hmu : 0 ≤ mu) :
    ∃ l t' l' t'', lmsFfePass skip y d levels mu t = .ok (some l, t') ∧
      lmsFfePassR (fl p) conv sumR skip y d levels mu t = .ok (some l', t'') ∧
      |l' - l| ≤ lossError (2 ^ (-(p : ℤ))) (y.length - skip) t.length (tapSize t.length t) A B ∧ t'.length = t.length ∧ t''.length = t.length ∧
      ∀ i < t.length, |t''.getD i 0 - t'.getD i 0| ≤ passError (2 ^ (-(p : ℤ))) (y.length - skip) t.length (tapSize t.length t) A B mu := by
  obtain ⟨l, t', l', t'', h1, h2, h6, h3, h4, -, h5⟩ := pass_error p conv hconv sumR hs skip y d levels t mu A B _ ht htN hd hlv hA hB le_rfl hmu
  exact ⟨l, t', l', t'', h1, h2, h6, h3, h4, h5⟩

/-! ### the weighted distance -/

theorem sqrt_sum_add (S : Finset ℕ) (f g : ℕ → ℝ) :
    Real.sqrt (∑ c ∈ S, (f c + g c) ^ 2) ≤ Real.sqrt (∑ c ∈ S, f c ^ 2) + Real.sqrt (∑ c ∈ S, g c ^ 2) := by
  rw [Real.sqrt_le_left (by positivity)]
  have h1 := Real.sum_mul_le_sqrt_mul_sqrt S f g
  have h2 := Real.sq_sqrt (sum_nonneg fun c (_ : c ∈ S) => sq_nonneg (f c))
  have h3 := Real.sq_sqrt (sum_nonneg fun c (_ : c ∈ S) => sq_nonneg (g c))
  have e : ∑ c ∈ S, (f c + g c) ^ 2 = ∑ c ∈ S, f c ^ 2 + 2 * ∑ c ∈ S, f c * g c + ∑ c ∈ S, g c ^ 2 := by
    rw [mul_sum, ← sum_add_distrib, ← sum_add_distrib]
    exact sum_congr rfl fun c _ => by ring
  rw [e]
  nlinarith

/-- weighted distance of two settings -/
noncomputable def gapW (w : ℕ → ℝ) (L : ℕ) (t z : List ℝ) : ℝ := Real.sqrt (∑ c ∈ range L, (t.getD c 0 - z.getD c 0) ^ 2 / w c)

theorem gapW_triangle (w : ℕ → ℝ) (L : ℕ) (hw : ∀ c ∈ range L, 0 < w c) (t s z : List ℝ) : gapW w L t z ≤ gapW w L t s + gapW w L s z := by
  have h := sqrt_sum_add (range L) (fun c => (t.getD c 0 - s.getD c 0) / Real.sqrt (w c)) (fun c => (s.getD c 0 - z.getD c 0) / Real.sqrt (w c))
  have e : ∀ c ∈ range L, ∀ v : ℝ, (v / Real.sqrt (w c)) ^ 2 = v ^ 2 / w c := by
    intro c hc v
    rw [div_pow, Real.sq_sqrt (hw c hc).le]
  unfold gapW
  rw [sum_congr rfl fun c hc => e c hc _, sum_congr (f := fun c => ((s.getD c 0 - z.getD c 0) / Real.sqrt (w c)) ^ 2) rfl fun c hc => e c hc _] at h
  refine le_trans (le_of_eq ?_) h
  congr 1
  refine sum_congr rfl fun c hc => ?_
  rw [← add_div, sub_add_sub_cancel, e c hc]

/-- a contraction by `1 / sqrt (1 + q)` with a disturbance per step -/
theorem drift_bound (v : ℕ → ℝ) (q c : ℝ) (hq : 0 < q) (hc : 0 ≤ c) (K : ℕ) (h : ∀ k < K, v (k + 1) ≤ v k / Real.sqrt (1 + q) + c) :
    v K ≤ v 0 / Real.sqrt (1 + q) ^ K + c * (2 / q + 2) := by
  have hs1 : 1 < Real.sqrt (1 + q) := by
    rw [Real.lt_sqrt (by norm_num)]; linarith
  have hsq := Real.sq_sqrt (show 0 ≤ 1 + q by linarith)
  generalize Real.sqrt (1 + q) = s at h hs1 hsq ⊢
  have hM : (2 / q + 2) / s + 1 ≤ 2 / q + 2 := by
    have hq' : q = (s - 1) * (s + 1) := by nlinarith
    have e : 2 / q + 2 = 2 * s ^ 2 / q := by rw [hsq]; field_simp
    have e2 : 2 * s ^ 2 / q / s = 2 * s / q := by
      have : s ≠ 0 := by linarith
      field_simp
    rw [e, e2, div_add_one hq.ne', div_le_div_iff_of_pos_right hq, hq']
    nlinarith
  induction K with
  | zero =>
    rw [pow_zero, div_one]
    have : 0 ≤ c * (2 / q + 2) := by positivity
    linarith
  | succ K ih =>
    have h1 := ih fun k hk => h k (by omega)
    have h2 := h K (by omega)
    have h3 : v K / s ≤ v 0 / s ^ (K + 1) + c * ((2 / q + 2) / s) := by
      rw [div_le_iff₀ (by linarith)]
      refine h1.trans (le_of_eq ?_)
      have : s ≠ 0 := by linarith
      rw [pow_succ]
      field_simp
    have h4 := mul_le_mul_of_nonneg_left hM hc
    rw [mul_add, mul_one] at h4
    linarith

/-- one exact step in the weighted distance -/
theorem step_contracts (y d t t' z : List ℝ) (L : ℕ) (mu A lam : ℝ) (hL : 1 ≤ L) (hLN : L ≤ y.length) (hd : d.length = y.length)
    (htl : t.length = L) (htl' : t'.length = L) (hzl : z.length = L)
    (hA : ∀ v ∈ y, |v| ≤ A) (hmu : 0 < mu) (hstep : mu * (L * A ^ 2) ≤ 2) (hlam : 0 ≤ lam)
    (hmin : ∀ s : List ℝ, s.length = L → ffeMse y d z + lam * tapGap L s z ^ 2 ≤ ffeMse y d s) (o : List ℝ) (hol : o.length = y.length)
    (ho : ∀ n : ℕ, n < y.length → o.getD n 0 = ∑ i ∈ range L, t.getD i 0 * listSig y ((n : ℤ) - i))
    (ht' : ∀ i < L, t'.getD i 0 = t.getD i 0 - tapGrad y (List.zipWith (· - ·) o d) i * mu) :
    gapW (fun i : ℕ => mu / (2 * ((y.length : ℝ) - i))) L t' z
      ≤ gapW (fun i : ℕ => mu / (2 * ((y.length : ℝ) - i))) L t z / Real.sqrt (1 + lam * mu / 2) := by
  obtain ⟨w, hwd⟩ : ∃ w : ℕ → ℝ, w = fun i : ℕ => mu / (2 * ((y.length : ℝ) - i)) := ⟨_, rfl⟩
  rw [← hwd]
  have hN : 0 < y.length := by omega
  have hNr : (0 : ℝ) < y.length := by exact_mod_cast hN
  have hy : y ≠ [] := List.length_pos_iff.1 hN
  have hA0 : 0 ≤ A := by
    obtain ⟨v, l, rfl⟩ := List.exists_cons_of_ne_nil hy
    exact (abs_nonneg v).trans (hA v (by simp))
  have hpos : ∀ c ∈ range L, (1 : ℝ) ≤ (y.length : ℝ) - c := by
    intro c hc
    have : c + 1 ≤ y.length := by have := mem_range.1 hc; omega
    have : (c : ℝ) + 1 ≤ y.length := by exact_mod_cast this
    linarith
  have hw : ∀ c ∈ range L, 0 < w c := by
    intro c hc
    have := hpos c hc
    rw [hwd]
    show 0 < mu / (2 * ((y.length : ℝ) - c))
    have : 0 < (y.length : ℝ) - c := by linarith
    positivity
  obtain ⟨u, hud⟩ : ∃ u : ℕ → ℤ → ℝ, u = fun (c : ℕ) (n : ℤ) => listSig y (n - c) := ⟨_, rfl⟩
  have hsupp : ∀ (c : ℕ) (f : ℤ → ℝ), ∑ n ∈ Ico 0 (y.length : ℤ), f n * u c n = ∑ n ∈ Ico (c : ℤ) y.length, f n * u c n := by
    intro c f
    symm
    refine sum_subset (fun n hn => ?_) fun n hn hn' => ?_
    · rw [mem_Ico] at hn ⊢; omega
    · rw [hud]
      show f n * listSig y (n - c) = 0
      unfold listSig
      rw [mem_Ico] at hn hn'
      rw [if_neg (by omega), mul_zero]
  have hLw : ∑ c ∈ range L, w c * ∑ n ∈ Ico 0 (y.length : ℤ), u c n ^ 2 ≤ 1 := by
    calc _ ≤ ∑ c ∈ range L, mu * A ^ 2 / 2 := by
          refine sum_le_sum fun c hc => ?_
          have hc1 := hpos c hc
          have e1 : ∑ n ∈ Ico 0 (y.length : ℤ), u c n ^ 2 = ∑ n ∈ Ico (c : ℤ) y.length, u c n ^ 2 := by
            simp_rw [pow_two]; exact hsupp c (u c)
          have e2 : ∑ n ∈ Ico (c : ℤ) y.length, u c n ^ 2 ≤ ((y.length : ℝ) - c) * A ^ 2 := by
            refine (sum_le_card_nsmul _ _ (A ^ 2) fun n _ => ?_).trans (le_of_eq ?_)
            · rw [← sq_abs, hud]
              exact pow_le_pow_left₀ (abs_nonneg _) (listSig_abs hA0 hA _) 2
            · rw [Int.card_Ico, nsmul_eq_mul]
              have hcl : c ≤ y.length := by have := mem_range.1 hc; omega
              have : ((y.length : ℤ) - c).toNat = y.length - c := by omega
              rw [this, Nat.cast_sub hcl]
          rw [e1]
          refine (mul_le_mul_of_nonneg_left e2 (hw c hc).le).trans (le_of_eq ?_)
          rw [hwd]
          have : (y.length : ℝ) - c ≠ 0 := by linarith
          field_simp
      _ = mu * (L * A ^ 2) / 2 := by rw [sum_const, card_range, nsmul_eq_mul]; ring
      _ ≤ 1 := by linarith
  have hcl := train_closer (range L) (Ico 0 (y.length : ℤ)) u (listSig d) w hw hLw (fun c => t.getD c 0) (fun c => t'.getD c 0)
    (fun c => z.getD c 0) (by
      intro c hc
      have hc' := mem_range.1 hc
      have hne : (y.length : ℝ) - c ≠ 0 := by have := hpos c hc; linarith
      show t'.getD c 0 = _
      rw [ht' c hc']
      unfold tapGrad trainCorr
      rw [hsupp c]
      have e : ∑ n ∈ Ico (c : ℤ) y.length, listSig (List.zipWith (· - ·) o d) n * listSig y (n - c)
          = ∑ n ∈ Ico (c : ℤ) y.length, trainErr (range L) u (listSig d) (fun c => t.getD c 0) n * u c n := by
        refine sum_congr rfl fun n hn => ?_
        rw [mem_Ico] at hn
        obtain ⟨m, rfl⟩ := Int.eq_ofNat_of_zero_le (show 0 ≤ n by omega)
        have hm : m < y.length := by omega
        rw [listSig_nat, zipWith_getD _ 0 0 0 _ _ (by omega) (by omega), ho m hm]
        unfold trainErr
        rw [listSig_nat, hud]
      rw [e, hwd]
      field_simp)
  have hmse : ∀ s : List ℝ, s.length = L → trainSq (range L) (Ico 0 (y.length : ℤ)) u (listSig d) (fun c => s.getD c 0)
      = y.length * ffeMse y d s := by
    intro s hsl
    have : Ico 0 (y.length : ℤ) = (range y.length).map Nat.castEmbedding := by
      ext n
      simp only [mem_Ico, mem_map, mem_range, Nat.castEmbedding_apply]
      constructor
      · intro h; exact ⟨n.toNat, by omega, by omega⟩
      · rintro ⟨k, hk, rfl⟩; omega
    unfold trainSq ffeMse
    rw [this, sum_map, mul_div_cancel₀ _ hNr.ne']
    refine sum_congr rfl fun n _ => ?_
    unfold trainErr
    rw [Nat.castEmbedding_apply, listSig_nat, hsl]
    congr 2
    refine sum_congr rfl fun i _ => ?_
    rw [hud]
    show _ * listSig y ((n : ℤ) - i) = _
    rw [listSig_sub]
  rw [hmse t' htl', hmse z hzl] at hcl
  have hm := hmin t' htl'
  have hq : 0 < 1 + lam * mu / 2 := by positivity
  have hV : ∑ c ∈ range L, (t'.getD c 0 - z.getD c 0) ^ 2 / w c ≤ 2 * y.length / mu * tapGap L t' z ^ 2 := by
    unfold tapGap
    rw [Real.sq_sqrt (sum_nonneg fun _ _ => sq_nonneg _), mul_sum]
    refine sum_le_sum fun c hc => ?_
    have hc1 := hpos c hc
    rw [hwd]
    show _ / (mu / (2 * ((y.length : ℝ) - c))) ≤ _
    rw [div_div_eq_mul_div, div_mul_eq_mul_div, div_le_div_iff_of_pos_right hmu, mul_comm]
    refine mul_le_mul_of_nonneg_right ?_ (sq_nonneg _)
    have : (0 : ℝ) ≤ c := Nat.cast_nonneg c
    linarith
  have hfin : (1 + lam * mu / 2) * ∑ c ∈ range L, (t'.getD c 0 - z.getD c 0) ^ 2 / w c ≤ ∑ c ∈ range L, (t.getD c 0 - z.getD c 0) ^ 2 / w c := by
    have h1 := mul_le_mul_of_nonneg_left hV (show 0 ≤ lam * mu / 2 by positivity)
    have h2 : lam * mu / 2 * (2 * y.length / mu * tapGap L t' z ^ 2) = y.length * (lam * tapGap L t' z ^ 2) := by field_simp
    have h3 := mul_le_mul_of_nonneg_left hm hNr.le
    rw [mul_add] at h3
    linarith
  unfold gapW
  rw [le_div_iff₀ (Real.sqrt_pos.2 hq), ← Real.sqrt_mul (sum_nonneg fun c hc => div_nonneg (sq_nonneg _) (hw c hc).le)]
  exact Real.sqrt_le_sqrt (by linarith)

theorem tapGap_le_gapW (mu : ℝ) (N L : ℕ) (hmu : 0 < mu) (hLN : L ≤ N) (t z : List ℝ) :
    tapGap L t z ≤ Real.sqrt (mu / (2 * ((N : ℝ) + 1 - L))) * gapW (fun i : ℕ => mu / (2 * ((N : ℝ) - i))) L t z := by
  have hLr : (L : ℝ) ≤ N := by exact_mod_cast hLN
  have h0 : 0 < (N : ℝ) + 1 - L := by linarith
  unfold tapGap gapW
  rw [← Real.sqrt_mul (by positivity)]
  refine Real.sqrt_le_sqrt ?_
  rw [mul_sum]
  refine sum_le_sum fun c hc => ?_
  have hc1 : (c : ℝ) + 1 ≤ L := by exact_mod_cast mem_range.1 hc
  have h1 : 0 < (N : ℝ) - c := by linarith
  show _ ≤ mu / (2 * ((N : ℝ) + 1 - L)) * (_ / (mu / (2 * ((N : ℝ) - c))))
  have e : mu / (2 * ((N : ℝ) + 1 - L)) * ((t.getD c 0 - z.getD c 0) ^ 2 / (mu / (2 * ((N : ℝ) - c))))
      = (t.getD c 0 - z.getD c 0) ^ 2 * (((N : ℝ) - c) / ((N : ℝ) + 1 - L)) := by field_simp
  rw [e]
  refine le_mul_of_one_le_right (sq_nonneg _) ?_
  rw [le_div_iff₀ h0]
  linarith

theorem gapW_le (mu : ℝ) (N L : ℕ) (hmu : 0 < mu) (hLN : L ≤ N) (t z : List ℝ) :
    gapW (fun i : ℕ => mu / (2 * ((N : ℝ) - i))) L t z ≤ Real.sqrt (2 * N / mu) * tapGap L t z := by
  have hLr : (L : ℝ) ≤ N := by exact_mod_cast hLN
  unfold tapGap gapW
  rw [← Real.sqrt_mul (by positivity)]
  refine Real.sqrt_le_sqrt ?_
  rw [mul_sum]
  refine sum_le_sum fun c hc => ?_
  show _ / (mu / (2 * ((N : ℝ) - c))) ≤ _
  rw [div_div_eq_mul_div, div_mul_eq_mul_div, div_le_div_iff_of_pos_right hmu, mul_comm]
  refine mul_le_mul_of_nonneg_right ?_ (sq_nonneg _)
  have : (0 : ℝ) ≤ c := Nat.cast_nonneg c
  linarith

theorem tapGap_le_of_abs (L : ℕ) (t z : List ℝ) (δ : ℝ) (hδ : 0 ≤ δ) (h : ∀ i < L, |t.getD i 0 - z.getD i 0| ≤ δ) :
    tapGap L t z ≤ Real.sqrt L * δ := by
  unfold tapGap
  rw [Real.sqrt_le_left (by positivity), mul_pow, Real.sq_sqrt (Nat.cast_nonneg L)]
  refine (sum_le_card_nsmul _ _ (δ ^ 2) fun i hi => ?_).trans (le_of_eq (by rw [card_range, nsmul_eq_mul]))
  rw [← sq_abs]
  exact pow_le_pow_left₀ (abs_nonneg _) (h i (mem_range.1 hi)) 2

theorem tapSize_le (L : ℕ) (t z : List ℝ) : tapSize L t ≤ tapSize L z + Real.sqrt L * tapGap L t z := by
  have h1 : tapSize L t ≤ tapSize L z + ∑ i ∈ range L, 1 * |t.getD i 0 - z.getD i 0| := by
    unfold tapSize
    rw [← sum_add_distrib]
    refine sum_le_sum fun i _ => ?_
    have := abs_sub_abs_le_abs_sub (t.getD i 0) (z.getD i 0)
    linarith
  have h2 := Real.sum_mul_le_sqrt_mul_sqrt (range L) (fun _ => 1) (fun i => |t.getD i 0 - z.getD i 0|)
  simp only [one_pow, sum_const, card_range, nsmul_eq_mul, mul_one, sq_abs] at h2
  unfold tapGap
  linarith

/-! ### training -/

/-- **C130.** Training a feed-forward equalizer in `p`-bit arithmetic, on a record of `N` samples at rest before it with known symbols. Let
the mean squared error grow at least like `lam` times the squared distance from taps `z`, and `mu L A^2 ≤ 2` as in exact arithmetic (C95).
If `S` bounds the taps on the way, every pass succeeds, and after `K` passes the distance from `z` is at most that of exact arithmetic,
which vanishes geometrically, plus the rounding errors of `2 + 4 / (lam mu)` passes, whatever the number of passes. -/
theorem C130_train (p : ℕ) (conv : List ℝ → List ℝ → List ℝ) (hconv : IsConvValid (fl p) conv) (sumR : List ℝ → ℝ) (hs : IsSum (fl p) sumR)
    (y d levels t0 z : List ℝ) (mu lam A B S : ℝ) (L N : ℕ) (hN : y.length = N) (hL0 : t0.length = L) (hL1 : 1 ≤ L) (hLN : L ≤ N)
    (hd : d.length = N) (hlv : levels ≠ []) (hA : ∀ v ∈ y, |v| ≤ A) (hB : ∀ v ∈ d, |v| ≤ B) (hmu : 0 < mu) (hstep : mu * (L * A ^ 2) ≤ 2)
    (hz : z.length = L) (hlam : 0 < lam) (hmin : ∀ s : List ℝ, s.length = L → ffeMse y d z + lam * tapGap L s z ^ 2 ≤ ffeMse y d s)
    (hS0 : 0 ≤ S) (hS : tapSize L z + Real.sqrt L * (Real.sqrt (N / ((N : ℝ) + 1 - L))
      * (tapGap L t0 z + Real.sqrt L * passError (2 ^ (-(p : ℤ))) N L S A B mu * (4 / (lam * mu) + 2))) ≤ S) (K : ℕ) :
    ∃ t, lmsFfeTrainR (fl p) conv sumR 0 y d levels mu t0 K = .ok t ∧ t.length = L ∧
      tapGap L t z ≤ Real.sqrt (N / ((N : ℝ) + 1 - L)) * (tapGap L t0 z / Real.sqrt (1 + lam * mu / 2) ^ K
        + Real.sqrt L * passError (2 ^ (-(p : ℤ))) N L S A B mu * (4 / (lam * mu) + 2)) := by
  have hu := unit_nonneg p
  have hLr : (L : ℝ) ≤ N := by exact_mod_cast hLN
  have hNr : (1 : ℝ) ≤ N := by exact_mod_cast hL1.trans hLN
  have hκ : 0 < (N : ℝ) + 1 - L := by linarith
  have hy : y ≠ [] := by rintro rfl; rw [List.length_nil] at hN; omega
  have hdne : d ≠ [] := by rintro rfl; rw [List.length_nil] at hd; omega
  have hA0 : 0 ≤ A := by
    obtain ⟨v, l, rfl⟩ := List.exists_cons_of_ne_nil hy
    exact (abs_nonneg v).trans (hA v (by simp))
  have hB0 : 0 ≤ B := by
    obtain ⟨v, l, rfl⟩ := List.exists_cons_of_ne_nil hdne
    exact (abs_nonneg v).trans (hB v (by simp))
  obtain ⟨δ, hδ⟩ : ∃ δ, δ = passError (2 ^ (-(p : ℤ))) N L S A B mu := ⟨_, rfl⟩
  rw [← hδ] at hS ⊢
  -- the taps of the passes
  obtain ⟨F, hF⟩ : ∃ F : List ℝ → List ℝ, F = fun t => match lmsFfePassR (fl p) conv sumR 0 y d levels mu t with | .ok r => r.2 | .error _ => [] :=
    ⟨_, rfl⟩
  obtain ⟨τ, hτ0, hτ⟩ : ∃ τ : ℕ → List ℝ, τ 0 = t0 ∧ ∀ k, τ (k + 1) = F (τ k) := ⟨fun k => Nat.rec t0 (fun _ => F) k, rfl, fun _ => rfl⟩
  have hpass : ∀ t : List ℝ, t.length = L → ∀ S', tapSize L t ≤ S' → ∃ l t' , lmsFfePassR (fl p) conv sumR 0 y d levels mu t = .ok (l, F t) ∧
      (F t).length = L ∧ (∀ i < L, |(F t).getD i 0 - t'.getD i 0| ≤ passError (2 ^ (-(p : ℤ))) N L S' A B mu) ∧
      gapW (fun i : ℕ => mu / (2 * ((N : ℝ) - i))) L t' z ≤ gapW (fun i : ℕ => mu / (2 * ((N : ℝ) - i))) L t z / Real.sqrt (1 + lam * mu / 2) := by
    intro t htl S' hS'
    obtain ⟨l, t', l', t'', -, h2, -, h3, h4, ⟨o, ho1, ho2, ho3⟩, h5⟩ := pass_error p conv hconv sumR hs 0 y d levels t mu A B S' (by omega) (by omega)
      (by omega) hlv hA hB (by rw [htl]; exact hS') hmu.le
    have hFt : F t = t'' := by rw [hF]; simp only [h2]
    rw [Nat.sub_zero, hN, htl] at h5
    rw [List.drop_zero, List.drop_zero, htl] at ho3
    rw [htl] at ho2
    refine ⟨some l', t', by rw [hFt]; exact h2, by rw [hFt]; omega, by rw [hFt]; exact h5, ?_⟩
    have := step_contracts y d t t' z L mu A lam hL1 (by omega) (by omega) htl (by omega) hz hA hmu hstep hlam.le hmin o ho1 ho2 ho3
    rwa [hN] at this
  have hlen : ∀ k, (τ k).length = L := by
    intro k
    induction k with
    | zero => rw [hτ0, hL0]
    | succ k ih =>
      obtain ⟨l, t', -, h, -⟩ := hpass (τ k) ih _ le_rfl
      rw [hτ]; exact h
  have hrun : ∀ k, lmsFfeTrainR (fl p) conv sumR 0 y d levels mu t0 k = .ok (τ k) := by
    intro k
    induction k with
    | zero => rw [hτ0]; rfl
    | succ k ih =>
      obtain ⟨l, t', h, -⟩ := hpass (τ k) (hlen k) _ le_rfl
      unfold lmsFfeTrainR
      rw [ih]
      show ((lmsFfePassR (fl p) conv sumR 0 y d levels mu (τ k)).bind _) = _
      rw [h, hτ]
      rfl
  -- the weighted distance
  obtain ⟨v, hv⟩ : ∃ v : ℕ → ℝ, v = fun k => gapW (fun i : ℕ => mu / (2 * ((N : ℝ) - i))) L (τ k) z := ⟨_, rfl⟩
  obtain ⟨a, ha⟩ : ∃ a, a = Real.sqrt (2 * N / mu) := ⟨_, rfl⟩
  obtain ⟨b, hb⟩ : ∃ b, b = Real.sqrt (mu / (2 * ((N : ℝ) + 1 - L))) := ⟨_, rfl⟩
  have hab : b * a = Real.sqrt (N / ((N : ℝ) + 1 - L)) := by
    rw [ha, hb, ← Real.sqrt_mul (by positivity)]
    congr 1
    field_simp
  have ha0 : 0 ≤ a := ha ▸ Real.sqrt_nonneg _
  have hb0 : 0 ≤ b := hb ▸ Real.sqrt_nonneg _
  have hδ0 : 0 ≤ δ := by
    rw [hδ]
    unfold passError
    have := near_pow_nonneg hu (N + L + 5)
    positivity
  have hq : 0 < lam * mu / 2 := by positivity
  have hs1 : 1 ≤ Real.sqrt (1 + lam * mu / 2) := by rw [Real.one_le_sqrt]; linarith
  have hM : 2 / (lam * mu / 2) + 2 = 4 / (lam * mu) + 2 := by rw [div_div_eq_mul_div]; norm_num
  have hv0 : v 0 ≤ a * tapGap L t0 z := by
    rw [hv, ha, ← hτ0]; exact gapW_le mu N L hmu hLN (τ 0) z
  have hg0 : 0 ≤ tapGap L t0 z := Real.sqrt_nonneg _
  have hvn : 0 ≤ v 0 := by rw [hv]; exact Real.sqrt_nonneg _
  have hgap : ∀ k, (∀ j < k, v (j + 1) ≤ v j / Real.sqrt (1 + lam * mu / 2) + a * (Real.sqrt L * δ)) →
      tapGap L (τ k) z ≤ b * a * (tapGap L t0 z / Real.sqrt (1 + lam * mu / 2) ^ k + Real.sqrt L * δ * (4 / (lam * mu) + 2)) := by
    intro k hk
    have h1 := drift_bound v (lam * mu / 2) (a * (Real.sqrt L * δ)) hq (by positivity) k hk
    rw [hM] at h1
    have h2 := tapGap_le_gapW mu N L hmu hLN (τ k) z
    rw [← hb] at h2
    have h3 : gapW (fun i : ℕ => mu / (2 * ((N : ℝ) - i))) L (τ k) z = v k := by rw [hv]
    rw [h3] at h2
    have h4 : v 0 / Real.sqrt (1 + lam * mu / 2) ^ k ≤ a * tapGap L t0 z / Real.sqrt (1 + lam * mu / 2) ^ k :=
      div_le_div_of_nonneg_right hv0 (by positivity)
    refine (h2.trans (mul_le_mul_of_nonneg_left (h1.trans (add_le_add h4 le_rfl)) hb0)).trans (le_of_eq ?_)
    ring
  have hdrift : ∀ k, v (k + 1) ≤ v k / Real.sqrt (1 + lam * mu / 2) + a * (Real.sqrt L * δ) := by
    intro k
    induction k using Nat.strong_induction_on with
    | _ k ih =>
      have h1 := hgap k ih
      have h2 : tapSize L (τ k) ≤ S := by
        refine (tapSize_le L (τ k) z).trans (le_trans (add_le_add le_rfl (mul_le_mul_of_nonneg_left ?_ (Real.sqrt_nonneg _))) hS)
        rw [← hab]
        refine h1.trans (mul_le_mul_of_nonneg_left (add_le_add (div_le_self hg0 (one_le_pow₀ hs1)) le_rfl) (by positivity))
      obtain ⟨l, t', -, -, h3, h4⟩ := hpass (τ k) (hlen k) S h2
      rw [← hδ] at h3
      have h5 := gapW_triangle (fun i : ℕ => mu / (2 * ((N : ℝ) - i))) L (by
        intro c hc
        have hc1 : (c : ℝ) + 1 ≤ L := by exact_mod_cast mem_range.1 hc
        have : 0 < (N : ℝ) - c := by linarith
        show 0 < mu / (2 * ((N : ℝ) - c))
        positivity) (F (τ k)) t' z
      have h6 := (gapW_le mu N L hmu hLN (F (τ k)) t').trans (mul_le_mul_of_nonneg_left (tapGap_le_of_abs L _ _ δ hδ0 h3) (Real.sqrt_nonneg _))
      rw [← ha] at h6
      rw [hv]
      show gapW _ L (τ (k + 1)) z ≤ _
      rw [hτ]
      linarith
  refine ⟨τ K, hrun K, hlen K, ?_⟩
  rw [← hab]
  exact hgap K fun j _ => hdrift j

/-- **C130.** Every accuracy is reached and kept, with enough bits and passes. -/
theorem C130_precision (y d levels t0 z : List ℝ) (mu lam A B : ℝ) (L N : ℕ) (hN : y.length = N) (hL0 : t0.length = L) (hL1 : 1 ≤ L)
    (hLN : L ≤ N) (hd : d.length = N) (hlv : levels ≠ []) (hA : ∀ v ∈ y, |v| ≤ A) (hB : ∀ v ∈ d, |v| ≤ B) (hmu : 0 < mu)
    (hstep : mu * (L * A ^ 2) ≤ 2) (hz : z.length = L) (hlam : 0 < lam)
    (hmin : ∀ s : List ℝ, s.length = L → ffeMse y d z + lam * tapGap L s z ^ 2 ≤ ffeMse y d s) (ε : ℝ) (hε : 0 < ε) :
    ∃ p0 K0, ∀ p ≥ p0, ∀ conv sumR, IsConvValid (fl p) conv → IsSum (fl p) sumR → ∀ K ≥ K0,
      ∃ t, lmsFfeTrainR (fl p) conv sumR 0 y d levels mu t0 K = .ok t ∧ tapGap L t z ≤ ε := by
  obtain ⟨κ, hκ⟩ : ∃ κ, κ = Real.sqrt (N / ((N : ℝ) + 1 - L)) := ⟨_, rfl⟩
  have hκ0 : 0 ≤ κ := hκ ▸ Real.sqrt_nonneg _
  have hg0 : 0 ≤ tapGap L t0 z := Real.sqrt_nonneg _
  obtain ⟨S, hS⟩ : ∃ S, S = tapSize L z + Real.sqrt L * (κ * (tapGap L t0 z + 1)) := ⟨_, rfl⟩
  have hS0 : 0 ≤ S := by
    have : 0 ≤ tapSize L z := sum_nonneg fun _ _ => abs_nonneg _
    rw [hS]; positivity
  obtain ⟨η, hη⟩ : ∃ η, η = min 1 (ε / (2 * (κ + 1))) := ⟨_, rfl⟩
  have hη0 : 0 < η := by rw [hη]; exact lt_min one_pos (by positivity)
  have hη1 : η ≤ 1 := hη ▸ min_le_left _ _
  have hη2 : κ * (η + η) ≤ ε := by
    have h1 : η ≤ ε / (2 * (κ + 1)) := hη ▸ min_le_right _ _
    rw [le_div_iff₀ (by positivity)] at h1
    nlinarith
  have hcont : Continuous fun u : ℝ => Real.sqrt L * passError u N L S A B mu * (4 / (lam * mu) + 2) := by
    unfold passError
    fun_prop
  have hlim := (hcont.tendsto 0).comp (tendsto_pow_atTop_nhds_zero_of_lt_one (r := (1 / 2 : ℝ)) (by norm_num) (by norm_num))
  have hz0 : Real.sqrt L * passError 0 N L S A B mu * (4 / (lam * mu) + 2) = 0 := by simp [passError]
  rw [hz0] at hlim
  obtain ⟨p0, hp0⟩ := Filter.eventually_atTop.1 (hlim.eventually (gt_mem_nhds hη0))
  have hs1 : 1 < Real.sqrt (1 + lam * mu / 2) := by
    rw [Real.lt_sqrt (by norm_num)]
    have : 0 < lam * mu / 2 := by positivity
    linarith
  have hlim2 := (tendsto_pow_atTop_nhds_zero_of_lt_one (r := (Real.sqrt (1 + lam * mu / 2))⁻¹) (by positivity) (inv_lt_one_of_one_lt₀ hs1)).const_mul
    (tapGap L t0 z)
  rw [mul_zero] at hlim2
  obtain ⟨K0, hK0⟩ := Filter.eventually_atTop.1 (hlim2.eventually (gt_mem_nhds hη0))
  refine ⟨p0, K0, fun p hp conv sumR hconv hs K hK => ?_⟩
  have h1 : Real.sqrt L * passError (2 ^ (-(p : ℤ))) N L S A B mu * (4 / (lam * mu) + 2) < η := by
    have := hp0 p hp
    have e : (2 : ℝ) ^ (-(p : ℤ)) = (1 / 2) ^ p := by rw [zpow_neg, zpow_natCast, one_div, inv_pow]
    rw [e]
    exact this
  have h2 : tapGap L t0 z / Real.sqrt (1 + lam * mu / 2) ^ K < η := by
    have := hK0 K hK
    rwa [inv_pow, ← div_eq_mul_inv] at this
  obtain ⟨t, e, -, h⟩ := C130_train p conv hconv sumR hs y d levels t0 z mu lam A B S L N hN hL0 hL1 hLN hd hlv hA hB hmu hstep hz hlam hmin hS0 (by
    rw [← hκ]
    refine le_of_le_of_eq ?_ hS.symm
    gcongr
    linarith) K
  refine ⟨t, e, h.trans (le_trans ?_ hη2)⟩
  rw [← hκ]
  exact mul_le_mul_of_nonneg_left (by linarith) hκ0

/-! ### example -/

/-- the mean squared error of two taps on an impulse -/
theorem impulse_mse (a b : ℝ) : ffeMse [1, 0, 0, 0] [1, 1 / 2, 0, 0] [a, b] = ((a - 1) ^ 2 + (b - 1 / 2) ^ 2) / 4 := by
  unfold ffeMse
  simp [sum_range_succ]

theorem impulse_min (s : List ℝ) (hs : s.length = 2) :
    ffeMse [1, 0, 0, 0] [1, 1 / 2, 0, 0] [1, 1 / 2] + 1 / 4 * tapGap 2 s [1, 1 / 2] ^ 2 ≤ ffeMse [1, 0, 0, 0] [1, 1 / 2, 0, 0] s := by
  obtain ⟨a, b, rfl⟩ := List.length_eq_two.1 hs
  unfold tapGap
  rw [Real.sq_sqrt (sum_nonneg fun _ _ => sq_nonneg _), impulse_mse, impulse_mse]
  simp [sum_range_succ]
  linarith

/-- two taps trained from zero in double precision: after any number of passes they are within `(9/8)^(-K/2) · 13/10 + 10^-12` of the
optimum -/
example (conv : List ℝ → List ℝ → List ℝ) (hconv : IsConvValid (fl 53) conv) (sumR : List ℝ → ℝ) (hs : IsSum (fl 53) sumR) (K : ℕ) :
    ∃ t, lmsFfeTrainR (fl 53) conv sumR 0 [1, 0, 0, 0] [1, 1 / 2, 0, 0] [-1, 1] 1 [0, 0] K = .ok t ∧
      tapGap 2 t [1, 1 / 2] ≤ 13 / 10 / Real.sqrt (9 / 8) ^ K + 1 / 10 ^ 12 := by
  have hu : (2 : ℝ) ^ (-((53 : ℕ) : ℤ)) = 1 / 2 ^ 53 := by rw [zpow_neg, zpow_natCast, one_div]
  have hg : tapGap 2 [0, 0] [1, 1 / 2] ≤ 112 / 100 := by
    unfold tapGap
    rw [Real.sqrt_le_left (by norm_num)]
    norm_num [sum_range_succ]
  have hκ : Real.sqrt (((4 : ℕ) : ℝ) / (((4 : ℕ) : ℝ) + 1 - ((2 : ℕ) : ℝ))) ≤ 116 / 100 := by
    rw [Real.sqrt_le_left (by norm_num)]
    norm_num
  have h2 : Real.sqrt ((2 : ℕ) : ℝ) ≤ 3 / 2 := by
    rw [Real.sqrt_le_left (by norm_num)]
    norm_num
  have hP : passError (2 ^ (-((53 : ℕ) : ℤ))) 4 2 5 1 1 1 ≤ 1 / 10 ^ 14 := by
    unfold passError
    rw [hu]
    norm_num
  have hP0 : 0 ≤ passError (2 ^ (-((53 : ℕ) : ℤ))) 4 2 5 1 1 1 := by
    unfold passError
    rw [hu]
    norm_num
  have hg0 : 0 ≤ tapGap 2 [0, 0] [1, 1 / 2] := Real.sqrt_nonneg _
  have hr0 := Real.sqrt_nonneg ((2 : ℕ) : ℝ)
  have hk0 := Real.sqrt_nonneg (((4 : ℕ) : ℝ) / (((4 : ℕ) : ℝ) + 1 - ((2 : ℕ) : ℝ)))
  generalize hPd : passError (2 ^ (-((53 : ℕ) : ℤ))) 4 2 5 1 1 1 = P at hP hP0
  generalize hκd : Real.sqrt (((4 : ℕ) : ℝ) / (((4 : ℕ) : ℝ) + 1 - ((2 : ℕ) : ℝ))) = κ at hκ hk0
  generalize hrd : Real.sqrt ((2 : ℕ) : ℝ) = ρ at h2 hr0
  have hrP : ρ * P * (4 / (1 / 4 * 1) + 2) ≤ 3 / 2 * (1 / 10 ^ 14) * (4 / (1 / 4 * 1) + 2) := by gcongr
  obtain ⟨t, e, -, h⟩ := C130_train 53 conv hconv sumR hs [1, 0, 0, 0] [1, 1 / 2, 0, 0] [-1, 1] [0, 0] [1, 1 / 2] 1 (1 / 4) 1 1 5 2 4 rfl rfl
    (by norm_num) (by norm_num) rfl (by simp) (by norm_num) (by norm_num [abs_le]) one_pos (by norm_num) rfl (by norm_num) impulse_min (by norm_num) (by
      rw [hPd, hκd, hrd]
      have hz : tapSize 2 [1, 1 / 2] = 3 / 2 := by norm_num [tapSize, sum_range_succ]
      rw [hz]
      have : ρ * (κ * (tapGap 2 [0, 0] [1, 1 / 2] + ρ * P * (4 / (1 / 4 * 1) + 2))) ≤ 3 / 2 * (116 / 100 * (112 / 100 + 3 / 2 * (1 / 10 ^ 14) * (4 / (1 / 4 * 1) + 2))) := by
        gcongr
      refine (add_le_add le_rfl this).trans ?_
      norm_num) K
  refine ⟨t, e, h.trans ?_⟩
  rw [hPd, hκd, hrd, show (1 : ℝ) + 1 / 4 * 1 / 2 = 9 / 8 by norm_num]
  have hq : 0 < Real.sqrt (9 / 8) ^ K := by positivity
  generalize Real.sqrt (9 / 8) ^ K = q at hq
  calc κ * (tapGap 2 [0, 0] [1, 1 / 2] / q + ρ * P * (4 / (1 / 4 * 1) + 2))
      ≤ 116 / 100 * (112 / 100 / q + 3 / 2 * (1 / 10 ^ 14) * (4 / (1 / 4 * 1) + 2)) := by gcongr
    _ = 12992 / 10000 / q + 116 / 100 * (3 / 2 * (1 / 10 ^ 14) * (4 / (1 / 4 * 1) + 2)) := by ring
    _ ≤ 13 / 10 / q + 1 / 10 ^ 12 := by
      refine add_le_add (div_le_div_of_nonneg_right (by norm_num) hq.le) (by norm_num)

/-- one pass in double precision with the first sample dropped -/
example (conv : List ℝ → List ℝ → List ℝ) (hconv : IsConvValid (fl 53) conv) (sumR : List ℝ → ℝ) (hs : IsSum (fl 53) sumR) :
    ∃ l t' l' t'', lmsFfePass 1 [1, -1, 1, 1] [-1, 1, 1] [-1, 1] (1 / 10) [9 / 10, 1 / 5] = .ok (some l, t') ∧
      lmsFfePassR (fl 53) conv sumR 1 [1, -1, 1, 1] [-1, 1, 1] [-1, 1] (1 / 10) [9 / 10, 1 / 5] = .ok (some l', t'') ∧
      |l' - l| ≤ 1 / 10 ^ 14 ∧ ∀ i < 2, |t''.getD i 0 - t'.getD i 0| ≤ 1 / 10 ^ 14 := by
  have hu : (2 : ℝ) ^ (-((53 : ℕ) : ℤ)) = 1 / 2 ^ 53 := by rw [zpow_neg, zpow_natCast, one_div]
  have hz : tapSize 2 [9 / 10, 1 / 5] = 11 / 10 := by norm_num [tapSize, sum_range_succ]
  obtain ⟨l, t', l', t'', h1, h2, h3, -, -, h4⟩ := C130_pass 53 conv hconv sumR hs 1 [1, -1, 1, 1] [-1, 1, 1] [-1, 1] [9 / 10, 1 / 5] (1 / 10) 1 1
    (by simp) (by simp) rfl (by simp) (by norm_num) (by norm_num) (by norm_num)
  simp only [List.length_cons, List.length_nil, zero_add, Nat.reduceAdd] at h3 h4
  rw [hz, hu] at h3
  refine ⟨l, t', l', t'', h1, h2, h3.trans ?_, fun i hi => (h4 i hi).trans ?_⟩
  · norm_num [lossError]
  · rw [hz, hu]; norm_num [passError]

end Verif
