import Verif.Props.EqNoise
import Verif.Lemmas.LeastSq

/-! # LMS training of the feed-forward equalizer on noisy records (C113) -/

open MeasureTheory ProbabilityTheory

namespace Verif
open Spec

/-- new value of tap `i` after one pass -/
noncomputable def lmsTap (skip : ℕ) (y d t : List ℝ) (mu : ℝ) (i : ℕ) : ℝ :=
  t.getD i 0 - mu * ((∑ n ∈ Finset.Ico (skip + i) y.length, (tapOut y t n - d.getD (n - skip) 0) * y.getD (n - i) 0)
    / (2 * (y.length - skip - i : ℕ)))

theorem listSig_past (y : List ℝ) (n k : ℕ) : listSig y ((n : ℤ) - k) = pastSample y n k := by
  rw [listSig_sub]; rfl

theorem sum_Ico_nat (f : ℤ → ℝ) (a b : ℕ) : ∑ n ∈ Finset.Ico (a : ℤ) (b : ℤ), f n = ∑ n ∈ Finset.Ico a b, f n := by
  have : Finset.Ico (a : ℤ) (b : ℤ) = (Finset.Ico a b).map Nat.castEmbedding := by
    ext n
    simp only [Finset.mem_Ico, Finset.mem_map, Nat.castEmbedding_apply]
    constructor
    · intro h; exact ⟨n.toNat, by omega, by omega⟩
    · rintro ⟨k, hk, rfl⟩; omega
  rw [this, Finset.sum_map]
  rfl

theorem sum_skip (f : ℕ → ℝ) (a N skip : ℕ) :
    ∑ n ∈ Finset.Ico a (N - skip), f (n + skip) = ∑ n ∈ Finset.Ico (skip + a) N, f n := by
  rw [Finset.sum_Ico_add' f a (N - skip) skip]
  by_cases h : skip ≤ N
  · rw [show N - skip + skip = N by omega, Nat.add_comm a]
  · rw [Finset.Ico_eq_empty (by omega), Finset.Ico_eq_empty (by omega)]

/-- one pass with its loss and its taps written out -/
theorem pass_explicit (skip : ℕ) (y d levels t : List ℝ) (mu : ℝ) (ht : 1 ≤ t.length) (htN : skip + t.length ≤ y.length)
    (hd : d.length = y.length - skip) (hlv : levels ≠ []) :
    ∃ t', lmsFfePass skip y d levels mu t
        = .ok (some ((∑ n ∈ Finset.Ico skip y.length, (tapOut y t n - d.getD (n - skip) 0) ^ 2) / (y.length - skip : ℕ)), t') ∧
      t'.length = t.length ∧ ∀ i < t.length, t'.getD i 0 = lmsTap skip y d t mu i := by
  obtain ⟨t', h1, h2, h3⟩ := C95_pass skip y d levels t mu ht htN hd hlv
  have hsig : ∀ n k : ℕ, listSig y ((n : ℤ) + skip - k) = pastSample y (n + skip) k := by
    intro n k
    rw [← listSig_past]; push_cast; rfl
  have hout : ∀ n : ℕ, ∑ k ∈ Finset.range t.length, t.getD k 0 * listSig y ((n : ℤ) + skip - k) = tapOut y t (n + skip) := by
    intro n
    exact Finset.sum_congr rfl fun k _ => by rw [hsig]
  refine ⟨t', ?_, h2, fun i hi => ?_⟩
  · rw [h1]
    congr 3
    unfold meanLoss
    have e := sum_Ico_nat (fun n => (∑ k ∈ Finset.range t.length, t.getD k 0 * listSig y (n + skip - k) - listSig d n) ^ 2)
      0 (y.length - skip)
    rw [Nat.cast_zero] at e
    rw [e]
    have e2 := sum_skip (fun n => (tapOut y t n - d.getD (n - skip) 0) ^ 2) 0 y.length skip
    rw [Nat.add_zero] at e2
    rw [← e2]
    congr 1
    · refine Finset.sum_congr rfl fun n _ => ?_
      rw [hout, listSig_nat, Nat.add_sub_cancel]
    · rw [Int.card_Ico]; simp
  · obtain ⟨g, hg, hder⟩ := h3 i hi
    have hcard : ((Finset.Ico (i : ℤ) ((y.length - skip : ℕ) : ℤ)).card : ℝ) = (y.length - skip - i : ℕ) := by
      rw [Int.card_Ico]
      congr 1
      omega
    have hpos : (0 : ℝ) < (y.length - skip - i : ℕ) := by
      rw [Nat.cast_pos]; omega
    have hder2 : HasDerivAt (fun v => meanLoss (Finset.Ico (i : ℤ) ((y.length - skip : ℕ) : ℤ)) (fun n =>
        (∑ k ∈ Finset.range t.length, (if k = i then v else t.getD k 0) * listSig y (n + skip - k) - listSig d n) ^ 2))
        ((∑ n ∈ Finset.Ico (i : ℤ) ((y.length - skip : ℕ) : ℤ), 2 * (∑ k ∈ Finset.range t.length,
          t.getD k 0 * listSig y (n + skip - k) - listSig d n) * listSig y (n + skip - i))
          / (Finset.Ico (i : ℤ) ((y.length - skip : ℕ) : ℤ)).card) (t.getD i 0) := by
      unfold meanLoss
      refine HasDerivAt.div_const ?_ _
      refine HasDerivAt.fun_sum fun n _ => ?_
      have e : ∀ v : ℝ, ∑ k ∈ Finset.range t.length, (if k = i then v else t.getD k 0) * listSig y (n + skip - k)
          = (v - t.getD i 0) * listSig y (n + skip - i) + ∑ k ∈ Finset.range t.length, t.getD k 0 * listSig y (n + skip - k) := by
        intro v
        have hm := Finset.mem_range.2 hi
        rw [← Finset.add_sum_erase _ _ hm, ← Finset.add_sum_erase _ (fun k => t.getD k 0 * listSig y (n + skip - k)) hm, if_pos rfl]
        rw [Finset.sum_congr rfl (fun k hk => by rw [if_neg (Finset.ne_of_mem_erase hk)] :
          ∀ k ∈ (Finset.range t.length).erase i, (if k = i then v else t.getD k 0) * listSig y (n + skip - k)
            = t.getD k 0 * listSig y (n + skip - k))]
        ring
      simp only [e]
      obtain ⟨A, hA⟩ : ∃ A, A = ∑ k ∈ Finset.range t.length, t.getD k 0 * listSig y (n + skip - k) := ⟨_, rfl⟩
      obtain ⟨b, hb⟩ : ∃ b, b = listSig y (n + skip - i) := ⟨_, rfl⟩
      rw [← hA, ← hb]
      have hlin : HasDerivAt (fun v => (v - t.getD i 0) * b + A - listSig d n) b (t.getD i 0) := by
        have := ((((hasDerivAt_id (t.getD i 0)).sub_const (t.getD i 0)).mul_const b).add_const A).sub_const (listSig d n)
        simpa using this
      have := hlin.fun_pow 2
      simpa using this
    have hu := hder.unique hder2
    rw [hg]
    unfold lmsTap
    rw [hcard, sum_Ico_nat] at hu
    rw [← sum_skip (fun n => (tapOut y t n - d.getD (n - skip) 0) * y.getD (n - i) 0) i y.length skip]
    have e : ∑ n ∈ Finset.Ico i (y.length - skip), 2 * (∑ k ∈ Finset.range t.length,
          t.getD k 0 * listSig y ((n : ℤ) + skip - k) - listSig d (n : ℤ)) * listSig y ((n : ℤ) + skip - i)
        = 2 * ∑ n ∈ Finset.Ico i (y.length - skip), (tapOut y t (n + skip) - d.getD (n + skip - skip) 0) * y.getD (n + skip - i) 0 := by
      rw [Finset.mul_sum]
      refine Finset.sum_congr rfl fun n hn => ?_
      rw [Finset.mem_Ico] at hn
      rw [hout, listSig_nat, hsig, Nat.add_sub_cancel]
      unfold pastSample
      rw [if_pos (by omega)]
      ring
    rw [e] at hu
    have : g = (∑ n ∈ Finset.Ico i (y.length - skip), (tapOut y t (n + skip) - d.getD (n + skip - skip) 0) * y.getD (n + skip - i) 0)
        / (2 * (y.length - skip - i : ℕ)) := by
      field_simp at hu ⊢
      linarith
    rw [this]
    ring

/-- mean of the squared error of one symbol -/
theorem square_mean {N : ℕ} (c : Fin N → ℝ) (A : ℝ) :
    Integrable (fun z : Fin N → ℝ => (A + ∑ m, c m * z m) ^ 2) (normalDraws N) ∧
      ∫ z, (A + ∑ m, c m * z m) ^ 2 ∂normalDraws N = A ^ 2 + ∑ m, c m ^ 2 := by
  have e : (fun z : Fin N → ℝ => (A + ∑ m, c m * z m) ^ 2)
      = fun z => A ^ 2 + (∑ m, 2 * A * c m * z m + ∑ i, ∑ j, (c i * c j) * (z i * z j)) := by
    funext z
    have : ∑ i, ∑ j, (c i * c j) * (z i * z j) = (∑ m, c m * z m) ^ 2 := by
      rw [pow_two, Finset.sum_mul_sum]
      exact Finset.sum_congr rfl fun i _ => Finset.sum_congr rfl fun j _ => by ring
    rw [this]
    have : ∑ m, 2 * A * c m * z m = 2 * A * ∑ m, c m * z m := by
      rw [Finset.mul_sum]; exact Finset.sum_congr rfl fun i _ => by ring
    rw [this]
    ring
  obtain ⟨q1, q2⟩ := quad_mean (fun i j => c i * c j)
  have i0 : ∀ m : Fin N, Integrable (fun z : Fin N → ℝ => 2 * A * c m * z m) (normalDraws N) :=
    fun m => (one_integrable m).const_mul _
  have i1 : Integrable (fun z : Fin N → ℝ => ∑ m, 2 * A * c m * z m) (normalDraws N) :=
    integrable_finsetSum _ fun m _ => i0 m
  have i2 : Integrable (fun z : Fin N → ℝ => ∑ m, 2 * A * c m * z m + ∑ i, ∑ j, (c i * c j) * (z i * z j)) (normalDraws N) :=
    i1.add q1
  rw [e]
  refine ⟨(integrable_const _).add i2, ?_⟩
  rw [integral_add (integrable_const _) i2, integral_add i1 q1, q2, integral_finsetSum _ fun m _ => i0 m]
  simp only [integral_const_mul, one_moment]
  simp [pow_two]

/-- one tap after a pass on a noisy record, in the mean: the tap after a pass on the record itself, with a leak -/
theorem lmsTap_mean (skip : ℕ) (x d t : List ℝ) (mu s : ℝ) (i : ℕ) (hi : i < t.length) (htN : skip + t.length ≤ x.length)
    (y : (Fin x.length → ℝ) → List ℝ) (hl : ∀ z, (y z).length = x.length)
    (hy : ∀ z (m : Fin x.length), (y z).getD m 0 = x.getD m 0 + s * z m) :
    Integrable (fun z => lmsTap skip (y z) d t mu i) (normalDraws x.length) ∧
      ∫ z, lmsTap skip (y z) d t mu i ∂normalDraws x.length = lmsTap skip x d t mu i - mu * s ^ 2 / 2 * t.getD i 0 := by
  have hterm : ∀ n ∈ Finset.Ico (skip + i) x.length,
      Integrable (fun z => (tapOut (y z) t n - d.getD (n - skip) 0) * (y z).getD (n - i) 0) (normalDraws x.length) ∧
      ∫ z, (tapOut (y z) t n - d.getD (n - skip) 0) * (y z).getD (n - i) 0 ∂normalDraws x.length
        = (tapOut x t n - d.getD (n - skip) 0) * x.getD (n - i) 0 + s ^ 2 * t.getD i 0 := by
    intro n hn
    rw [Finset.mem_Ico] at hn
    have hy' : ∀ z (m : ℕ) (hm : m < x.length), (y z).getD m 0 = x.getD m 0 + s * z ⟨m, hm⟩ := fun z m hm => hy z ⟨m, hm⟩
    have hq : n - i < x.length := by omega
    have e : (fun z => (tapOut (y z) t n - d.getD (n - skip) 0) * (y z).getD (n - i) 0)
        = fun z => (∑ k ∈ Finset.range t.length, t.getD k 0 * (pastSample (y z) n k * (y z).getD (n - i) 0))
          - d.getD (n - skip) 0 * (y z).getD (n - i) 0 := by
      funext z
      rw [sub_mul, tapOut, Finset.sum_mul]
      congr 1
      exact Finset.sum_congr rfl fun k _ => by ring
    have hk : ∀ k, Integrable (fun z => pastSample (y z) n k * (y z).getD (n - i) 0) (normalDraws x.length) ∧
        ∫ z, pastSample (y z) n k * (y z).getD (n - i) 0 ∂normalDraws x.length
          = pastSample x n k * x.getD (n - i) 0 + if k = i then s ^ 2 else 0 := by
      intro k
      by_cases hkn : k ≤ n
      · have e2 : (fun z => pastSample (y z) n k * (y z).getD (n - i) 0)
            = fun z => (x.getD (n - k) 0 + s * z ⟨n - k, by omega⟩) * (x.getD (n - i) 0 + s * z ⟨n - i, hq⟩) := by
          funext z
          unfold pastSample
          rw [if_pos hkn, hy' z (n - k) (by omega), hy' z (n - i) hq]
        rw [e2]
        obtain ⟨p1, p2⟩ := noisy_pair (n := x.length) ⟨n - k, by omega⟩ ⟨n - i, hq⟩ (x.getD (n - k) 0) (x.getD (n - i) 0) s
        refine ⟨p1, ?_⟩
        rw [p2]
        unfold pastSample
        rw [if_pos hkn]
        congr 1
        by_cases hki : k = i
        · rw [if_pos hki, if_pos (by rw [Fin.mk.injEq]; omega)]
        · rw [if_neg hki, if_neg (by rw [Fin.mk.injEq]; omega)]
      · have e2 : ∀ l : List ℝ, pastSample l n k = 0 := fun l => by unfold pastSample; rw [if_neg hkn]
        simp only [e2, zero_mul]
        rw [if_neg (by omega)]
        simp
    have h1 : Integrable (fun z => (y z).getD (n - i) 0) (normalDraws x.length) ∧
        ∫ z, (y z).getD (n - i) 0 ∂normalDraws x.length = x.getD (n - i) 0 := by
      have e2 : (fun z => (y z).getD (n - i) 0) = fun z => x.getD (n - i) 0 + s * z ⟨n - i, hq⟩ := by
        funext z; exact hy' z (n - i) hq
      rw [e2]
      exact noisy_one _ _ _
    have i1 : ∀ k ∈ Finset.range t.length, Integrable (fun z => t.getD k 0 * (pastSample (y z) n k * (y z).getD (n - i) 0))
        (normalDraws x.length) := fun k _ => (hk k).1.const_mul _
    have i2 : Integrable (fun z => ∑ k ∈ Finset.range t.length, t.getD k 0 * (pastSample (y z) n k * (y z).getD (n - i) 0))
        (normalDraws x.length) := integrable_finsetSum _ i1
    have i3 : Integrable (fun z => d.getD (n - skip) 0 * (y z).getD (n - i) 0) (normalDraws x.length) := h1.1.const_mul _
    rw [e]
    refine ⟨i2.sub i3, ?_⟩
    rw [integral_sub i2 i3, integral_finsetSum _ i1, integral_const_mul, h1.2]
    simp only [integral_const_mul, (hk _).2, mul_add, mul_ite, mul_zero]
    rw [Finset.sum_add_distrib, Finset.sum_ite_eq' (Finset.range t.length) i, if_pos (Finset.mem_range.2 hi), sub_mul]
    have e3 : ∑ k ∈ Finset.range t.length, t.getD k 0 * (pastSample x n k * x.getD (n - i) 0) = tapOut x t n * x.getD (n - i) 0 := by
      rw [tapOut, Finset.sum_mul]
      exact Finset.sum_congr rfl fun k _ => by ring
    rw [e3]
    ring
  have e : (fun z => lmsTap skip (y z) d t mu i) = fun z => t.getD i 0 - mu * ((∑ n ∈ Finset.Ico (skip + i) x.length,
      (tapOut (y z) t n - d.getD (n - skip) 0) * (y z).getD (n - i) 0) / (2 * (x.length - skip - i : ℕ))) := by
    funext z
    unfold lmsTap
    rw [hl z]
  have i1 : Integrable (fun z => mu * ((∑ n ∈ Finset.Ico (skip + i) x.length,
      (tapOut (y z) t n - d.getD (n - skip) 0) * (y z).getD (n - i) 0) / (2 * (x.length - skip - i : ℕ)))) (normalDraws x.length) :=
    ((integrable_finsetSum _ fun n hn => (hterm n hn).1).div_const _).const_mul _
  rw [e]
  refine ⟨(integrable_const _).sub i1, ?_⟩
  rw [integral_sub (integrable_const _) i1, integral_const_mul, integral_div, integral_finsetSum _ fun n hn => (hterm n hn).1,
    Finset.sum_congr rfl fun n hn => (hterm n hn).2, Finset.sum_add_distrib, Finset.sum_const, Nat.card_Ico]
  unfold lmsTap
  have hpos : (0 : ℝ) < (x.length - skip - i : ℕ) := by rw [Nat.cast_pos]; omega
  rw [show x.length - (skip + i) = x.length - skip - i by omega, nsmul_eq_mul]
  simp only [integral_const, probReal_univ, one_smul]
  field_simp
  ring

/-- **C113.** One pass of LMS training on a noisy record. In the mean over the noise the loss is that of the pass on the
record itself plus the noise passed by the taps, and every tap ends at its value after the pass on the record itself less
`mu * s^2 / 2` times its old value: noise acts as a leak. -/
theorem C113_pass (skip : ℕ) (x d levels t : List ℝ) (mu snr : ℝ) (ht : 1 ≤ t.length) (htN : skip + t.length ≤ x.length)
    (hx : 2 ≤ x.length) (hd : d.length = x.length - skip) (hlv : levels ≠ []) :
    ∃ s l0 t0, awgnStd x snr = some s ∧ lmsFfePass skip x d levels mu t = .ok (some l0, t0) ∧ t0.length = t.length ∧
      ∃ (l : (Fin x.length → ℝ) → ℝ) (t' : (Fin x.length → ℝ) → List ℝ),
        (∀ z, ∃ y, awgn (List.ofFn z) x snr = some y ∧ lmsFfePass skip y d levels mu t = .ok (some (l z), t' z) ∧
          (t' z).length = t.length) ∧
        Integrable l (normalDraws x.length) ∧
        ∫ z, l z ∂normalDraws x.length = l0 + s ^ 2 * (∑ n ∈ Finset.Ico skip x.length, tapGain t n) / (x.length - skip : ℕ) ∧
        ∀ i < t.length, Integrable (fun z => (t' z).getD i 0) (normalDraws x.length) ∧
          ∫ z, (t' z).getD i 0 ∂normalDraws x.length = t0.getD i 0 - mu * s ^ 2 / 2 * t.getD i 0 := by
  obtain ⟨s, hs1, -, -, h⟩ := noisy_ffe x t snr hx ht
  choose y o h1 h2 h3 h4 h5 h6 using h
  obtain ⟨t0, e1, e2, e3⟩ := pass_explicit skip x d levels t mu ht htN hd hlv
  have hp := fun z => pass_explicit skip (y z) d levels t mu ht (by rw [h2 z]; exact htN) (by rw [h2 z]; exact hd) hlv
  choose t' f1 f2 f3 using hp
  refine ⟨s, _, t0, hs1, e1, e2, _, t', fun z => ⟨y z, h1 z, f1 z, f2 z⟩, ?_⟩
  have hsq : ∀ n ∈ Finset.Ico skip x.length,
      Integrable (fun z => (tapOut (y z) t n - d.getD (n - skip) 0) ^ 2) (normalDraws x.length) ∧
      ∫ z, (tapOut (y z) t n - d.getD (n - skip) 0) ^ 2 ∂normalDraws x.length
        = (tapOut x t n - d.getD (n - skip) 0) ^ 2 + s ^ 2 * tapGain t n := by
    intro n hn
    have hn' := (Finset.mem_Ico.1 hn).2
    have e : (fun z => (tapOut (y z) t n - d.getD (n - skip) 0) ^ 2) = fun z => ((tapOut x t n - d.getD (n - skip) 0)
        + ∑ m : Fin x.length, (s * if (m : ℕ) ≤ n then t.getD (n - m) 0 else 0) * z m) ^ 2 := by
      funext z
      rw [tapOut_noisy x (y z) t s z (h3 z) n hn']
      ring
    rw [e]
    obtain ⟨q1, q2⟩ := square_mean (fun m : Fin x.length => s * if (m : ℕ) ≤ n then t.getD (n - m) 0 else 0)
      (tapOut x t n - d.getD (n - skip) 0)
    refine ⟨q1, ?_⟩
    rw [q2, tapGain_by_sample t x.length n hn' s]
  simp only [h2]
  refine ⟨(integrable_finsetSum _ fun n hn => (hsq n hn).1).div_const _, ?_, fun i hi => ?_⟩
  · rw [integral_div, integral_finsetSum _ fun n hn => (hsq n hn).1, Finset.sum_congr rfl fun n hn => (hsq n hn).2,
      Finset.sum_add_distrib, ← Finset.mul_sum, add_div]
  · have := lmsTap_mean skip x d t mu s i hi htN y h2 h3
    rw [e3 i hi]
    rw [show (fun z => (t' z).getD i 0) = fun z => lmsTap skip (y z) d t mu i from funext fun z => f3 z i hi]
    exact this

/-- share of tap `j` in the new value of tap `i` -/
noncomputable def tapGrip (y : List ℝ) (mu : ℝ) (i j : ℕ) : ℝ :=
  (if j = i then 1 else 0) - mu * ((∑ n ∈ Finset.Ico i y.length, pastSample y n j * y.getD (n - i) 0) / (2 * (y.length - i : ℕ)))

/-- share of the symbols in the new value of tap `i` -/
noncomputable def tapDrive (y d : List ℝ) (mu : ℝ) (i : ℕ) : ℝ :=
  mu * ((∑ n ∈ Finset.Ico i y.length, d.getD n 0 * y.getD (n - i) 0) / (2 * (y.length - i : ℕ)))

theorem lmsTap_affine (y d t : List ℝ) (mu : ℝ) (i : ℕ) (hi : i < t.length) :
    lmsTap 0 y d t mu i = ∑ j ∈ Finset.range t.length, t.getD j 0 * tapGrip y mu i j + tapDrive y d mu i := by
  unfold lmsTap tapGrip tapDrive
  simp only [mul_sub, Finset.sum_sub_distrib, mul_ite, mul_one, mul_zero, Nat.zero_add, Nat.sub_zero]
  rw [Finset.sum_ite_eq' (Finset.range t.length) i, if_pos (Finset.mem_range.2 hi)]
  have e : ∑ n ∈ Finset.Ico i y.length, (tapOut y t n - d.getD n 0) * y.getD (n - i) 0
      = ∑ j ∈ Finset.range t.length, t.getD j 0 * (∑ n ∈ Finset.Ico i y.length, pastSample y n j * y.getD (n - i) 0)
        - ∑ n ∈ Finset.Ico i y.length, d.getD n 0 * y.getD (n - i) 0 := by
    simp only [sub_mul, Finset.sum_sub_distrib, tapOut, Finset.sum_mul, Finset.mul_sum]
    rw [Finset.sum_comm]
    congr 1
    exact Finset.sum_congr rfl fun j _ => Finset.sum_congr rfl fun n _ => by ring
  rw [e, sub_div, mul_sub, Finset.sum_div, Finset.mul_sum]
  have e2 : ∀ j ∈ Finset.range t.length, mu * (t.getD j 0 * (∑ n ∈ Finset.Ico i y.length, pastSample y n j * y.getD (n - i) 0)
      / (2 * (y.length - i : ℕ))) = t.getD j 0 * (mu * ((∑ n ∈ Finset.Ico i y.length, pastSample y n j * y.getD (n - i) 0)
      / (2 * (y.length - i : ℕ)))) := fun j _ => by ring
  rw [Finset.sum_congr rfl e2]
  ring

theorem ofFn_getD' {L : ℕ} (v : Fin L → ℝ) (i : Fin L) : (List.ofFn v).getD i 0 = v i := by
  rw [List.getD_eq_getElem _ _ (by simp)]
  simp

theorem grip_integrable (x d : List ℝ) (L : ℕ) (mu s : ℝ) (htN : L ≤ x.length)
    (y : (Fin x.length → ℝ) → List ℝ) (hl : ∀ z, (y z).length = x.length)
    (hy : ∀ z (m : Fin x.length), (y z).getD m 0 = x.getD m 0 + s * z m) (i : ℕ) (hi : i < L) :
    Integrable (fun z => tapDrive (y z) d mu i) (normalDraws x.length) ∧
    ∀ j < L, Integrable (fun z => tapGrip (y z) mu i j) (normalDraws x.length) := by
  have hm : ∀ v : Fin L → ℝ, Integrable (fun z => ∑ j ∈ Finset.range L, (List.ofFn v).getD j 0 * tapGrip (y z) mu i j
      + tapDrive (y z) d mu i) (normalDraws x.length) := by
    intro v
    have h := (lmsTap_mean 0 x d (List.ofFn v) mu s i (by simpa using hi) (by simpa using htN) y hl hy).1
    have e : (fun z => lmsTap 0 (y z) d (List.ofFn v) mu i) = fun z => ∑ j ∈ Finset.range L, (List.ofFn v).getD j 0
        * tapGrip (y z) mu i j + tapDrive (y z) d mu i := by
      funext z
      rw [lmsTap_affine _ _ _ _ _ (by simpa using hi), List.length_ofFn]
    rwa [e] at h
  have h0 : Integrable (fun z => tapDrive (y z) d mu i) (normalDraws x.length) := by
    have := hm fun _ => 0
    have e : ∀ j, (List.ofFn fun _ : Fin L => (0 : ℝ)).getD j 0 = 0 := by
      intro j
      by_cases hj : j < L
      · exact ofFn_getD' (fun _ : Fin L => (0 : ℝ)) ⟨j, hj⟩
      · exact List.getD_eq_default _ _ (by simp; omega)
    simpa only [e, zero_mul, Finset.sum_const_zero, zero_add] using this
  refine ⟨h0, fun j hj => ?_⟩
  have h1 := (hm fun k => if (k : ℕ) = j then 1 else 0).sub h0
  have e : ∀ k ∈ Finset.range L, (List.ofFn fun k : Fin L => if (k : ℕ) = j then (1 : ℝ) else 0).getD k 0 = if k = j then 1 else 0 := by
    intro k hk
    exact ofFn_getD' (fun k : Fin L => if (k : ℕ) = j then (1 : ℝ) else 0) ⟨k, Finset.mem_range.1 hk⟩
  have e2 : ((fun z => ∑ k ∈ Finset.range L, (List.ofFn fun k : Fin L => if (k : ℕ) = j then (1 : ℝ) else 0).getD k 0
      * tapGrip (y z) mu i k + tapDrive (y z) d mu i) - fun z => tapDrive (y z) d mu i) = fun z => tapGrip (y z) mu i j := by
    funext z
    show ∑ k ∈ Finset.range L, (List.ofFn fun k : Fin L => if (k : ℕ) = j then (1 : ℝ) else 0).getD k 0
      * tapGrip (y z) mu i k + tapDrive (y z) d mu i - tapDrive (y z) d mu i = _
    rw [Finset.sum_congr rfl fun k hk => by rw [e k hk]]
    simp [hj]
  rwa [e2] at h1

/-- one pass with a fresh record does in the mean what it does to the mean taps -/
theorem fresh_pass {Ω : Type} [MeasurableSpace Ω] (ν : Measure Ω) [IsProbabilityMeasure ν] (k : ℕ) (L : ℕ)
    (f : ℕ → (Fin k → Ω) → ℝ) (G : ℕ → Ω → ℝ) (Q : Ω → ℝ)
    (hf : ∀ j < L, Integrable (f j) (Measure.pi fun _ => ν)) (hG : ∀ j < L, Integrable (G j) ν) (hQ : Integrable Q ν) :
    Integrable (fun w : Fin (k + 1) → Ω => ∑ j ∈ Finset.range L, f j (fun i => w i.castSucc) * G j (w (Fin.last k)) + Q (w (Fin.last k)))
      (Measure.pi fun _ => ν) ∧
    ∫ w : Fin (k + 1) → Ω, ∑ j ∈ Finset.range L, f j (fun i => w i.castSucc) * G j (w (Fin.last k)) + Q (w (Fin.last k)) ∂(Measure.pi fun _ => ν)
      = ∫ z, ∑ j ∈ Finset.range L, (∫ u, f j u ∂(Measure.pi fun _ => ν)) * G j z + Q z ∂ν := by
  have hmp := measurePreserving_piFinSuccAbove (fun _ : Fin (k + 1) => ν) (Fin.last k)
  obtain ⟨F, hF⟩ : ∃ F : Ω × (Fin k → Ω) → ℝ, F = fun p => ∑ j ∈ Finset.range L, G j p.1 * f j p.2 + Q p.1 := ⟨_, rfl⟩
  have e : (fun w : Fin (k + 1) → Ω => ∑ j ∈ Finset.range L, f j (fun i => w i.castSucc) * G j (w (Fin.last k)) + Q (w (Fin.last k)))
      = F ∘ (MeasurableEquiv.piFinSuccAbove (fun _ : Fin (k + 1) => Ω) (Fin.last k)) := by
    funext w
    rw [hF]
    have : ∀ j, f j (fun i => w i.castSucc) = f j ((MeasurableEquiv.piFinSuccAbove (fun _ : Fin (k + 1) => Ω) (Fin.last k)) w).2 := by
      intro j
      congr 1
      funext i
      simp [MeasurableEquiv.piFinSuccAbove]
      rfl
    simp only [Function.comp, this]
    congr 1
    exact Finset.sum_congr rfl fun j _ => mul_comm _ _
  have i1 : ∀ j ∈ Finset.range L, Integrable (fun p : Ω × (Fin k → Ω) => G j p.1 * f j p.2) (ν.prod (Measure.pi fun _ => ν)) :=
    fun j hj => (hG j (Finset.mem_range.1 hj)).mul_prod (hf j (Finset.mem_range.1 hj))
  have i2 : Integrable (fun p : Ω × (Fin k → Ω) => Q p.1) (ν.prod (Measure.pi fun _ => ν)) := hQ.comp_fst _
  have iF : Integrable F (ν.prod (Measure.pi fun _ => ν)) := by
    rw [hF]; exact (integrable_finsetSum _ i1).add i2
  rw [e]
  refine ⟨(hmp.integrable_comp_emb (MeasurableEquiv.measurableEmbedding _)).2 iF, ?_⟩
  have h1 : ∫ w, F ((MeasurableEquiv.piFinSuccAbove (fun _ : Fin (k + 1) => Ω) (Fin.last k)) w) ∂(Measure.pi fun _ => ν)
      = ∫ p, F p ∂(ν.prod (Measure.pi fun _ => ν)) := hmp.integral_comp' F
  have e' : ∫ w, (F ∘ (MeasurableEquiv.piFinSuccAbove (fun _ : Fin (k + 1) => Ω) (Fin.last k))) w ∂(Measure.pi fun _ => ν)
      = ∫ p, F p ∂(ν.prod (Measure.pi fun _ => ν)) := h1
  rw [e', hF, integral_add (integrable_finsetSum _ i1) i2, integral_finsetSum _ i1]
  have i3 : ∀ j ∈ Finset.range L, Integrable (fun z => (∫ u, f j u ∂(Measure.pi fun _ => ν)) * G j z) ν :=
    fun j hj => (hG j (Finset.mem_range.1 hj)).const_mul _
  rw [integral_add (integrable_finsetSum _ i3) hQ, integral_finsetSum _ i3]
  congr 1
  · refine Finset.sum_congr rfl fun j _ => ?_
    rw [integral_prod_mul (G j) (f j), integral_const_mul, mul_comm]
  · have := integral_prod_mul (μ := ν) (ν := Measure.pi fun _ : Fin k => ν) Q (fun _ => (1 : ℝ))
    simpa using this

theorem sum_past (x : List ℝ) (e : ℕ → ℝ) (i : ℕ) :
    ∑ n ∈ Finset.Ico i x.length, e n * x.getD (n - i) 0 = ∑ n ∈ Finset.range x.length, e n * pastSample x n i := by
  have : ∑ n ∈ Finset.Ico i x.length, e n * x.getD (n - i) 0 = ∑ n ∈ Finset.Ico i x.length, e n * pastSample x n i := by
    refine Finset.sum_congr rfl fun n hn => ?_
    unfold pastSample
    rw [if_pos (Finset.mem_Ico.1 hn).1]
  rw [this, Finset.range_eq_Ico]
  refine Finset.sum_subset (Finset.Ico_subset_Ico_left (by omega)) fun n hn hn' => ?_
  unfold pastSample
  rw [if_neg (by simp only [Finset.mem_Ico] at hn hn'; omega), mul_zero]

theorem sum_tapGain (t : List ℝ) (N : ℕ) :
    ∑ n ∈ Finset.range N, tapGain t n = ∑ k ∈ Finset.range t.length, ((N - k : ℕ) : ℝ) * t.getD k 0 ^ 2 := by
  unfold tapGain
  rw [Finset.sum_comm]
  refine Finset.sum_congr rfl fun k _ => ?_
  rw [← Finset.sum_filter, Finset.sum_const, nsmul_eq_mul]
  congr 2
  have : (Finset.range N).filter (fun n => k ≤ n) = Finset.Ico k N := by
    ext n; simp only [Finset.mem_filter, Finset.mem_range, Finset.mem_Ico]; omega
  rw [this, Nat.card_Ico]

/-- the normal equations of the mean squared error in noise have a solution -/
theorem wiener_exists (x d : List ℝ) (L : ℕ) (s : ℝ) : ∃ v : List ℝ, v.length = L ∧ ∀ c < L,
    ∑ n ∈ Finset.range x.length, (tapOut x v n - d.getD n 0) * pastSample x n c
      + s ^ 2 * (x.length - c : ℕ) * v.getD c 0 = 0 := by
  obtain ⟨A, hA⟩ : ∃ A : Matrix (Fin (x.length + L)) (Fin L) ℝ, A = fun i j => Fin.addCases (fun n : Fin x.length => pastSample x n j)
      (fun c : Fin L => if c = j then s * Real.sqrt (x.length - c : ℕ) else 0) i := ⟨_, rfl⟩
  obtain ⟨b, hb⟩ : ∃ b : Fin (x.length + L) → ℝ, b = fun i => Fin.addCases (fun n : Fin x.length => d.getD n 0) (fun _ : Fin L => 0) i :=
    ⟨_, rfl⟩
  obtain ⟨v, hv⟩ := normal_solvable A b
  refine ⟨List.ofFn v, by simp, fun c hc => ?_⟩
  have h := congrFun hv ⟨c, hc⟩
  rw [← Matrix.mulVec_mulVec] at h
  have h1 : ∑ i, A i ⟨c, hc⟩ * (∑ j, A i j * v j - b i) = 0 := by
    have : ∑ i, A i ⟨c, hc⟩ * (∑ j, A i j * v j) = ∑ i, A i ⟨c, hc⟩ * b i := h
    simp only [mul_sub, Finset.sum_sub_distrib, this, sub_self]
  rw [Fin.sum_univ_add] at h1
  have e1 : ∀ n : Fin x.length, ∑ j, A (Fin.castAdd L n) j * v j = tapOut x (List.ofFn v) n := by
    intro n
    unfold tapOut
    rw [List.length_ofFn, ← Fin.sum_univ_eq_sum_range (fun k => (List.ofFn v).getD k 0 * pastSample x n k)]
    refine Finset.sum_congr rfl fun j _ => ?_
    rw [ofFn_getD', hA]
    simp [mul_comm]
  have e2 : ∀ k : Fin L, ∑ j, A (Fin.natAdd x.length k) j * v j = s * Real.sqrt (x.length - k : ℕ) * v k := by
    intro k
    rw [Finset.sum_eq_single k]
    · rw [hA]; simp
    · intro j _ hj
      rw [hA]; simp [Ne.symm hj]
    · intro hk; exact absurd (Finset.mem_univ k) hk
  simp only [e1, e2] at h1
  have e3 : ∑ k : Fin L, A (Fin.natAdd x.length k) ⟨c, hc⟩ * (s * Real.sqrt (x.length - k : ℕ) * v k - b (Fin.natAdd x.length k))
      = s ^ 2 * (x.length - c : ℕ) * v ⟨c, hc⟩ := by
    rw [Finset.sum_eq_single ⟨c, hc⟩]
    · rw [hA, hb]
      simp only [Fin.addCases_right, if_true, sub_zero]
      have := Real.mul_self_sqrt (Nat.cast_nonneg (α := ℝ) (x.length - c))
      calc _ = s ^ 2 * (Real.sqrt (x.length - c : ℕ) * Real.sqrt (x.length - c : ℕ)) * v ⟨c, hc⟩ := by ring
        _ = _ := by rw [this]
    · intro j _ hj
      rw [hA]; simp [hj]
    · intro hk; exact absurd (Finset.mem_univ _) hk
  rw [e3] at h1
  have e4 : (List.ofFn v).getD c 0 = v ⟨c, hc⟩ := ofFn_getD' v ⟨c, hc⟩
  rw [e4]
  refine Eq.trans ?_ h1
  congr 1
  rw [← Fin.sum_univ_eq_sum_range (fun n => (tapOut x (List.ofFn v) n - d.getD n 0) * pastSample x n c)]
  refine Finset.sum_congr rfl fun n _ => ?_
  rw [hA, hb]
  simp only [Fin.addCases_left]
  ring

theorem tapOut_sub (x t v : List ℝ) (h : v.length = t.length) (n : ℕ) :
    tapOut x t n - tapOut x v n = ∑ k ∈ Finset.range t.length, (t.getD k 0 - v.getD k 0) * pastSample x n k := by
  unfold tapOut
  rw [h, ← Finset.sum_sub_distrib]
  exact Finset.sum_congr rfl fun k _ => by ring

/-- how far the mean squared error is from its minimum -/
theorem noisyMse_excess (x d v t : List ℝ) (s : ℝ) (hx : 0 < x.length) (hl : t.length = v.length)
    (hv : ∀ c < v.length, ∑ n ∈ Finset.range x.length, (tapOut x v n - d.getD n 0) * pastSample x n c
      + s ^ 2 * (x.length - c : ℕ) * v.getD c 0 = 0) :
    x.length * noisyMse x d t s = x.length * noisyMse x d v s + (∑ n ∈ Finset.range x.length, (tapOut x t n - tapOut x v n) ^ 2
      + s ^ 2 * ∑ c ∈ Finset.range t.length, ((x.length - c : ℕ) : ℝ) * (t.getD c 0 - v.getD c 0) ^ 2) := by
  have hN : (x.length : ℝ) ≠ 0 := by positivity
  unfold noisyMse
  rw [mul_div_cancel₀ _ hN, mul_div_cancel₀ _ hN, Finset.sum_add_distrib, Finset.sum_add_distrib, ← Finset.mul_sum, ← Finset.mul_sum,
    sum_tapGain, sum_tapGain, ← hl]
  have hcross : ∑ n ∈ Finset.range x.length, (tapOut x v n - d.getD n 0) * (tapOut x t n - tapOut x v n)
      = - (s ^ 2 * ∑ c ∈ Finset.range t.length, ((x.length - c : ℕ) : ℝ) * (v.getD c 0 * (t.getD c 0 - v.getD c 0))) := by
    have : ∑ n ∈ Finset.range x.length, (tapOut x v n - d.getD n 0) * (tapOut x t n - tapOut x v n)
        = ∑ c ∈ Finset.range t.length, (t.getD c 0 - v.getD c 0)
          * ∑ n ∈ Finset.range x.length, (tapOut x v n - d.getD n 0) * pastSample x n c := by
      simp only [tapOut_sub x t v hl.symm, Finset.mul_sum]
      rw [Finset.sum_comm]
      exact Finset.sum_congr rfl fun j _ => Finset.sum_congr rfl fun n _ => by ring
    rw [this, Finset.mul_sum, ← Finset.sum_neg_distrib]
    refine Finset.sum_congr rfl fun c hc => ?_
    have := hv c (by rw [← hl]; exact Finset.mem_range.1 hc)
    rw [show ∑ n ∈ Finset.range x.length, (tapOut x v n - d.getD n 0) * pastSample x n c
      = -(s ^ 2 * (x.length - c : ℕ) * v.getD c 0) by linarith]
    ring
  have h1 : ∑ n ∈ Finset.range x.length, (tapOut x t n - d.getD n 0) ^ 2
      = ∑ n ∈ Finset.range x.length, (tapOut x v n - d.getD n 0) ^ 2
        + 2 * ∑ n ∈ Finset.range x.length, (tapOut x v n - d.getD n 0) * (tapOut x t n - tapOut x v n)
        + ∑ n ∈ Finset.range x.length, (tapOut x t n - tapOut x v n) ^ 2 := by
    rw [Finset.mul_sum, ← Finset.sum_add_distrib, ← Finset.sum_add_distrib]
    exact Finset.sum_congr rfl fun n _ => by ring
  have h2 : ∑ c ∈ Finset.range t.length, ((x.length - c : ℕ) : ℝ) * t.getD c 0 ^ 2
      = ∑ c ∈ Finset.range t.length, ((x.length - c : ℕ) : ℝ) * v.getD c 0 ^ 2
        + 2 * ∑ c ∈ Finset.range t.length, ((x.length - c : ℕ) : ℝ) * (v.getD c 0 * (t.getD c 0 - v.getD c 0))
        + ∑ c ∈ Finset.range t.length, ((x.length - c : ℕ) : ℝ) * (t.getD c 0 - v.getD c 0) ^ 2 := by
    rw [Finset.mul_sum, ← Finset.sum_add_distrib, ← Finset.sum_add_distrib]
    exact Finset.sum_congr rfl fun n _ => by ring
  rw [h1, hcross, h2]
  ring

/-- passes with a leak approach the minimum of the mean squared error in noise -/
theorem leaky_geometric (x d v : List ℝ) (s mu A : ℝ) (hmu : 0 < mu) (hvN : v.length ≤ x.length) (hx : 0 < x.length)
    (hA : ∀ u ∈ x, |u| ≤ A) (hstep : mu * (v.length * (A ^ 2 + s ^ 2)) ≤ 2)
    (hv : ∀ c < v.length, ∑ n ∈ Finset.range x.length, (tapOut x v n - d.getD n 0) * pastSample x n c
      + s ^ 2 * (x.length - c : ℕ) * v.getD c 0 = 0)
    (m : ℕ → List ℝ) (hm : ∀ k, (m k).length = v.length)
    (hrec : ∀ k, ∀ i < v.length, (m (k + 1)).getD i 0 = lmsTap 0 x d (m k) mu i - mu * s ^ 2 / 2 * (m k).getD i 0) (K : ℕ) :
    ∑ i ∈ Finset.range v.length, ((x.length - i : ℕ) : ℝ) * ((m K).getD i 0 - v.getD i 0) ^ 2
      ≤ (∑ i ∈ Finset.range v.length, ((x.length - i : ℕ) : ℝ) * ((m 0).getD i 0 - v.getD i 0) ^ 2) / (1 + mu * s ^ 2 / 2) ^ K := by
  obtain ⟨u, hu⟩ : ∃ u : ℕ → ℕ ⊕ ℕ → ℝ, u = fun c => Sum.elim (fun n => pastSample x n c)
      (fun j => if j = c then s * Real.sqrt (x.length - c : ℕ) else 0) := ⟨_, rfl⟩
  obtain ⟨r, hr⟩ : ∃ r : ℕ ⊕ ℕ → ℝ, r = Sum.elim (fun n => d.getD n 0) (fun _ => 0) := ⟨_, rfl⟩
  obtain ⟨T, hT⟩ : ∃ T : Finset (ℕ ⊕ ℕ), T = (Finset.range x.length).disjSum (Finset.range v.length) := ⟨_, rfl⟩
  obtain ⟨w, hw⟩ : ∃ w : ℕ → ℝ, w = fun c => mu / (2 * (x.length - c : ℕ)) := ⟨_, rfl⟩
  have hpos : ∀ c < v.length, (0 : ℝ) < (x.length - c : ℕ) := fun c hc => by rw [Nat.cast_pos]; omega
  have hsq : ∀ c : ℕ, Real.sqrt (x.length - c : ℕ) * Real.sqrt (x.length - c : ℕ) = (x.length - c : ℕ) :=
    fun c => Real.mul_self_sqrt (Nat.cast_nonneg _)
  have eL : ∀ (t : List ℝ) (n : ℕ), t.length = v.length →
      trainErr (Finset.range v.length) u r (fun c => t.getD c 0) (Sum.inl n) = tapOut x t n - d.getD n 0 := by
    intro t n ht
    unfold trainErr tapOut
    rw [hu, hr, ht]
    rfl
  have eR : ∀ (t : List ℝ) (j : ℕ), j < v.length →
      trainErr (Finset.range v.length) u r (fun c => t.getD c 0) (Sum.inr j) = t.getD j 0 * (s * Real.sqrt (x.length - j : ℕ)) := by
    intro t j hj
    unfold trainErr
    rw [hu, hr]
    simp only [Sum.elim_inr, sub_zero, mul_ite, mul_zero]
    rw [Finset.sum_ite_eq (Finset.range v.length) j, if_pos (Finset.mem_range.2 hj)]
  have hSq : ∀ t : List ℝ, t.length = v.length → trainSq (Finset.range v.length) T u r (fun c => t.getD c 0)
      = x.length * noisyMse x d t s := by
    intro t ht
    have hN : (x.length : ℝ) ≠ 0 := by positivity
    unfold trainSq noisyMse
    rw [hT, Finset.sum_disjSum, mul_div_cancel₀ _ hN, Finset.sum_add_distrib, ← Finset.mul_sum, sum_tapGain, ht, Finset.mul_sum]
    congr 1
    · exact Finset.sum_congr rfl fun n _ => by rw [eL t n ht]
    · refine Finset.sum_congr rfl fun j hj => ?_
      rw [eR t j (Finset.mem_range.1 hj)]; linear_combination t.getD j 0 ^ 2 * s ^ 2 * hsq j
  have hCorr : ∀ (t : List ℝ) (c : ℕ), t.length = v.length → c < v.length →
      trainCorr (Finset.range v.length) T u r (fun c => t.getD c 0) c
        = ∑ n ∈ Finset.range x.length, (tapOut x t n - d.getD n 0) * pastSample x n c + s ^ 2 * (x.length - c : ℕ) * t.getD c 0 := by
    intro t c ht hc
    unfold trainCorr
    rw [hT, Finset.sum_disjSum]
    congr 1
    · exact Finset.sum_congr rfl fun n _ => by rw [eL t n ht, hu]; rfl
    · rw [Finset.sum_congr rfl fun j hj => by rw [eR t j (Finset.mem_range.1 hj)]]
      rw [hu]
      simp only [Sum.elim_inr, mul_ite, mul_zero]
      rw [Finset.sum_ite_eq' (Finset.range v.length) c, if_pos (Finset.mem_range.2 hc)]
      linear_combination t.getD c 0 * s ^ 2 * hsq c
  have hwp : ∀ c ∈ Finset.range v.length, 0 < w c := by
    intro c hc
    have := hpos c (Finset.mem_range.1 hc)
    rw [hw]
    positivity
  have hA0 : 0 ≤ A := by
    obtain ⟨a, l, rfl⟩ := List.exists_cons_of_length_pos hx
    exact (abs_nonneg a).trans (hA a (by simp))
  have hL : ∑ c ∈ Finset.range v.length, w c * ∑ n ∈ T, u c n ^ 2 ≤ 1 := by
    have hc : ∀ c ∈ Finset.range v.length, w c * ∑ n ∈ T, u c n ^ 2 ≤ mu / 2 * (A ^ 2 + s ^ 2) := by
      intro c hc
      have hc' := Finset.mem_range.1 hc
      have hp := hpos c hc'
      have e1 : ∑ n ∈ T, u c n ^ 2 ≤ (x.length - c : ℕ) * A ^ 2 + s ^ 2 * (x.length - c : ℕ) := by
        rw [hT, Finset.sum_disjSum, hu]
        simp only [Sum.elim_inl, Sum.elim_inr]
        refine add_le_add ?_ (le_of_eq ?_)
        · have : ∑ n ∈ Finset.range x.length, pastSample x n c ^ 2 = ∑ n ∈ Finset.Ico c x.length, x.getD (n - c) 0 ^ 2 := by
            have := sum_past x (fun n => pastSample x n c) c
            simp only [pow_two]
            rw [← this]
            refine Finset.sum_congr rfl fun n hn => ?_
            unfold pastSample
            rw [if_pos (Finset.mem_Ico.1 hn).1]
          rw [this, ← Nat.card_Ico, ← nsmul_eq_mul]
          refine Finset.sum_le_card_nsmul _ _ _ fun n hn => ?_
          have hn' := Finset.mem_Ico.1 hn
          rw [List.getD_eq_getElem x 0 (by omega), ← sq_abs]
          exact pow_le_pow_left₀ (abs_nonneg _) (hA _ (List.getElem_mem _)) 2
        · have : ∀ j, (if j = c then s * Real.sqrt (x.length - c : ℕ) else 0) ^ 2 = if j = c then s ^ 2 * ((x.length - c : ℕ) : ℝ) else 0 := by
            intro j
            split
            · linear_combination s ^ 2 * hsq c
            · ring
          simp only [this]
          rw [Finset.sum_ite_eq' (Finset.range v.length) c, if_pos hc]
      have e2 : w c * ((x.length - c : ℕ) * A ^ 2 + s ^ 2 * (x.length - c : ℕ)) = mu / 2 * (A ^ 2 + s ^ 2) := by
        rw [hw]
        field_simp
      rw [← e2]
      exact mul_le_mul_of_nonneg_left e1 (hwp c hc).le
    have := Finset.sum_le_card_nsmul _ _ _ hc
    rw [Finset.card_range, nsmul_eq_mul] at this
    linarith
  have hg : ∀ k, trainSq (Finset.range v.length) T u r (fun c => v.getD c 0)
      + mu * s ^ 2 / 2 * ∑ c ∈ Finset.range v.length, ((m k).getD c 0 - v.getD c 0) ^ 2 / w c
        ≤ trainSq (Finset.range v.length) T u r (fun c => (m k).getD c 0) := by
    intro k
    rw [hSq v rfl, hSq (m k) (hm k), noisyMse_excess x d v (m k) s hx (hm k) hv, hm k]
    have e : mu * s ^ 2 / 2 * ∑ c ∈ Finset.range v.length, ((m k).getD c 0 - v.getD c 0) ^ 2 / w c
        = s ^ 2 * ∑ c ∈ Finset.range v.length, ((x.length - c : ℕ) : ℝ) * ((m k).getD c 0 - v.getD c 0) ^ 2 := by
      rw [Finset.mul_sum, Finset.mul_sum]
      refine Finset.sum_congr rfl fun c hc => ?_
      have hp := hpos c (Finset.mem_range.1 hc)
      rw [hw]
      field_simp
    rw [e]
    have := Finset.sum_nonneg fun n (_ : n ∈ Finset.range x.length) => sq_nonneg (tapOut x (m k) n - tapOut x v n)
    linarith
  have hx' : ∀ k, ∀ c ∈ Finset.range v.length, (m (k + 1)).getD c 0 = (m k).getD c 0
      - w c * trainCorr (Finset.range v.length) T u r (fun c => (m k).getD c 0) c := by
    intro k c hc
    have hc' := Finset.mem_range.1 hc
    have hp := hpos c hc'
    rw [hrec k c hc', hCorr (m k) c (hm k) hc']
    unfold lmsTap
    rw [Nat.zero_add]
    have := sum_past x (fun n => tapOut x (m k) n - d.getD n 0) c
    simp only [Nat.sub_zero]
    rw [this, hw]
    field_simp
    ring
  have h := train_geometric (Finset.range v.length) T u r w hwp hL (fun k c => (m k).getD c 0) (fun c => v.getD c 0) hx'
    (mu * s ^ 2 / 2) (by positivity) hg K
  have e : ∀ k, ∑ c ∈ Finset.range v.length, ((m k).getD c 0 - v.getD c 0) ^ 2 / w c
      = 2 / mu * ∑ c ∈ Finset.range v.length, ((x.length - c : ℕ) : ℝ) * ((m k).getD c 0 - v.getD c 0) ^ 2 := by
    intro k
    rw [Finset.mul_sum]
    refine Finset.sum_congr rfl fun c hc => ?_
    have hp := hpos c (Finset.mem_range.1 hc)
    rw [hw]
    field_simp
  rw [e, e, mul_div_assoc] at h
  exact le_of_mul_le_mul_left h (by positivity)

end Verif
