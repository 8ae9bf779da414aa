import Verif.Spec.PsaNoise
import Verif.Lemmas.Psa
import Verif.Props.LeastSqNoise

/-! Helper lemmas for C122: the expectation of one bin of Welch's spectrum in white noise. -/

open MeasureTheory ProbabilityTheory Finset

namespace Verif

/-- the rotation of the transform -/
noncomputable def rotE (N k j : ℕ) : ℂ := Complex.exp (-(2 * Real.pi * Complex.I * (j : ℂ) * (k : ℂ) / (N : ℂ)))

theorem rotE_re (N k j : ℕ) : (rotE N k j).re = Real.cos (2 * Real.pi * j * k / N)
    ∧ (rotE N k j).im = -Real.sin (2 * Real.pi * j * k / N) := by
  have : rotE N k j = Complex.exp (((-(2 * Real.pi * j * k / N) : ℝ) : ℂ) * Complex.I) := by
    unfold rotE; congr 1; push_cast; ring
  rw [this, Complex.exp_ofReal_mul_I_re, Complex.exp_ofReal_mul_I_im, Real.cos_neg, Real.sin_neg]
  exact ⟨rfl, rfl⟩

/-- transform of the window -/
noncomputable def winE (win : List ℂ) (N k n : ℕ) : ℂ := ∑ j ∈ range n, win.getD j 0 * rotE N k j

/-- weight of sample `i` in bin `k` of the segment that starts at `a` -/
noncomputable def binWeight (win : List ℂ) (N k n a i : ℕ) : ℂ :=
  if a ≤ i ∧ i < a + n then win.getD (i - a) 0 * rotE N k (i - a) - winE win N k n / n else 0

theorem sum_block (L a n : ℕ) (h : a + n ≤ L) (g : ℕ → ℂ) :
    ∑ i ∈ range L, (if a ≤ i ∧ i < a + n then g i else 0) = ∑ j ∈ range n, g (a + j) := by
  obtain ⟨m, rfl⟩ := Nat.exists_eq_add_of_le h
  rw [sum_range_add, sum_range_add]
  have h1 : ∑ i ∈ range a, (if a ≤ i ∧ i < a + n then g i else 0) = 0 :=
    sum_eq_zero fun i hi => if_neg (by have := mem_range.mp hi; omega)
  have h2 : ∑ i ∈ range m, (if a ≤ a + n + i ∧ a + n + i < a + n then g (a + n + i) else 0) = 0 :=
    sum_eq_zero fun i hi => if_neg (by omega)
  rw [h1, h2, zero_add, add_zero]
  exact sum_congr rfl fun j hj => if_pos (by have := mem_range.mp hj; omega)

theorem listSum_range {α : Type} [AddCommMonoid α] (n : ℕ) (f : ℕ → α) : ((List.range n).map f).sum = ∑ j ∈ range n, f j := by
  induction n with
  | zero => simp
  | succ n ih => rw [List.range_succ, List.map_append, List.sum_append, ih, sum_range_succ]; simp

theorem dft_seg (win x : List ℂ) (N k n a : ℕ) (hn : 0 < n) (h : a + n ≤ x.length) :
    dftAt N k win (detrend ((x.drop a).take n)) = ∑ i ∈ range x.length, binWeight win N k n a i * x.getD i 0 := by
  have hlen : ((x.drop a).take n).length = n := by simp; omega
  have hget : ∀ j < n, ((x.drop a).take n).getD j 0 = x.getD (a + j) 0 := by
    intro j hj
    rw [List.getD_eq_getElem _ _ (by rw [hlen]; exact hj), List.getD_eq_getElem _ _ (by omega)]
    simp
  have hsum : ((x.drop a).take n).sum = ∑ j ∈ range n, x.getD (a + j) 0 := by
    rw [← sum_range_getD, hlen, listSum_range]
    exact sum_congr rfl fun j hj => hget j (mem_range.mp hj)
  have hdl : (detrend ((x.drop a).take n)).length = n := by simp only [detrend, List.length_map]; exact hlen
  have hdg : ∀ j < n, (detrend ((x.drop a).take n)).getD j 0
      = x.getD (a + j) 0 - (∑ j ∈ range n, x.getD (a + j) 0) / n := by
    intro j hj
    have hjl : j < ((x.drop a).take n).length := by rw [hlen]; exact hj
    have e : (detrend ((x.drop a).take n)).getD j 0
        = ((x.drop a).take n).getD j 0 - ((x.drop a).take n).sum / (((x.drop a).take n).length : ℂ) := by
      unfold detrend
      rw [List.getD_eq_getElem _ _ (by rw [List.length_map]; exact hjl), List.getElem_map, List.getD_eq_getElem _ _ hjl]
    rw [e, hlen, hsum, hget j hj]
  have e1 : dftAt N k win (detrend ((x.drop a).take n))
      = ∑ j ∈ range n, win.getD j 0 * (x.getD (a + j) 0 - (∑ j ∈ range n, x.getD (a + j) 0) / n) * rotE N k j := by
    unfold dftAt
    rw [hdl, listSum_range]
    exact sum_congr rfl fun j hj => by rw [hdg j (mem_range.mp hj)]; rfl
  have e2 : ∑ i ∈ range x.length, binWeight win N k n a i * x.getD i 0
      = ∑ j ∈ range n, (win.getD j 0 * rotE N k j - winE win N k n / n) * x.getD (a + j) 0 := by
    have := sum_block x.length a n h fun i => (win.getD (i - a) 0 * rotE N k (i - a) - winE win N k n / n) * x.getD i 0
    simp only [Nat.add_sub_cancel_left] at this
    rw [← this]
    refine sum_congr rfl fun i _ => ?_
    unfold binWeight
    split <;> simp
  rw [e1, e2]
  have e3 : ∀ j, win.getD j 0 * (x.getD (a + j) 0 - (∑ j ∈ range n, x.getD (a + j) 0) / n) * rotE N k j
      = win.getD j 0 * rotE N k j * x.getD (a + j) 0 - win.getD j 0 * rotE N k j * ((∑ j ∈ range n, x.getD (a + j) 0) / n) :=
    fun j => by ring
  have e4 : ∀ j, (win.getD j 0 * rotE N k j - winE win N k n / n) * x.getD (a + j) 0
      = win.getD j 0 * rotE N k j * x.getD (a + j) 0 - winE win N k n / n * x.getD (a + j) 0 := fun j => by ring
  simp only [e3, e4]
  rw [sum_sub_distrib, sum_sub_distrib, ← sum_mul, ← mul_sum]
  unfold winE
  ring

theorem normSq_rotE (N k j : ℕ) : Complex.normSq (rotE N k j) = 1 := by
  rw [Complex.normSq_apply, (rotE_re N k j).1, (rotE_re N k j).2]
  nlinarith [Real.sin_sq_add_cos_sq (2 * Real.pi * j * k / N)]

theorem winE_re (w : List ℝ) (N k n : ℕ) :
    Complex.normSq (winE (w.map (fun (v : ℝ) => (v : ℂ))) N k n) = windowPower (fun j => w.getD j 0) n N k := by
  have hg : ∀ j, (w.map (fun (v : ℝ) => (v : ℂ))).getD j 0 = ((w.getD j 0 : ℝ) : ℂ) := by
    intro j
    by_cases h : j < w.length
    · rw [List.getD_eq_getElem _ _ (by simpa using h), List.getD_eq_getElem _ _ h, List.getElem_map]
    · rw [List.getD_eq_default _ _ (by simpa using h), List.getD_eq_default _ _ (by omega)]; simp
  unfold winE windowPower
  rw [Complex.normSq_apply, Complex.re_sum, Complex.im_sum]
  have h1 : ∀ j, ((w.map (fun (v : ℝ) => (v : ℂ))).getD j 0 * rotE N k j).re = w.getD j 0 * Real.cos (2 * Real.pi * j * k / N) := by
    intro j; rw [hg, Complex.re_ofReal_mul, (rotE_re N k j).1]
  have h2 : ∀ j, ((w.map (fun (v : ℝ) => (v : ℂ))).getD j 0 * rotE N k j).im = -(w.getD j 0 * Real.sin (2 * Real.pi * j * k / N)) := by
    intro j; rw [hg, Complex.im_ofReal_mul, (rotE_re N k j).2]; ring
  simp only [h1, h2, sum_neg_distrib]
  ring

theorem binWeight_power (w : List ℝ) (N k n a L : ℕ) (hn : 0 < n) (h : a + n ≤ L) :
    ∑ i ∈ range L, Complex.normSq (binWeight (w.map (fun (v : ℝ) => (v : ℂ))) N k n a i)
      = ∑ j ∈ range n, w.getD j 0 ^ 2 - windowPower (fun j => w.getD j 0) n N k / n := by
  have hn' : (n : ℝ) ≠ 0 := by exact_mod_cast hn.ne'
  set win := w.map (fun (v : ℝ) => (v : ℂ)) with hwin
  set W := winE win N k n with hW
  have hg : ∀ j, win.getD j 0 = ((w.getD j 0 : ℝ) : ℂ) := by
    intro j
    by_cases h : j < w.length
    · rw [List.getD_eq_getElem _ _ (by simpa [hwin] using h), List.getD_eq_getElem _ _ h, List.getElem_map]
    · rw [List.getD_eq_default _ _ (by simpa [hwin] using h), List.getD_eq_default _ _ (by omega)]; simp
  have hc : ((∑ i ∈ range L, Complex.normSq (binWeight win N k n a i) : ℝ) : ℂ)
      = ((∑ j ∈ range n, Complex.normSq (win.getD j 0 * rotE N k j - W / n) : ℝ) : ℂ) := by
    have := sum_block L a n h fun i => ((Complex.normSq (win.getD (i - a) 0 * rotE N k (i - a) - W / n) : ℝ) : ℂ)
    simp only [Nat.add_sub_cancel_left] at this
    push_cast
    rw [← this]
    refine sum_congr rfl fun i _ => ?_
    unfold binWeight
    split <;> simp [hW]
  rw [Complex.ofReal_inj.mp hc]
  have hx : ∀ j, Complex.normSq (win.getD j 0 * rotE N k j - W / n)
      = w.getD j 0 ^ 2 + (Complex.normSq W / n ^ 2
        - 2 / n * ((win.getD j 0 * rotE N k j).re * W.re + (win.getD j 0 * rotE N k j).im * W.im)) := by
    intro j
    have h1 : Complex.normSq (win.getD j 0 * rotE N k j) = w.getD j 0 ^ 2 := by
      rw [map_mul, normSq_rotE, hg, Complex.normSq_ofReal]; ring
    have hWn : W / n = ((1 / n : ℝ) : ℂ) * W := by push_cast; field_simp
    rw [← h1, hWn]
    simp only [Complex.normSq_apply, Complex.sub_re, Complex.sub_im, Complex.re_ofReal_mul, Complex.im_ofReal_mul]
    field_simp
    ring
  rw [sum_congr rfl fun j _ => hx j, sum_add_distrib, sum_sub_distrib, ← mul_sum, sum_add_distrib, ← sum_mul, ← sum_mul,
    ← Complex.re_sum, ← Complex.im_sum]
  have hW2 : ∑ j ∈ range n, win.getD j 0 * rotE N k j = W := rfl
  rw [hW2, sum_const, card_range, nsmul_eq_mul, ← winE_re, ← hwin, ← hW, Complex.normSq_apply]
  field_simp
  ring

variable {L : ℕ}

theorem inWhite_getD (s : Fin L → ℂ) (sig : ℝ) (z : Fin L → ℝ) (i : Fin L) :
    (inWhiteNoise s sig z).getD i 0 = s i + ((sig * z i : ℝ) : ℂ) := by
  unfold inWhiteNoise
  rw [List.getD_eq_getElem _ _ (by simp), List.getElem_ofFn]

/-- one bin of one segment -/
theorem seg_mean (w : List ℝ) (N k n a : ℕ) (hn : 0 < n) (h : a + n ≤ L) (s : Fin L → ℂ) (sig : ℝ) :
    Integrable (fun z : Fin L → ℝ => Complex.normSq (dftAt N k (w.map (fun (v : ℝ) => (v : ℂ)))
        (detrend (((inWhiteNoise s sig z).drop a).take n)))) (normalDraws L) ∧
      ∫ z, Complex.normSq (dftAt N k (w.map (fun (v : ℝ) => (v : ℂ))) (detrend (((inWhiteNoise s sig z).drop a).take n)))
          ∂normalDraws L
        = Complex.normSq (dftAt N k (w.map (fun (v : ℝ) => (v : ℂ))) (detrend (((inWhiteNoise s sig 0).drop a).take n)))
          + sig ^ 2 * (∑ j ∈ range n, w.getD j 0 ^ 2 - windowPower (fun j => w.getD j 0) n N k / n) := by
  set win := w.map (fun (v : ℝ) => (v : ℂ)) with hwin
  set c : Fin L → ℂ := fun i => binWeight win N k n a i with hc
  have hlen : ∀ z, (inWhiteNoise s sig z).length = L := fun z => by simp [inWhiteNoise]
  have hd : ∀ z : Fin L → ℝ, dftAt N k win (detrend (((inWhiteNoise s sig z).drop a).take n))
      = ∑ i, c i * s i + ∑ i, c i * ((sig * z i : ℝ) : ℂ) := by
    intro z
    rw [dft_seg win _ N k n a hn (by rw [hlen]; exact h), hlen, sum_range, ← sum_add_distrib]
    exact sum_congr rfl fun i _ => by rw [inWhite_getD, mul_add]
  have h0 : dftAt N k win (detrend (((inWhiteNoise s sig 0).drop a).take n)) = ∑ i, c i * s i := by
    rw [hd]; simp
  rw [h0]
  set D := ∑ i, c i * s i with hD
  have hre : ∀ z : Fin L → ℝ, (∑ i, c i * ((sig * z i : ℝ) : ℂ)).re = ∑ i, sig * (c i).re * z i := by
    intro z; rw [Complex.re_sum]; exact sum_congr rfl fun i _ => by rw [Complex.re_mul_ofReal]; ring
  have him : ∀ z : Fin L → ℝ, (∑ i, c i * ((sig * z i : ℝ) : ℂ)).im = ∑ i, sig * (c i).im * z i := by
    intro z; rw [Complex.im_sum]; exact sum_congr rfl fun i _ => by rw [Complex.im_mul_ofReal]; ring
  have hfun : (fun z : Fin L → ℝ => Complex.normSq (dftAt N k win (detrend (((inWhiteNoise s sig z).drop a).take n))))
      = fun z => (D.re + ∑ i, sig * (c i).re * z i) ^ 2 + (D.im + ∑ i, sig * (c i).im * z i) ^ 2 := by
    funext z
    rw [hd z, Complex.normSq_apply, Complex.add_re, Complex.add_im, hre, him]
    ring
  obtain ⟨i1, m1⟩ := affine_moment D.re fun i => sig * (c i).re
  obtain ⟨i2, m2⟩ := affine_moment D.im fun i => sig * (c i).im
  rw [hfun]
  refine ⟨i1.add i2, ?_⟩
  rw [integral_add i1 i2, m1, m2, ← binWeight_power w N k n a L hn h, sum_range, mul_sum, Complex.normSq_apply]
  have : ∑ i : Fin L, sig ^ 2 * Complex.normSq (binWeight win N k n a i)
      = ∑ i, (sig * (c i).re) ^ 2 + ∑ i, (sig * (c i).im) ^ 2 := by
    rw [← sum_add_distrib]
    exact sum_congr rfl fun i _ => by rw [Complex.normSq_apply]; ring
  rw [this]
  ring

/-- one bin of Welch's spectrum -/
theorem welchBin_mean (w : List ℝ) (N k o : ℕ) (ho : o < w.length) (hL : w.length ≤ L) (hs : w.sum ≠ 0) (one : Bool)
    (s : Fin L → ℂ) (sig : ℝ) :
    Integrable (fun z : Fin L → ℝ => welchBin (inWhiteNoise s sig z) (w.map (fun (v : ℝ) => (v : ℂ))) N o one k) (normalDraws L) ∧
      ∫ z, welchBin (inWhiteNoise s sig z) (w.map (fun (v : ℝ) => (v : ℂ))) N o one k ∂normalDraws L
        = welchBin (inWhiteNoise s sig 0) (w.map (fun (v : ℝ) => (v : ℂ))) N o one k
          + sig ^ 2 * noiseShare (fun j => w.getD j 0) w.length N k * (if one ∧ 0 < k ∧ 2 * k < N then 2 else 1) := by
  set win := w.map (fun (v : ℝ) => (v : ℂ)) with hwin
  have hwl : win.length = w.length := by simp [hwin]
  set n := w.length with hn
  set S := (L - o) / (n - o) with hS
  have hS1 : 1 ≤ S := (Nat.one_le_div_iff (by omega)).mpr (by omega)
  have hlen : ∀ z, (inWhiteNoise s sig z).length = L := fun z => by simp [inWhiteNoise]
  set q : ℝ := if one ∧ 0 < k ∧ 2 * k < N then 2 else 1 with hq
  have hb : ∀ z, welchBin (inWhiteNoise s sig z) win N o one k
      = (∑ t ∈ range S, Complex.normSq (dftAt N k win (detrend (((inWhiteNoise s sig z).drop (t * (n - o))).take n))))
        * (q / Complex.normSq win.sum / S) := by
    intro z
    unfold welchBin welchSegments
    simp only [hlen, hwl, List.map_map, List.length_map, List.length_range, Function.comp_def]
    rw [listSum_range, ← hS, ← hq]
    ring
  have hfit : ∀ t ∈ range S, t * (n - o) + n ≤ L := by
    intro t ht
    have h1 : (t + 1) * (n - o) ≤ S * (n - o) := Nat.mul_le_mul_right _ (mem_range.mp ht)
    have h2 : S * (n - o) ≤ L - o := Nat.div_mul_le_self _ _
    rw [add_mul, one_mul] at h1
    omega
  have hn0 : 0 < n := by omega
  have hm := fun t (ht : t ∈ range S) => seg_mean w N k n (t * (n - o)) hn0 (hfit t ht) s sig
  rw [← hwin] at hm
  have hint := integrable_finsetSum (range S) fun t ht => (hm t ht).1
  have hsum : Complex.normSq win.sum = (∑ j ∈ range n, w.getD j 0) ^ 2 := by
    have h1 : win.sum = ((w.sum : ℝ) : ℂ) := by rw [hwin]; exact (map_list_sum Complex.ofRealHom w).symm
    have h2 : w.sum = ∑ j ∈ range n, w.getD j 0 := by
      rw [← listSum_range]
      congr 1
      apply List.ext_getElem
      · simp [hn]
      · intro i h1 h2; simp [List.getElem?_eq_getElem h1]
    rw [h1, Complex.normSq_ofReal, h2]; ring
  have hz : (∑ j ∈ range n, w.getD j 0) ^ 2 ≠ 0 := by
    rw [← hsum, Ne, Complex.normSq_eq_zero]
    intro h
    have h1 : win.sum = ((w.sum : ℝ) : ℂ) := by rw [hwin]; exact (map_list_sum Complex.ofRealHom w).symm
    rw [h1] at h
    exact hs (by exact_mod_cast h)
  have hS' : (S : ℝ) ≠ 0 := by exact_mod_cast (by omega : S ≠ 0)
  simp only [hb]
  refine ⟨hint.mul_const _, ?_⟩
  rw [integral_mul_const, integral_finsetSum _ fun t ht => (hm t ht).1, sum_congr rfl fun t ht => (hm t ht).2,
    sum_add_distrib, sum_const, card_range, nsmul_eq_mul, hsum]
  unfold noiseShare
  field_simp

end Verif
