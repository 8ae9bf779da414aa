import Verif.Model.RoundedTrain
import Verif.Spec.FloatTrain
import Verif.Props.RoundedStats
import Verif.Props.RoundedRx
import Verif.Props.LmsTrain
import Verif.Lemmas.Noise

/-! One pass of the FFE training loop in rounded arithmetic. -/

open Finset

namespace Verif
open Spec

theorem tapSamples_nat (N i : ℕ) : tapSamples N i = Ico (i : ℤ) N := by
  ext n
  simp only [tapSamples, mem_filter, mem_Ico]
  omega

theorem tapSamples_nat_card (N i : ℕ) (h : i ≤ N) : ((tapSamples N i).card : ℝ) = (N : ℝ) - i := by
  rw [tapSamples_nat, Int.card_Ico]
  have : ((N : ℤ) - i).toNat = N - i := by omega
  rw [this, Nat.cast_sub h]

/-- gradient of a tap of delay `i` for the errors `e` -/
noncomputable def tapGrad (y e : List ℝ) (i : ℕ) : ℝ :=
  1 / 2 * ((∑ n ∈ Ico (i : ℤ) y.length, listSig e n * listSig y (n - i)) / ((y.length : ℝ) - i))

theorem listSig_block (l : List ℝ) : IsBlock (listSig l) l := fun n _ => listSig_nat l n

theorem ddlmsGrad_grads (y o d levels : List ℝ) (L : ℕ) (ho : o.length = y.length) (hd : d.length = y.length) (hlv : levels ≠ [])
    (hL : L ≤ y.length) :
    ∃ out, ddlmsGrad y o levels ((List.range L).map (fun i : ℕ => (i : ℤ))) [] (some d) = .ok out ∧
      out.ffeGrads = (List.range L).map (fun i => some (tapGrad y (List.zipWith (· - ·) o d) i)) ∧
      (0 < y.length → out.value = some (((List.zipWith (· - ·) o d).map (fun v => v ^ 2)).sum / (y.length : ℝ))) := by
  have h := ddlmsGrad_run y o d levels (some d) ((List.range L).map (fun i : ℕ => (i : ℤ))) [] ho ⟨hd.trans ho.symm, Or.inl rfl⟩ hlv
    (by simp)
  refine ⟨_, h, ?_, fun hp => ?_⟩
  swap
  · have hel : ((List.zipWith (· - ·) o d).map (fun v => v ^ 2)).length = y.length := by rw [List.length_map, List.length_zipWith]; omega
    rw [lmsReturn_value, meanOpt, hel, if_neg (by omega)]
  rw [lmsReturn_ffe _ _ _ _ _ (by simp), List.map_map]
  refine List.map_congr_left fun i hi => ?_
  have hi' := List.mem_range.1 hi
  have hel : (List.zipWith (· - ·) o d).length = y.length := by rw [List.length_zipWith]; omega
  show tapMean (1 / 2) y.length (i : ℤ) _ y = _
  rw [tapMean_signals (1 / 2) (i : ℤ) _ y _ _ hel (listSig_block _) (listSig_block y) (by rw [abs_of_nonneg (by omega)]; omega),
    tapSamples_nat_card _ _ (by omega), tapSamples_nat]
  rfl

theorem listSig_abs {l : List ℝ} {B : ℝ} (hB : 0 ≤ B) (h : ∀ v ∈ l, |v| ≤ B) (n : ℤ) : |listSig l n| ≤ B := by
  unfold listSig
  split
  · exact getD_abs_le hB h _
  · rwa [abs_zero]

/-- the gradient is bounded by half the product of the peaks -/
theorem tapGrad_sub_abs (y e e' : List ℝ) (i : ℕ) (hi : i < y.length) (E A : ℝ) (hA : 0 ≤ A) (hy : ∀ v ∈ y, |v| ≤ A)
    (he : ∀ n : ℤ, |listSig e' n - listSig e n| ≤ E) : |tapGrad y e' i - tapGrad y e i| ≤ E * A / 2 := by
  have hE : 0 ≤ E := (abs_nonneg _).trans (he 0)
  have hc : (0 : ℝ) < (y.length : ℝ) - i := by
    have : (i : ℝ) < y.length := by exact_mod_cast hi
    linarith
  unfold tapGrad
  rw [← mul_sub, ← sub_div, ← sum_sub_distrib, abs_mul, abs_of_pos (by norm_num : (0 : ℝ) < 1 / 2), abs_div,
    abs_of_pos hc]
  have h1 : |∑ n ∈ Ico (i : ℤ) y.length, (listSig e' n * listSig y (n - i) - listSig e n * listSig y (n - i))|
      ≤ ∑ n ∈ Ico (i : ℤ) y.length, E * A := by
    refine (abs_sum_le_sum_abs _ _).trans (sum_le_sum fun n _ => ?_)
    rw [← sub_mul, abs_mul]
    exact mul_le_mul (he n) (listSig_abs hA hy _) (abs_nonneg _) hE
  rw [sum_const, Int.card_Ico, nsmul_eq_mul] at h1
  have e1 : ((((y.length : ℤ) - i).toNat : ℕ) : ℝ) = (y.length : ℝ) - i := by
    have : ((y.length : ℤ) - i).toNat = y.length - i := by omega
    rw [this, Nat.cast_sub hi.le]
  rw [e1] at h1
  have h2 : |∑ n ∈ Ico (i : ℤ) y.length, (listSig e' n * listSig y (n - i) - listSig e n * listSig y (n - i))| / ((y.length : ℝ) - i)
      ≤ E * A := by
    rw [div_le_iff₀ hc]; linarith
  linarith

/-- outputs of the equalizer, exact and rounded -/
theorem ffe_outputs (p : ℕ) (conv : List ℝ → List ℝ → List ℝ) (hconv : IsConvValid (fl p) conv) (y t : List ℝ) (ht : 1 ≤ t.length)
    (hy : y ≠ []) (S A : ℝ) (hA0 : 0 ≤ A) (hA : ∀ v ∈ y, |v| ≤ A) (hS : tapSize t.length t ≤ S) :
    ∃ o o', ffeDfe y t none none 1 0 none none = .ok o ∧ ffeR (fl p) conv y t none = .ok o' ∧
      o.signal.length = y.length ∧ o'.signal.length = y.length ∧
      (∀ n : ℕ, n < y.length → o.signal.getD n 0 = ∑ i ∈ range t.length, t.getD i 0 * listSig y ((n : ℤ) - i)) ∧
      (∀ n : ℕ, |o.signal.getD n 0| ≤ S * A) ∧
      ∀ n : ℕ, |o'.signal.getD n 0 - o.signal.getD n 0| ≤ ((1 + 2 ^ (-(p : ℤ))) ^ t.length - 1) * (S * A) := by
  have hN := List.length_pos_of_ne_nil hy
  have hS0 : 0 ≤ S := le_trans (sum_nonneg fun _ _ => abs_nonneg _) hS
  have hg0 := near_pow_nonneg (unit_nonneg p) t.length
  obtain ⟨o, ho, hol, hob⟩ := ffe_signal y t (fun _ => 0) ht hy
  have hval : ∀ n : ℕ, n < y.length → o.signal.getD n 0 = ∑ i ∈ range t.length, t.getD i 0 * listSig y ((n : ℤ) - i) := by
    intro n hn
    rw [← hob n (by omega)]
    unfold equalized
    rw [sum_map, sum_empty, sub_zero]
    exact sum_congr rfl fun i _ => by rw [Nat.castEmbedding_apply, listSig_nat]
  have hbound : ∀ x : ℕ → ℝ, (∀ i, |x i| ≤ A) → ∑ i ∈ range t.length, |t.getD i 0| * |x i| ≤ S * A := by
    intro x hx
    calc _ ≤ ∑ i ∈ range t.length, |t.getD i 0| * A := sum_le_sum fun i _ => mul_le_mul_of_nonneg_left (hx i) (abs_nonneg _)
      _ = tapSize t.length t * A := by unfold tapSize; rw [sum_mul]
      _ ≤ S * A := mul_le_mul_of_nonneg_right hS hA0
  have habs : ∀ n : ℕ, |o.signal.getD n 0| ≤ S * A := by
    intro n
    by_cases hn : n < y.length
    · rw [hval n hn]
      refine (abs_sum_le_sum_abs _ _).trans ?_
      simp_rw [abs_mul]
      exact hbound _ fun i => listSig_abs hA0 hA _
    · rw [getD_of_le _ _ (by omega), abs_zero]; positivity
  by_cases h1 : t.length = 1
  · obtain ⟨f, rfl⟩ := List.length_eq_one_iff.1 h1
    obtain ⟨y1, y2, e1, e2, l1, l2, h⟩ := C118_single_tap p conv y f none none 1 0 none
    have : o = .plain y2 := Except.ok.inj (ho.symm.trans e2)
    subst this
    refine ⟨_, _, ho, e1, hol, l1, hval, habs, fun n => ?_⟩
    by_cases hn : n < y.length
    · refine (h n hn).trans ?_
      rw [h1, pow_one, add_sub_cancel_left]
      exact mul_le_mul_of_nonneg_left (habs n) (unit_nonneg p)
    · show |y1.getD n 0 - y2.getD n 0| ≤ _
      rw [getD_of_le _ _ (by omega), getD_of_le _ _ (by omega), sub_zero, abs_zero]; positivity
  · obtain ⟨y1, y2, zo, e1, e2, l1, l2, h⟩ := C118_ffe p conv hconv y t none (by omega) (by simp) hN none 1 0 none
    have : o = .ffe y2 zo := Except.ok.inj (ho.symm.trans e2)
    subst this
    refine ⟨_, _, ho, e1, hol, l1, hval, habs, fun n => ?_⟩
    by_cases hn : n < y.length
    · refine (h n hn).trans (mul_le_mul_of_nonneg_left ?_ hg0)
      refine hbound _ fun i => ?_
      unfold withPast
      split
      · exact getD_abs_le hA0 hA _
      · simpa using hA0
    · show |y1.getD n 0 - y2.getD n 0| ≤ _
      rw [getD_of_le _ _ (by omega), getD_of_le _ _ (by omega), sub_zero, abs_zero]; positivity

/-- the update of one tap -/
theorem update_error {r : ℝ → ℝ} {u : ℝ} (hu : 0 ≤ u) (hr : ∀ x, |r x - x| ≤ u * |x|) (t g g' mu G X S : ℝ) (hmu : 0 ≤ mu)
    (hg : |g| ≤ X) (hg' : |g' - g| ≤ (G - 1) * X) (hS : |t| ≤ S) :
    |r (t - r (g' * mu)) - (t - g * mu)| ≤ u * S + (G * (1 + u) ^ 2 - 1) * (X * mu) := by
  have h1 : |g' * mu - g * mu| ≤ (G - 1) * (X * mu) := by
    rw [← sub_mul, abs_mul, abs_of_nonneg hmu, ← mul_assoc]
    exact mul_le_mul_of_nonneg_right hg' hmu
  have h2 : |g * mu| ≤ X * mu := by
    rw [abs_mul, abs_of_nonneg hmu]; exact mul_le_mul_of_nonneg_right hg hmu
  generalize hX : X * mu = Z at h1 h2 ⊢
  generalize g * mu = a at h1 h2 ⊢
  generalize g' * mu = b at h1 ⊢
  have h3 : |b| ≤ G * Z := by
    have := abs_sub_abs_le_abs_sub b a
    linarith
  have h4 := hr b
  have h5 := mul_le_mul_of_nonneg_left h3 hu
  have h6 : |r b - a| ≤ (G * (1 + u) - 1) * Z := by
    have := abs_sub_le (r b) b a
    linarith
  have h7 : |t - r b| ≤ S + G * (1 + u) * Z := by
    have q1 := abs_sub t (r b)
    have q2 := abs_sub_abs_le_abs_sub (r b) a
    linarith
  have h8 := hr (t - r b)
  have h9 := mul_le_mul_of_nonneg_left h7 hu
  have h10 := abs_sub_le (r (t - r b)) (t - r b) (t - a)
  have h11 : |t - r b - (t - a)| = |r b - a| := by rw [sub_sub_sub_cancel_left, abs_sub_comm]
  rw [h11] at h10
  have e : u * S + (G * (1 + u) ^ 2 - 1) * Z = u * (S + G * (1 + u) * Z) + (G * (1 + u) - 1) * Z := by ring
  linarith

theorem mse_diff (e e' : List ℝ) (n : ℕ) (hl : e.length = n) (hl' : e'.length = n) (hn : 0 < n) (D E : ℝ)
    (h : ∀ i < n, |e'.getD i 0 - e.getD i 0| ≤ D) (hE : ∀ i < n, |e.getD i 0| ≤ E) :
    |(e'.map (fun v => v ^ 2)).sum / (n : ℝ) - (e.map (fun v => v ^ 2)).sum / n| ≤ D * (D + 2 * E) ∧
      (e'.map (fun v => v ^ 2)).sum / (n : ℝ) ≤ (D + E) ^ 2 := by
  have hn' : (0 : ℝ) < n := by exact_mod_cast hn
  have hs : ∀ l : List ℝ, l.length = n → (l.map (fun v => v ^ 2)).sum = ∑ i ∈ range n, l.getD i 0 ^ 2 := by
    intro l hl
    rw [list_sum_getD', List.length_map, hl]
    exact sum_congr rfl fun i hi => getD_map_lt (fun v : ℝ => v ^ 2) 0 0 l (by rw [hl]; exact mem_range.1 hi)
  rw [hs e hl, hs e' hl']
  constructor
  · rw [← sub_div, ← sum_sub_distrib, abs_div, abs_of_pos hn', div_le_iff₀ hn']
    refine (abs_sum_le_sum_abs _ _).trans ((sum_le_card_nsmul _ _ (D * (D + 2 * E)) fun i hi => ?_).trans (le_of_eq ?_))
    · have h1 := h i (mem_range.1 hi)
      have h2 := hE i (mem_range.1 hi)
      rw [sq_sub_sq, mul_comm, abs_mul]
      refine mul_le_mul h1 ?_ (abs_nonneg _) ((abs_nonneg _).trans h1)
      have h3 : e'.getD i 0 + e.getD i 0 = (e'.getD i 0 - e.getD i 0) + (e.getD i 0 + e.getD i 0) := by ring
      rw [h3]
      have h4 := abs_add_le (e'.getD i 0 - e.getD i 0) (e.getD i 0 + e.getD i 0)
      have h5 := abs_add_le (e.getD i 0) (e.getD i 0)
      linarith
    · rw [card_range, nsmul_eq_mul, mul_comm]
  · rw [div_le_iff₀ hn']
    refine (sum_le_card_nsmul _ _ ((D + E) ^ 2) fun i hi => ?_).trans (le_of_eq (by rw [card_range, nsmul_eq_mul, mul_comm]))
    have h1 := h i (mem_range.1 hi)
    have h2 := hE i (mem_range.1 hi)
    rw [← sq_abs]
    refine pow_le_pow_left₀ (abs_nonneg _) ?_ 2
    have := abs_sub_abs_le_abs_sub (e'.getD i 0) (e.getD i 0)
    linarith

/-- one pass, exact and rounded -/
theorem pass_error (p : ℕ) (conv : List ℝ → List ℝ → List ℝ) (hconv : IsConvValid (fl p) conv) (sumR : List ℝ → ℝ) (hs : IsSum (fl p) sumR)
    (skip : ℕ) (y d levels t : List ℝ) (mu A B S : ℝ) (ht : 1 ≤ t.length) (htN : skip + t.length ≤ y.length)
    (hd : d.length = y.length - skip) (hlv : levels ≠ []) (hA : ∀ v ∈ y, |v| ≤ A) (hB : ∀ v ∈ d, |v| ≤ B) (hS : tapSize t.length t ≤ S)
    (hmu : 0 ≤ mu) :
    ∃ l t' l' t'', lmsFfePass skip y d levels mu t = .ok (some l, t') ∧
      lmsFfePassR (fl p) conv sumR skip y d levels mu t = .ok (some l', t'') ∧
      |l' - l| ≤ lossError (2 ^ (-(p : ℤ))) (y.length - skip) t.length S A B ∧ t'.length = t.length ∧ t''.length = t.length ∧
      (∃ o : List ℝ, o.length = y.length ∧
        (∀ n : ℕ, n < y.length → o.getD n 0 = ∑ i ∈ range t.length, t.getD i 0 * listSig y ((n : ℤ) - i)) ∧
        ∀ i < t.length, t'.getD i 0 = t.getD i 0 - tapGrad (y.drop skip) (List.zipWith (· - ·) (o.drop skip) d) i * mu) ∧
      ∀ i < t.length, |t''.getD i 0 - t'.getD i 0| ≤ passError (2 ^ (-(p : ℤ))) (y.length - skip) t.length S A B mu := by
  have hu := unit_nonneg p
  have hy : y ≠ [] := by rintro rfl; rw [List.length_nil] at htN; omega
  have hA0 : 0 ≤ A := by
    obtain ⟨v, l, rfl⟩ := List.exists_cons_of_ne_nil hy
    exact (abs_nonneg v).trans (hA v (by simp))
  have hdne : d ≠ [] := by rintro rfl; rw [List.length_nil] at hd; omega
  have hB0 : 0 ≤ B := by
    obtain ⟨v, l, rfl⟩ := List.exists_cons_of_ne_nil hdne
    exact (abs_nonneg v).trans (hB v (by simp))
  have hS0 : 0 ≤ S := le_trans (sum_nonneg fun _ _ => abs_nonneg _) hS
  obtain ⟨o, o', ho, ho', hl, hl', hval, habs, hdiff⟩ := ffe_outputs p conv hconv y t ht hy S A hA0 hA hS
  obtain ⟨yy, hyy⟩ : ∃ yy, yy = y.drop skip := ⟨_, rfl⟩
  have hyl : yy.length = y.length - skip := by rw [hyy, List.length_drop]
  have hAy : ∀ v ∈ yy, |v| ≤ A := fun v hv => hA v (by rw [hyy] at hv; exact List.mem_of_mem_drop hv)
  have hol : (o.signal.drop skip).length = yy.length := by rw [List.length_drop, hl, hyl]
  have hol' : (o'.signal.drop skip).length = yy.length := by rw [List.length_drop, hl', hyl]
  obtain ⟨out, g1, g2, v2⟩ := ddlmsGrad_grads yy (o.signal.drop skip) d levels t.length hol (by omega) hlv (by omega)
  obtain ⟨out1, g3, g4, v4⟩ := ddlmsGrad_grads yy (o'.signal.drop skip) d levels t.length hol' (by omega) hlv (by omega)
  have hdrop : ∀ (l : List ℝ) (n : ℕ), (l.drop skip).getD n 0 = l.getD (skip + n) 0 := by
    intro l n; simp [List.getD_eq_getElem?_getD]
  generalize hu' : (2 : ℝ) ^ (-(p : ℤ)) = u at hu hdiff ⊢
  have hQ := near_pow_nonneg hu t.length
  generalize hQd : (1 + u) ^ t.length = Q at hQ hdiff
  have he : ∀ n : ℕ, n < yy.length → |(o'.signal.drop skip).getD n 0 - d.getD n 0| ≤ Q * (S * A) + B := by
    intro n _
    rw [hdrop]
    have q1 := hdiff (skip + n)
    have q2 := habs (skip + n)
    have q3 := getD_abs_le hB0 hB n
    have q4 := abs_sub (o'.signal.getD (skip + n) 0) (d.getD n 0)
    have q5 := abs_sub_abs_le_abs_sub (o'.signal.getD (skip + n) 0) (o.signal.getD (skip + n) 0)
    linarith
  obtain ⟨outR, g5, g7, g6, -⟩ := C129_lms p sumR hs yy (o'.signal.drop skip) levels ((List.range t.length).map (fun i : ℕ => (i : ℤ))) []
    (by simp) (some d) d rfl (Q * (S * A) + B) A B (add_nonneg (mul_nonneg (by linarith) (mul_nonneg hS0 hA0)) hB0) (by rw [hol']; exact he) hAy hB out1 g3
  rw [g4, hu', hyl] at g6
  have hlen6 := g6.length_eq
  rw [List.length_map, List.length_range] at hlen6
  have hgR : ∀ i < t.length, ∃ g', outR.ffeGrads.getD i none = some g' ∧
      |g' - tapGrad yy (List.zipWith (· - ·) (o'.signal.drop skip) d) i|
        ≤ ((1 + u) ^ (y.length - skip + 3) - 1) * ((Q * (S * A) + B) * A / 2) := by
    intro i hi
    have h := g6.get (i := i) (by omega) (by simpa using hi)
    simp only [List.get_eq_getElem, List.getElem_map, List.getElem_range] at h
    generalize hgi : outR.ffeGrads[i] = gi at h
    cases h with
    | some h => exact ⟨_, by rw [List.getD_eq_getElem _ _ (by omega), hgi], h⟩
  have hsig : ∀ n : ℤ, |listSig (List.zipWith (· - ·) (o'.signal.drop skip) d) n - listSig (List.zipWith (· - ·) (o.signal.drop skip) d) n|
      ≤ (Q - 1) * (S * A) := by
    intro n
    unfold listSig
    split
    · by_cases hn : n.toNat < yy.length
      · rw [zipWith_getD _ 0 0 0 _ _ (by omega) (by omega), zipWith_getD _ 0 0 0 _ _ (by omega) (by omega), sub_sub_sub_cancel_right, hdrop,
          hdrop]
        exact hdiff _
      · rw [getD_of_le _ _ (by rw [List.length_zipWith]; omega), getD_of_le _ _ (by rw [List.length_zipWith]; omega), sub_zero, abs_zero]
        positivity
    · rw [sub_zero, abs_zero]; positivity
  have hsig0 : ∀ n : ℤ, |listSig (List.zipWith (· - ·) (o.signal.drop skip) d) n - listSig [] n| ≤ S * A + B := by
    intro n
    have e0 : listSig [] n = 0 := by unfold listSig; simp
    rw [e0, sub_zero]
    unfold listSig
    split
    · by_cases hn : n.toNat < yy.length
      · rw [zipWith_getD _ 0 0 0 _ _ (by omega) (by omega), hdrop]
        have q4 := abs_sub (o.signal.getD (skip + n.toNat) 0) (d.getD n.toNat 0)
        have := habs (skip + n.toNat)
        have := getD_abs_le hB0 hB n.toNat
        linarith
      · rw [getD_of_le _ _ (by rw [List.length_zipWith]; omega), abs_zero]
        positivity
    · rw [abs_zero]; positivity
  have hyp : 0 < yy.length := by omega
  rw [v4 hyp, hu', hol', hyl] at g7
  have v2 := v2 hyp
  have hin : ∀ n : ℕ, ∀ l : List ℝ, listSig l n = l.getD n 0 := fun n l => listSig_nat l n
  obtain ⟨m1, m2⟩ := mse_diff (List.zipWith (· - ·) (o.signal.drop skip) d) (List.zipWith (· - ·) (o'.signal.drop skip) d) yy.length
    (by rw [List.length_zipWith]; omega) (by rw [List.length_zipWith]; omega) hyp ((Q - 1) * (S * A)) (S * A + B)
    (fun i _ => by have := hsig i; rwa [hin, hin] at this)
    (fun i _ => by
      have := hsig0 i
      rw [hin, hin] at this
      simpa using this)
  obtain ⟨lR, hlR, hl3⟩ : ∃ lR, outR.value = some lR ∧ |lR - (((List.zipWith (· - ·) (o'.signal.drop skip) d).map (fun v => v ^ 2)).sum / (yy.length : ℝ))|
      ≤ ((1 + u) ^ (y.length - skip + 3) - 1) * (((List.zipWith (· - ·) (o'.signal.drop skip) d).map (fun v => v ^ 2)).sum / (yy.length : ℝ)) := by
    generalize hov : outR.value = ov at g7
    cases g7 with
    | some h => exact ⟨_, rfl, by rw [hyl]; exact h⟩
  have hloss : |lR - (((List.zipWith (· - ·) (o.signal.drop skip) d).map (fun v => v ^ 2)).sum / (yy.length : ℝ))|
      ≤ lossError u (y.length - skip) t.length S A B := by
    have hP := near_pow_nonneg hu (y.length - skip + 3)
    have hexp : (1 + u) ^ (y.length - skip + 2 * t.length + 3) = (1 + u) ^ (y.length - skip + 3) * Q ^ 2 := by
      rw [← hQd, ← pow_mul, ← pow_add]
      congr 1
      omega
    unfold lossError
    rw [hexp]
    generalize (1 + u) ^ (y.length - skip + 3) = P at hl3 hP ⊢
    generalize ((List.zipWith (· - ·) (o'.signal.drop skip) d).map (fun v => v ^ 2)).sum / (yy.length : ℝ) = x1 at hl3 m1 m2
    generalize ((List.zipWith (· - ·) (o.signal.drop skip) d).map (fun v => v ^ 2)).sum / (yy.length : ℝ) = x0 at m1 ⊢
    have hSA : 0 ≤ S * A := mul_nonneg hS0 hA0
    generalize S * A = a at hSA m1 m2 ⊢
    have q1 := abs_sub_le lR x1 x0
    have q2 := mul_le_mul_of_nonneg_left m2 hP
    have q3 : ((Q - 1) * a + (a + B)) ^ 2 ≤ (Q * (a + B)) ^ 2 := by
      refine pow_le_pow_left₀ (by positivity) ?_ 2
      nlinarith [mul_nonneg hQ hB0]
    have q4 := mul_le_mul_of_nonneg_left q3 (by linarith : 0 ≤ P)
    have e : (P * Q ^ 2 - 1) * (a + B) ^ 2 = P * (Q * (a + B)) ^ 2 - (a + B) ^ 2 := by ring
    have e2 : (Q - 1) * a * ((Q - 1) * a + 2 * (a + B)) = ((Q - 1) * a + (a + B)) ^ 2 - (a + B) ^ 2 := by ring
    rw [e]
    rw [e2] at m1
    linarith
  refine ⟨((List.zipWith (· - ·) (o.signal.drop skip) d).map (fun v => v ^ 2)).sum / (yy.length : ℝ), List.zipWith (fun t g => t - g.getD 0 * mu) t out.ffeGrads, lR,
    List.zipWith (fun t g => fl p (t - fl p (g.getD 0 * mu))) t outR.ffeGrads, ?_, ?_, hloss, ?_, ?_, ⟨o.signal, hl, hval, ?_⟩, ?_⟩
  · unfold lmsFfePass
    rw [ho]
    show ((ddlmsGrad (y.drop skip) (o.signal.drop skip) levels _ [] (some d)).bind _) = _
    rw [← hyy, g1, ← v2]
    rfl
  · unfold lmsFfePassR
    rw [ho']
    show ((ddlmsGradR (fl p) sumR (y.drop skip) (o'.signal.drop skip) levels _ [] (some d)).bind _) = _
    rw [← hyy, g5, ← hlR]
    rfl
  · rw [List.length_zipWith, g2]; simp
  · rw [List.length_zipWith, hlen6, min_self]
  · intro i hi
    rw [zipWith_getD _ 0 none 0 _ _ hi (by rw [g2]; simpa using hi), g2, getD_map_lt _ 0 none _ (by simpa using hi),
      List.getD_eq_getElem _ _ (by simpa using hi : i < (List.range t.length).length), List.getElem_range, ← hyy]
    rfl
  · intro i hi
    obtain ⟨g', e1, h1⟩ := hgR i hi
    rw [zipWith_getD _ 0 none 0 _ _ hi (by omega), zipWith_getD _ 0 none 0 _ _ hi (by rw [g2]; simpa using hi), g2,
      getD_map_lt _ 0 none _ (by simpa using hi), List.getD_eq_getElem _ _ (by simpa using hi : i < (List.range t.length).length),
      List.getElem_range, e1, Option.getD_some, Option.getD_some]
    have h2 := tapGrad_sub_abs yy _ _ i (by omega) _ A hA0 hAy hsig
    have h3 := tapGrad_sub_abs yy _ _ i (by omega) _ A hA0 hAy hsig0
    have e0 : tapGrad yy [] i = 0 := by
      unfold tapGrad
      rw [sum_eq_zero (fun n _ => by unfold listSig; simp), zero_div, mul_zero]
    rw [e0, sub_zero] at h3
    generalize tapGrad yy (List.zipWith (· - ·) (o'.signal.drop skip) d) i = b at h1 h2
    generalize tapGrad yy (List.zipWith (· - ·) (o.signal.drop skip) d) i = a at h2 h3 ⊢
    have hP := near_pow_nonneg hu (y.length - skip + 3)
    have hexp : (1 + u) ^ (y.length - skip + t.length + 5) = (1 + u) ^ (y.length - skip + 3) * Q * (1 + u) ^ 2 := by
      rw [← hQd, ← pow_add, ← pow_add]
      congr 1
      omega
    unfold passError
    rw [hexp]
    generalize (1 + u) ^ (y.length - skip + 3) = P at h1 hP ⊢
    have h4 : |g' - a| ≤ (P * Q - 1) * ((S * A + B) * A / 2) := by
      have q1 := abs_sub_le g' b a
      have q2 : 0 ≤ P * (Q - 1) * (B * A / 2) := by
        have : 0 ≤ P := by linarith
        positivity
      nlinarith
    have hti : |t.getD i 0| ≤ S := le_trans (single_le_sum (f := fun i => |t.getD i 0|) (fun _ _ => abs_nonneg _) (mem_range.2 hi)) hS
    have hr : ∀ x, |fl p x - x| ≤ u * |x| := by rw [← hu']; exact fl_error p
    have h5 := update_error hu hr (t.getD i 0) a g' mu (P * Q) _ S hmu h3 h4 hti
    refine h5.trans (le_of_eq ?_)
    ring

end Verif
