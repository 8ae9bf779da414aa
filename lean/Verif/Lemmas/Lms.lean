import Mathlib.Analysis.Calculus.Deriv.Add
import Mathlib.Analysis.Calculus.Deriv.Mul
import Mathlib.Analysis.Calculus.Deriv.Pow
import Mathlib.Analysis.SpecialFunctions.Log.Deriv
import Mathlib.Analysis.SpecialFunctions.ExpDeriv
import Verif.Model.Lms
import Verif.Spec.Lms
import Verif.Spec.Framing
import Verif.Lemmas.ConvEnc
import Verif.Lemmas.Mapping
import Verif.Lemmas.Slicer

/-! Lemmas for the LMS gradients and the Mueller-Muller detector. -/

open Finset

set_option linter.unusedSectionVars false

namespace Verif
open Verif.Spec

theorem arangeZ_nodup (lo hi : Int) : (arangeZ lo hi).Nodup := by
  unfold arangeZ
  exact (List.nodup_range).map (fun a b h => by simpa using h)

theorem mem_arangeZ (lo hi x : Int) : x ∈ arangeZ lo hi ↔ lo ≤ x ∧ x < hi := by
  unfold arangeZ
  simp only [List.mem_map, List.mem_range]
  constructor
  · rintro ⟨k, hk, rfl⟩; omega
  · intro h; exact ⟨(x - lo).toNat, by omega, by omega⟩

theorem arangeZ_tap (N : ℕ) (i : ℤ) : (arangeZ (max 0 i) (min N (N + i))).toFinset = tapSamples N i := by
  ext x
  simp only [List.mem_toFinset, mem_arangeZ, tapSamples, mem_filter, mem_Ico]
  omega

theorem arangeZ_tap_pos (N : ℕ) (i : ℤ) (h : 0 ≤ i) : (arangeZ i N).toFinset = tapSamples N i := by
  ext x
  simp only [List.mem_toFinset, mem_arangeZ, tapSamples, mem_filter, mem_Ico]
  omega

theorem tapSamples_empty (N : ℕ) (i : ℤ) : tapSamples N i = ∅ ↔ (N : ℤ) ≤ |i| := by
  rw [eq_empty_iff_forall_notMem]
  simp only [tapSamples, mem_filter, mem_Ico]
  constructor
  · intro h
    have := h (max 0 i)
    rcases abs_cases i with ⟨h1, _⟩ | ⟨h1, _⟩ <;> omega
  · intro h x
    rcases abs_cases i with ⟨h1, _⟩ | ⟨h1, _⟩ <;> omega

section
variable {K : Type} [Field K]

/-- the scaled mean of the products `e n * y (n - i)` over the samples the tap sees -/
noncomputable def tapMean (c : K) (N : ℕ) (i : ℤ) (e y : List K) : Option K :=
  if (N : ℤ) ≤ |i| then none
  else some (c * ((∑ n ∈ tapSamples N i, e.getD n.toNat 0 * y.getD (n - i).toNat 0) / ((tapSamples N i).card : K)))

theorem masked_mean (c : K) (N : ℕ) (i : ℤ) (e y : List K) (mask : List Int) (hn : mask.Nodup)
    (hm : mask.toFinset = tapSamples N i) (he : e.length = N) (hy : y.length = N) :
    (do
      let a ← npTake e mask
      let b ← npTake y (mask.map (· - i))
      return (meanOpt (List.zipWith (· * ·) a b)).map (fun m => c * m) : Py (Option K)) = .ok (tapMean c N i e y) := by
  have hmem : ∀ x ∈ mask, 0 ≤ x ∧ x < N ∧ 0 ≤ x - i ∧ x - i < N := by
    intro x hx
    have := List.mem_toFinset.2 hx
    rw [hm] at this
    simp only [tapSamples, mem_filter, mem_Ico] at this
    omega
  rw [npTake_ok e mask (fun x => e.getD x.toNat 0)
    (fun x hx => npGet_valid e 0 x (hmem x hx).1 (by rw [he]; exact (hmem x hx).2.1))]
  rw [npTake_ok y (mask.map (· - i)) (fun x => y.getD x.toNat 0) (by
    intro x hx
    obtain ⟨z, hz, rfl⟩ := List.mem_map.1 hx
    exact npGet_valid y 0 _ (hmem z hz).2.2.1 (by rw [hy]; exact (hmem z hz).2.2.2))]
  show Except.ok _ = Except.ok _
  congr 1
  have hz : List.zipWith (· * ·) (mask.map (fun x => e.getD x.toNat 0))
      ((mask.map (· - i)).map (fun x => y.getD x.toNat 0))
      = mask.map (fun n => e.getD n.toNat 0 * y.getD (n - i).toNat 0) := by
    rw [List.map_map, List.zipWith_map]
    clear hmem hn hm
    induction mask with
    | nil => rfl
    | cons a l ih => rw [List.zipWith_cons_cons, List.map_cons, ih]; rfl
  rw [hz]
  have hcard : (tapSamples N i).card = mask.length := by
    rw [← hm, List.toFinset_card_of_nodup hn]
  unfold meanOpt tapMean
  rw [List.length_map, ← hcard]
  by_cases h : (N : ℤ) ≤ |i|
  · rw [if_pos h, if_pos (by rw [(tapSamples_empty N i).2 h]; rfl)]; rfl
  · rw [if_neg h, if_neg (by rw [card_eq_zero, tapSamples_empty]; exact h), Option.map_some,
      ← List.sum_toFinset _ hn, hm]

theorem ffeTapGrad_eq (y e : List K) (i : ℤ) (h : e.length = y.length) :
    ffeTapGrad y e i = .ok (tapMean (1 / 2) y.length i e y) :=
  masked_mean (1 / 2) y.length i e y _ (arangeZ_nodup _ _) (arangeZ_tap _ _) h rfl

theorem dfeTapGrad_eq (N : ℕ) (d e : List K) (j : ℤ) (he : e.length = N) (hd : d.length = N) (hj : 0 ≤ j) :
    dfeTapGrad N d e j = .ok (tapMean (-1 / 2) N j e d) :=
  masked_mean (-1 / 2) N j e d _ (arangeZ_nodup _ _) (arangeZ_tap_pos _ _ hj) he hd

theorem dfeTapGrad_negative (N : ℕ) (d e : List K) (j : ℤ) (he : e.length = N) (hd : d.length = N) (hj : j < 0) :
    dfeTapGrad N d e j = .error .indexError := by
  unfold dfeTapGrad
  have hb : npTake d ((arangeZ j N).map (· - j)) = .error .indexError := by
    apply npTake_error
    refine ⟨(N : ℤ) - 1 - j, List.mem_map.2 ⟨N - 1, (mem_arangeZ _ _ _).2 (by omega), rfl⟩, ?_⟩
    unfold npGet
    rw [if_pos (by omega)]
    have : d[((N : ℤ) - 1 - j).toNat]? = none := by
      rw [List.getElem?_eq_none_iff]; omega
    rw [this]
  rcases ha : npTake e (arangeZ j N) with err | a
  · have : err = .indexError := by
      clear hb
      unfold npTake at ha
      generalize arangeZ j N = l at ha
      induction l generalizing err with
      | nil => cases ha
      | cons x l ih =>
        rw [List.mapM_cons] at ha
        rcases hx : npGet e x with e1 | v
        · rw [hx] at ha
          have h1 : e1 = err := by cases ha; rfl
          rw [← h1]
          unfold npGet at hx
          split at hx
          · split at hx <;> cases hx; rfl
          · split at hx
            · split at hx <;> cases hx; rfl
            · cases hx; rfl
        · rw [hx] at ha
          rcases hl : List.mapM (npGet e) l with e2 | w
          · rw [hl] at ha
            have h1 : e2 = err := by cases ha; rfl
            rw [← h1]; exact ih e2 hl
          · rw [hl] at ha; cases ha
    simp only [ha, this]; rfl
  · simp only [ha, hb]; rfl

theorem lmsReturn_value (l : Option K) (gf gd : List (Option K)) (a b : ℕ) : (lmsReturn l gf gd a b).value = l := by
  unfold lmsReturn; split
  · rfl
  · split
    · rfl
    · split <;> rfl

theorem lmsReturn_ffe (l : Option K) (gf gd : List (Option K)) (a b : ℕ) (h : gf.length = a) :
    (lmsReturn l gf gd a b).ffeGrads = gf := by
  unfold lmsReturn; split
  · next h1 => rw [List.eq_nil_of_length_eq_zero (h.trans h1.1)]; rfl
  · split
    · next h1 => rw [List.eq_nil_of_length_eq_zero (h.trans h1)]; rfl
    · split <;> rfl

theorem lmsReturn_dfe (l : Option K) (gf gd : List (Option K)) (a b : ℕ) (h : gd.length = b) :
    (lmsReturn l gf gd a b).dfeGrads = gd := by
  unfold lmsReturn; split
  · next h1 => rw [List.eq_nil_of_length_eq_zero (h.trans h1.2)]; rfl
  · split
    · rfl
    · split
      · next h1 => rw [List.eq_nil_of_length_eq_zero (h.trans h1)]; rfl
      · rfl

theorem computeDerivatives_eq (y d e : List K) (fi di : List Int) (he : e.length = y.length)
    (hd : d.length = y.length) (hdi : ∀ j ∈ di, 0 ≤ j) :
    computeDerivatives y d fi di e = .ok (fi.map (fun i => tapMean (1 / 2) y.length i e y),
      di.map (fun j => tapMean (-1 / 2) y.length j e d)) := by
  unfold computeDerivatives
  rw [mapM_okP _ _ fi (fun i _ => ffeTapGrad_eq y e i he),
    mapM_okP _ _ di (fun j hj => dfeTapGrad_eq y.length d e j he hd (hdi j hj))]
  rfl

theorem computeDerivatives_negative (y d e : List K) (fi di : List Int) (he : e.length = y.length)
    (hd : d.length = y.length) (hdi : ∃ j ∈ di, j < 0) :
    computeDerivatives y d fi di e = .error .indexError := by
  unfold computeDerivatives
  rw [mapM_okP _ _ fi (fun i _ => ffeTapGrad_eq y e i he)]
  have : di.mapM (dfeTapGrad (y.length : ℤ) d e) = .error .indexError := by
    induction di with
    | nil => simp at hdi
    | cons j l ih =>
      rw [List.mapM_cons]
      by_cases hj : j < 0
      · rw [dfeTapGrad_negative y.length d e j he hd hj]; rfl
      · rw [dfeTapGrad_eq y.length d e j he hd (by omega)]
        obtain ⟨z, hz, hz0⟩ := hdi
        rcases List.mem_cons.1 hz with rfl | hz
        · exact absurd hz0 hj
        · rw [ih ⟨z, hz, hz0⟩]; rfl
  show ((di.mapM (dfeTapGrad (y.length : ℤ) d e)).bind _) = _
  rw [this]; rfl

end

section
variable {K : Type} [Field K] [LinearOrder K] [IsStrictOrderedRing K]

theorem lms_nearest_unique (levels : List K) (x y z : K) (hy : NearestFirst levels x y) (hz : NearestFirst levels x z) :
    y = z := by
  obtain ⟨i, hi, ey, hy1, hy2⟩ := hy
  obtain ⟨j, hj, ez, hz1, hz2⟩ := hz
  rcases lt_trichotomy i j with h | h | h
  · have := hz2 i h
    rw [← ey] at this
    exact absurd (hy1 z (ez ▸ List.getElem_mem hj)) (not_le.2 this)
  · subst h; rw [ey, ez]
  · have := hy2 j h
    rw [← ez] at this
    exact absurd (hz1 y (ey ▸ List.getElem_mem hi)) (not_le.2 this)

theorem lmsReference_eq (levels o d : List K) (ref : Option (List K)) (check : Bool) (h : IsReference levels o ref d)
    (hne : levels = [] → ref ≠ none) :
    lmsReference o levels ref check = .ok d := by
  obtain ⟨hl, h | ⟨h, hn⟩⟩ := h
  · subst h
    unfold lmsReference
    simp [hl]
  · subst h
    have hlv : levels ≠ [] := fun e => hne e rfl
    unfold lmsReference
    simp only []
    rw [if_neg (by rw [List.length_eq_zero_iff]; exact hlv)]
    congr 1
    apply ext_getD 0 (by simp [hl])
    intro n hn'
    rw [List.length_map] at hn'
    rw [getD_map_lt _ 0 0 _ hn']
    exact lms_nearest_unique levels _ _ _ (sliceOne_spec levels hlv _) (hn n hn')

end

/-! ### Derivatives -/

theorem deriv_meanLoss (S : Finset ℤ) (φ : ℤ → ℝ → ℝ) (φ' x y : ℤ → ℝ) (c : ℝ)
    (h : ∀ n ∈ S, HasDerivAt (φ n) (φ' n) (x n)) :
    HasDerivAt (fun t => meanLoss S (fun n => φ n (x n + (t - c) * y n))) ((∑ n ∈ S, φ' n * y n) / S.card) c := by
  unfold meanLoss
  apply HasDerivAt.div_const
  apply HasDerivAt.fun_sum
  intro n hn
  have h1 : HasDerivAt (fun t : ℝ => x n + (t - c) * y n) (1 * y n) c :=
    (((hasDerivAt_id c).sub_const c).mul_const (y n)).const_add (x n)
  have h2 : HasDerivAt (φ n) (φ' n) (x n + (c - c) * y n) := by
    rw [sub_self, zero_mul, add_zero]; exact h n hn
  have := HasDerivAt.comp c h2 h1
  rw [one_mul] at this
  exact this

theorem equalized_ffe (I J : Finset ℤ) (b a y d : ℤ → ℝ) (i : ℤ) (hi : i ∈ I) (t : ℝ) (n : ℤ) :
    equalized I J (Function.update b i t) a y d n = equalized I J b a y d n + (t - b i) * y (n - i) := by
  unfold equalized
  rw [← Finset.add_sum_erase I _ hi, ← Finset.add_sum_erase I (fun i => b i * y (n - i)) hi, Function.update_self]
  have : ∑ x ∈ I.erase i, Function.update b i t x * y (n - x) = ∑ x ∈ I.erase i, b x * y (n - x) := by
    apply Finset.sum_congr rfl
    intro x hx
    rw [Function.update_of_ne (Finset.ne_of_mem_erase hx)]
  rw [this]; ring

theorem equalized_dfe (I J : Finset ℤ) (b a y d : ℤ → ℝ) (j : ℤ) (hj : j ∈ J) (t : ℝ) (n : ℤ) :
    equalized I J b (Function.update a j t) y d n = equalized I J b a y d n + (t - a j) * (-d (n - j)) := by
  unfold equalized
  rw [← Finset.add_sum_erase J _ hj, ← Finset.add_sum_erase J (fun i => a i * d (n - i)) hj, Function.update_self]
  have : ∑ x ∈ J.erase j, Function.update a j t x * d (n - x) = ∑ x ∈ J.erase j, a x * d (n - x) := by
    apply Finset.sum_congr rfl
    intro x hx
    rw [Function.update_of_ne (Finset.ne_of_mem_erase hx)]
  rw [this]; ring

theorem deriv_ffe (S I J : Finset ℤ) (b a y d : ℤ → ℝ) (i : ℤ) (hi : i ∈ I) (φ : ℤ → ℝ → ℝ) (φ' : ℤ → ℝ)
    (h : ∀ n ∈ S, HasDerivAt (φ n) (φ' n) (equalized I J b a y d n)) :
    HasDerivAt (fun t => meanLoss S (fun n => φ n (equalized I J (Function.update b i t) a y d n)))
      ((∑ n ∈ S, φ' n * y (n - i)) / S.card) (b i) := by
  simp only [equalized_ffe I J b a y d i hi]
  exact deriv_meanLoss S φ φ' _ (fun n => y (n - i)) (b i) h

theorem deriv_dfe (S I J : Finset ℤ) (b a y d : ℤ → ℝ) (j : ℤ) (hj : j ∈ J) (φ : ℤ → ℝ → ℝ) (φ' : ℤ → ℝ)
    (h : ∀ n ∈ S, HasDerivAt (φ n) (φ' n) (equalized I J b a y d n)) :
    HasDerivAt (fun t => meanLoss S (fun n => φ n (equalized I J b (Function.update a j t) y d n)))
      ((∑ n ∈ S, φ' n * (-d (n - j))) / S.card) (a j) := by
  simp only [equalized_dfe I J b a y d j hj]
  exact deriv_meanLoss S φ φ' _ (fun n => -d (n - j)) (a j) h

theorem hasDerivAt_sqErr (d x : ℝ) : HasDerivAt (fun v : ℝ => (v - d) ^ 2) (2 * (x - d)) x := by
  have := ((hasDerivAt_id x).sub_const d).fun_pow 2
  simpa using this

/-- sum of the exponentials of the mixture -/
noncomputable def expSum (levels : List ℝ) (σ x : ℝ) : ℝ :=
  (levels.map fun l => Real.exp (-1 * (x - l) ^ 2 / (2 * σ ^ 2))).sum

/-- weighted sum of the exponentials -/
noncomputable def expDiff (levels : List ℝ) (σ x : ℝ) : ℝ :=
  (levels.map fun l => (x - l) / σ ^ 2 * Real.exp (-1 * (x - l) ^ 2 / (2 * σ ^ 2))).sum

theorem expSum_pos (levels : List ℝ) (σ x : ℝ) (h : levels ≠ []) : 0 < expSum levels σ x := by
  unfold expSum
  apply List.sum_pos
  · intro v hv
    obtain ⟨l, _, rfl⟩ := List.mem_map.1 hv
    exact Real.exp_pos _
  · simpa using h

theorem hasDerivAt_expSum (levels : List ℝ) (σ x : ℝ) (hs : σ ≠ 0) :
    HasDerivAt (expSum levels σ) (-expDiff levels σ x) x := by
  induction levels with
  | nil =>
    have e1 : expSum [] σ = fun _ => 0 := by funext v; simp [expSum]
    have e2 : -expDiff [] σ x = 0 := by simp [expDiff]
    rw [e1, e2]; exact hasDerivAt_const x (0 : ℝ)
  | cons l ls ih =>
    have h1 : HasDerivAt (fun v : ℝ => -1 * (v - l) ^ 2 / (2 * σ ^ 2)) (-1 * (2 * (x - l)) / (2 * σ ^ 2)) x :=
      ((hasDerivAt_sqErr l x).const_mul (-1)).div_const _
    have h2 := (h1.exp).add ih
    have e1 : (expSum (l :: ls) σ) = (fun v => Real.exp (-1 * (v - l) ^ 2 / (2 * σ ^ 2))) + expSum ls σ := by
      funext v; simp [expSum]
    have e2 : -expDiff (l :: ls) σ x = Real.exp (-1 * (x - l) ^ 2 / (2 * σ ^ 2)) * (-1 * (2 * (x - l)) / (2 * σ ^ 2))
        + -expDiff ls σ x := by
      simp only [expDiff, List.map_cons, List.sum_cons]
      field_simp
      ring
    rw [e1, e2]; exact h2

theorem mixture_eq (levels : List ℝ) (σ x : ℝ) :
    mixture levels σ x = 1 / (levels.length : ℝ) / Real.sqrt (2 * Real.pi * σ ^ 2) * expSum levels σ x := by
  unfold mixture expSum
  have : (levels.map fun μ => Real.exp (-(x - μ) ^ 2 / (2 * σ ^ 2)) / Real.sqrt (2 * Real.pi * σ ^ 2)).sum
      = (levels.map fun l => Real.exp (-1 * (x - l) ^ 2 / (2 * σ ^ 2))).sum / Real.sqrt (2 * Real.pi * σ ^ 2) := by
    induction levels with
    | nil => simp
    | cons l ls ih =>
      simp only [List.map_cons, List.sum_cons, ih, add_div]
      rw [neg_one_mul]
  rw [this]
  ring

theorem sqrt_pos_of (σ : ℝ) (hs : σ ≠ 0) : 0 < Real.sqrt (2 * Real.pi * σ ^ 2) :=
  Real.sqrt_pos.2 (by have := Real.pi_pos; positivity)

theorem mixture_pos (levels : List ℝ) (σ x : ℝ) (h : levels ≠ []) (hs : σ ≠ 0) : 0 < mixture levels σ x := by
  rw [mixture_eq]
  have h1 := expSum_pos levels σ x h
  have h2 := sqrt_pos_of σ hs
  have h3 : (0 : ℝ) < levels.length := by exact_mod_cast List.length_pos_of_ne_nil h
  positivity

theorem hasDerivAt_logMixture (levels : List ℝ) (σ x : ℝ) (h : levels ≠ []) (hs : σ ≠ 0) :
    HasDerivAt (fun v => -Real.log (mixture levels σ v)) (expDiff levels σ x / expSum levels σ x) x := by
  have h1 := expSum_pos levels σ x h
  have h2 := sqrt_pos_of σ hs
  have h3 : (0 : ℝ) < levels.length := by exact_mod_cast List.length_pos_of_ne_nil h
  have e : (fun v => mixture levels σ v)
      = fun v => 1 / (levels.length : ℝ) / Real.sqrt (2 * Real.pi * σ ^ 2) * expSum levels σ v := by
    funext v; exact mixture_eq levels σ v
  have hd : HasDerivAt (fun v => mixture levels σ v)
      (1 / (levels.length : ℝ) / Real.sqrt (2 * Real.pi * σ ^ 2) * -expDiff levels σ x) x := by
    rw [e]; exact (hasDerivAt_expSum levels σ x hs).const_mul _
  have := (hd.log (mixture_pos levels σ x h hs).ne').neg
  have e2 : -(1 / (levels.length : ℝ) / Real.sqrt (2 * Real.pi * σ ^ 2) * -expDiff levels σ x / mixture levels σ x)
      = expDiff levels σ x / expSum levels σ x := by
    rw [mixture_eq]; field_simp
  rw [e2] at this
  exact this

end Verif

namespace Verif
open Verif.Spec

theorem isBlock_getD (x : ℤ → ℝ) (l : List ℝ) (h : IsBlock x l) (n : ℤ) (h0 : 0 ≤ n) (h1 : n < l.length) :
    l.getD n.toNat 0 = x n := by
  obtain ⟨m, rfl⟩ := Int.eq_ofNat_of_zero_le h0
  rw [Int.toNat_natCast, h m (by exact_mod_cast h1)]

theorem tapMean_signals (c : ℝ) (i : ℤ) (e y : List ℝ) (E Y : ℤ → ℝ) (hl : e.length = y.length) (hE : IsBlock E e)
    (hY : IsBlock Y y) (hi : |i| < y.length) :
    tapMean c y.length i e y
      = some (c * ((∑ n ∈ tapSamples y.length i, E n * Y (n - i)) / ((tapSamples y.length i).card : ℝ))) := by
  unfold tapMean
  rw [if_neg (not_le.2 hi)]
  congr 3
  apply Finset.sum_congr rfl
  intro n hn
  simp only [tapSamples, mem_filter, mem_Ico] at hn
  rw [isBlock_getD E e hE n (by omega) (by omega), isBlock_getD Y y hY _ (by omega) (by omega)]

theorem meanOpt_block (l : List ℝ) (X : ℤ → ℝ) (f : ℝ → ℝ) (h : IsBlock X l) (hp : 0 < l.length) :
    meanOpt (l.map f) = some (meanLoss (Ico 0 (l.length : ℤ)) (fun n => f (X n))) := by
  unfold meanOpt meanLoss
  rw [List.length_map, if_neg (by omega), Int.card_Ico, sub_zero, Int.toNat_natCast]
  congr 2
  have : (Ico 0 (l.length : ℤ)) = (arangeZ 0 l.length).toFinset := by
    ext x; rw [List.mem_toFinset, mem_arangeZ, mem_Ico]
  rw [this, List.sum_toFinset _ (arangeZ_nodup _ _)]
  congr 1
  apply List.ext_getElem (by simp [arangeZ])
  intro n h1 h2
  rw [List.length_map] at h1
  simp only [arangeZ, List.getElem_map, List.getElem_range, zero_add]
  rw [h n h1, getD_of_lt 0 l h1]

end Verif

namespace Verif
open Verif.Spec

theorem ddlmsGrad_run {K : Type} [Field K] [LinearOrder K] [IsStrictOrderedRing K] (y o d levels : List K)
    (ref : Option (List K)) (fi di : List ℤ) (hl : o.length = y.length) (href : IsReference levels o ref d)
    (hlv : levels ≠ []) (hdi : ∀ j ∈ di, 0 ≤ j) :
    ddlmsGrad y o levels fi di ref = .ok (lmsReturn (meanOpt ((List.zipWith (· - ·) o d).map (fun v => v ^ 2)))
      (fi.map (fun i => tapMean (1 / 2) y.length i (List.zipWith (· - ·) o d) y))
      (di.map (fun j => tapMean (-1 / 2) y.length j (List.zipWith (· - ·) o d) d)) fi.length di.length) := by
  have hd : d.length = y.length := href.1.trans hl
  unfold ddlmsGrad
  rw [lmsReference_eq levels o d ref true href (fun h => absurd h hlv)]
  show ((computeDerivatives y d fi di (List.zipWith (· - ·) o d)).bind _) = _
  rw [computeDerivatives_eq y d _ fi di (by rw [List.length_zipWith, hl, hd, min_self]) hd hdi]
  rfl

/-! ### Mueller-Muller -/

section
variable {K : Type} [Field K]

theorem dropLast_getD0 (l : List K) (k : ℕ) (h : k < l.length - 1) : l.dropLast.getD k 0 = l.getD k 0 := by
  rw [List.dropLast_eq_take, List.getD_eq_getElem?_getD, List.getElem?_take, if_pos h, List.getD_eq_getElem?_getD]

theorem lag_sum (a b : List K) (h : a.length = b.length) :
    (List.zipWith (· * ·) (a.drop 1) b.dropLast).sum = ∑ k ∈ range (b.length - 1), a.getD (k + 1) 0 * b.getD k 0 := by
  rw [sum_zipWith_eq _ 0 0 _ _ (by simp [h]), List.length_drop, h]
  apply Finset.sum_congr rfl
  intro k hk
  rw [drop_getD, dropLast_getD0 _ _ (mem_range.1 hk), add_comm 1 k]

theorem lag_sum' (a b : List K) (h : a.length = b.length) :
    (List.zipWith (· * ·) a.dropLast (b.drop 1)).sum = ∑ k ∈ range (b.length - 1), a.getD k 0 * b.getD (k + 1) 0 := by
  rw [sum_zipWith_eq _ 0 0 _ _ (by simp [h]), List.length_dropLast, h]
  apply Finset.sum_congr rfl
  intro k hk
  rw [drop_getD, dropLast_getD0 _ _ (by rw [h]; exact mem_range.1 hk), add_comm 1 k]

variable [LinearOrder K] [IsStrictOrderedRing K]

/-- the decision on a timing error -/
def mmDecide (step tol : K) : ℤ := if |step| < tol then 0 else if 0 < step then 1 else if step < 0 then -1 else 0

theorem muellerMuller_eq (s r : List K) (preW postW tol : K) (hl : s.length = r.length) (hN : r.length ≠ 1) :
    muellerMuller s r preW postW tol = .ok (some (mmDecide
      (timingError r.length (fun k => s.getD k 0) (fun k => r.getD k 0) preW postW) tol)) := by
  unfold muellerMuller
  simp only []
  rw [if_neg (show ¬ (r.drop 1).length ≠ s.dropLast.length by simp [hl]), if_neg hN, lag_sum r s hl.symm,
    lag_sum' r s hl.symm]
  have : timingError r.length (fun k => s.getD k 0) (fun k => r.getD k 0) preW postW
      = (∑ k ∈ range (s.length - 1), r.getD k 0 * s.getD (k + 1) 0) / ((r.length : K) - 1) * postW
        - (∑ k ∈ range (s.length - 1), r.getD (k + 1) 0 * s.getD k 0) / ((r.length : K) - 1) * preW := by
    unfold timingError
    rw [hl]; ring
  rw [← this]
  unfold mmDecide
  split <;> rfl

theorem mmDecide_neg (step tol : K) : mmDecide (-step) tol = -mmDecide step tol := by
  unfold mmDecide
  rw [abs_neg]
  split
  · rfl
  · rcases lt_trichotomy step 0 with h | h | h
    · rw [if_pos (by linarith), if_neg (not_lt.2 h.le), if_pos h]; rfl
    · subst h; simp
    · rw [if_neg (by linarith), if_pos (by linarith), if_pos h]

theorem timingError_reverse (N : ℕ) (s r : ℕ → K) (preW postW : K) :
    timingError N (fun k => s (N - 1 - k)) (fun k => r (N - 1 - k)) postW preW = -timingError N s r preW postW := by
  unfold timingError
  have h1 : ∑ k ∈ range (N - 1), r (N - 1 - k) * s (N - 1 - (k + 1)) = ∑ k ∈ range (N - 1), r (k + 1) * s k := by
    rw [← Finset.sum_range_reflect]
    apply Finset.sum_congr rfl
    intro k hk
    rw [mem_range] at hk
    rw [show N - 1 - (N - 1 - 1 - k) = k + 1 by omega, show N - 1 - (N - 1 - 1 - k + 1) = k by omega]
  have h2 : ∑ k ∈ range (N - 1), r (N - 1 - (k + 1)) * s (N - 1 - k) = ∑ k ∈ range (N - 1), r k * s (k + 1) := by
    rw [← Finset.sum_range_reflect]
    apply Finset.sum_congr rfl
    intro k hk
    rw [mem_range] at hk
    rw [show N - 1 - (N - 1 - 1 - k) = k + 1 by omega, show N - 1 - (N - 1 - 1 - k + 1) = k by omega]
  rw [h1, h2]; ring

theorem timingError_congr (N : ℕ) (s s' r r' : ℕ → K) (preW postW : K) (hs : ∀ k, k < N → s k = s' k)
    (hr : ∀ k, k < N → r k = r' k) : timingError N s r preW postW = timingError N s' r' preW postW := by
  unfold timingError
  congr 2 <;> congr 1 <;>
  · apply Finset.sum_congr rfl
    intro k hk
    rw [mem_range] at hk
    rw [hs _ (by omega), hr _ (by omega)]

end

end Verif
