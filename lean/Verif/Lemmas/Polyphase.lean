import Verif.Spec.Polyphase
import Verif.Lemmas.Pulse
import Verif.Lemmas.Ffe
import Verif.Lemmas.Delay
import Verif.Model.ExampleRuns
import Verif.Props.Ffe
import Verif.Props.Filter

/-! Filters with upsampled coefficients seen at one sampling phase. -/

open Finset

set_option linter.unusedSectionVars false

namespace Verif

open Spec (withPast DiffEq everyNth IsEqualizer fedBack decisionsBefore NearestFirst)

section
variable {F : Type*} [Field F] [DecidableEq F]

theorem everyNth_count (osr φ N k : ℕ) (ho : 0 < osr) (hφ : φ < osr) : k < (N + osr - 1 - φ) / osr ↔ k * osr + φ < N := by
  rw [Nat.lt_iff_add_one_le, Nat.le_div_iff_mul_le ho, add_mul]
  omega

theorem everyNth_length (osr φ : ℕ) (x : List F) : (everyNth osr φ x).length = (x.length + osr - 1 - φ) / osr := by
  simp [everyNth]

theorem everyNth_lt (osr φ : ℕ) (x : List F) (ho : 0 < osr) (hφ : φ < osr) (k : ℕ) :
    k < (everyNth osr φ x).length ↔ k * osr + φ < x.length := by
  rw [everyNth_length, everyNth_count _ _ _ _ ho hφ]

theorem everyNth_getD (osr φ : ℕ) (x : List F) (ho : 0 < osr) (hφ : φ < osr) (k : ℕ) :
    (everyNth osr φ x).getD k 0 = x.getD (k * osr + φ) 0 := by
  rcases Nat.lt_or_ge k (everyNth osr φ x).length with h | h
  · have h' := h
    rw [everyNth_length] at h'
    unfold everyNth
    rw [map_range_getD _ _ _ _ h']
  · rw [getD_of_le 0 _ h, getD_of_le 0 _ (by have := (everyNth_lt osr φ x ho hφ k).not.1 (by omega); omega)]

theorem everyNth_withPast (osr φ : ℕ) (x : List F) (ho : 0 < osr) (hφ : φ < osr) (t : ℤ) :
    withPast [] (everyNth osr φ x) t = withPast [] x (t * osr + φ) := by
  rcases time_cases t with ⟨n, rfl⟩ | ⟨k, rfl⟩
  · rw [withPast_nat, everyNth_getD osr φ x ho hφ, show ((n : ℤ) * osr + φ) = ((n * osr + φ : ℕ) : ℤ) by push_cast; ring,
      withPast_nat]
  · rw [withPast_neg]
    have hneg : (-(k : ℤ) - 1) * osr + φ < 0 := by nlinarith
    unfold withPast
    rw [if_neg (by omega)]
    simp

theorem up_sum (b u : List F) (osr : ℕ) (ho : 0 < osr) (hu : upsample b osr = .ok u) (f : ℕ → F) :
    ∑ i ∈ range u.length, u.getD i 0 * f i = ∑ i ∈ range b.length, b.getD i 0 * f (i * osr) := by
  obtain ⟨u', e, hl, hv⟩ := C43_upsample b osr ho
  rw [hu] at e
  cases e
  rw [hl, sum_blocks]
  refine sum_congr rfl fun i hi => ?_
  rw [sum_eq_single 0]
  · rw [hv i 0 (mem_range.1 hi) ho, if_pos rfl, add_zero]
  · intro j hj hj0
    rw [hv i j (mem_range.1 hi) (mem_range.1 hj), if_neg hj0, zero_mul]
  · intro h; exact absurd (mem_range.2 ho) h

theorem up_length (b u : List F) (osr : ℕ) (ho : 0 < osr) (hu : upsample b osr = .ok u) : u.length = b.length * osr := by
  obtain ⟨u', e, hl, hv⟩ := C43_upsample b osr ho
  rw [hu] at e
  cases e
  exact hl

theorem up_zero (b u : List F) (osr : ℕ) (ho : 0 < osr) (hb : 0 < b.length) (hu : upsample b osr = .ok u) :
    u.getD 0 0 = b.getD 0 0 := by
  obtain ⟨u', e, hl, hv⟩ := C43_upsample b osr ho
  rw [hu] at e
  cases e
  have := hv 0 0 hb ho
  simpa using this

/-- the difference equation with both sums complete -/
theorem diffEq_iff (b a : List F) (ha : 0 < a.length) (x y : ℤ → F) (n : ℤ) :
    DiffEq b a x y n ↔ ∑ j ∈ range a.length, a.getD j 0 * y (n - j) = ∑ i ∈ range b.length, b.getD i 0 * x (n - i) := by
  unfold DiffEq
  have e : ∑ j ∈ range a.length, a.getD j 0 * y (n - j)
      = a.getD 0 0 * y n + ∑ j ∈ Ico 1 a.length, a.getD j 0 * y (n - j) := by
    rw [range_eq_Ico, sum_eq_sum_Ico_succ_bot ha, Nat.cast_zero, sub_zero, zero_add]
  rw [e, eq_sub_iff_add_eq]

/-- at the times of one sampling phase the upsampled filter is the filter -/
theorem diffEq_up (b a ub ua : List F) (osr : ℕ) (ho : 0 < osr) (ha : 0 < a.length) (hub : upsample b osr = .ok ub)
    (hua : upsample a osr = .ok ua) (x y x' y' : ℤ → F) (φ n : ℤ) (hx : ∀ t, x' t = x (t * osr + φ))
    (hy : ∀ t, y' t = y (t * osr + φ)) : DiffEq ub ua x y (n * osr + φ) ↔ DiffEq b a x' y' n := by
  rw [diffEq_iff _ _ (by rw [up_length a ua osr ho hua]; exact Nat.mul_pos ha ho), diffEq_iff _ _ ha,
    up_sum a ua osr ho hua, up_sum b ub osr ho hub]
  have e : ∀ i : ℕ, n * osr + φ - ((i * osr : ℕ) : ℤ) = (n - i) * osr + φ := by intro i; push_cast; ring
  simp only [e, hx, hy]

theorem filter_phase (b a x ub ua : List F) (osr φ : ℕ) (ho : 0 < osr) (hφ : φ < osr) (hx : φ < x.length)
    (hb : 0 < b.length) (ha : 0 < a.length) (h0 : a.getD 0 0 ≠ 0) (hub : upsample b osr = .ok ub)
    (hua : upsample a osr = .ok ua) :
    ∃ y z z', awgnChannel x ub (.vec ua) none = .ok (y, z) ∧ y.length = x.length ∧
      awgnChannel (everyNth osr φ x) b (.vec a) none = .ok (everyNth osr φ y, z') := by
  obtain ⟨y, z, e, hl, hd⟩ := C44_difference_equation ub (.vec ua) x
    (by rw [up_length b ub osr ho hub]; exact Nat.mul_pos hb ho)
    (by show 0 < ua.length; rw [up_length a ua osr ho hua]; exact Nat.mul_pos ha ho)
    (by show ua.getD 0 0 ≠ 0; rw [up_zero a ua osr ho ha hua]; exact h0) (by omega)
  obtain ⟨z', e'⟩ := C44_only_solution b (.vec a) (everyNth osr φ x) hb ha h0
    ((everyNth_lt osr φ x ho hφ 0).2 (by omega)) (everyNth osr φ y) (by rw [everyNth_length, everyNth_length, hl])
    (fun n hn => by
      have hn' := (everyNth_lt osr φ x ho hφ n).1 hn
      have := hd (n * osr + φ) hn'
      rw [show (((n * osr + φ : ℕ) : ℤ)) = (n : ℤ) * osr + (φ : ℤ) by push_cast; ring] at this
      exact (diffEq_up b a ub ua osr ho ha hub hua _ _ _ _ φ n (everyNth_withPast osr φ x ho hφ)
        (everyNth_withPast osr φ y ho hφ)).1 this)
  exact ⟨y, z, z', e, hl, e'⟩

end

/-! ### equalizers -/

section
variable {K : Type} [Field K] [LinearOrder K]

theorem decisionsBefore_phase (osr φ k : ℕ) (ho : 0 < osr) : decisionsBefore osr φ (k * osr + φ) = k := by
  refine eq_of_lt_iff fun m => ?_
  rw [decisionsBefore_lt _ _ _ _ ho]
  constructor
  · intro h
    by_contra hc
    have : k * osr ≤ m * osr := Nat.mul_le_mul_right _ (by omega)
    omega
  · intro h
    have : (m + 1) * osr ≤ k * osr := Nat.mul_le_mul_right _ h
    rw [add_mul] at this
    omega

theorem fedBack_phase (osr φ : ℕ) (ho : 0 < osr) (hφ : φ < osr) (zi d : List K) (k j : ℕ) :
    fedBack 1 0 zi (everyNth osr φ d) k j = fedBack osr φ zi d (k * osr + φ) j := by
  unfold fedBack
  rw [decisionsBefore_phase osr φ k ho, decisionsBefore_one, everyNth_getD osr φ d ho hφ]
  simp

theorem isEqualizer_phase (ffe u dfe lv : List K) (osr φ : ℕ) (ho : 0 < osr) (hφ : φ < osr) (hu : upsample ffe osr = .ok u)
    (zi x y d : List K) (h : IsEqualizer u dfe lv osr φ [] zi x y d) :
    IsEqualizer ffe dfe lv 1 0 [] zi (everyNth osr φ x) (everyNth osr φ y) (everyNth osr φ d) := by
  refine ⟨by rw [everyNth_length, everyNth_length, h.length_y], by rw [everyNth_length, everyNth_length, h.length_d],
    fun n hn => ?_, fun n hn => ?_⟩
  · have hn' := (everyNth_lt osr φ x ho hφ n).1 hn
    rw [everyNth_getD osr φ y ho hφ, h.slicer_in _ hn', up_sum ffe u osr ho hu]
    congr 1
    · refine sum_congr rfl fun i _ => ?_
      rw [everyNth_withPast osr φ x ho hφ]
      congr 2
      push_cast
      ring
    · refine sum_congr rfl fun j _ => ?_
      rw [fedBack_phase osr φ ho hφ]
  · have hn' := (everyNth_lt osr φ x ho hφ n).1 hn
    rw [everyNth_getD osr φ y ho hφ, everyNth_getD osr φ d ho hφ]
    exact h.decision _ hn'

/-- the output of the feed-forward equalizer, for one tap and for several -/
theorem ffe_out [IsStrictOrderedRing K] (x ffe : List K) (levels : Option (List K)) (osr : ℕ) (phase : ℤ) (hL : 0 < ffe.length)
    (hx : 0 < x.length) :
    ∃ r, ffeDfe x ffe none levels osr phase none none = .ok r ∧ r.signal.length = x.length ∧
      ∀ n : ℕ, n < x.length → r.signal.getD n 0 = ∑ i ∈ range ffe.length, ffe.getD i 0 * withPast [] x (n - i) := by
  rcases Nat.lt_or_ge 1 ffe.length with h | h
  · obtain ⟨y, zo, e, hl, hy, -⟩ := C46_convolution x ffe levels osr phase none none h (by simp) hx
    exact ⟨_, e, hl, fun n hn => by simpa [EqOut.signal] using hy n hn⟩
  · obtain ⟨f, rfl⟩ : ∃ f, ffe = [f] := List.length_eq_one_iff.1 (by omega)
    refine ⟨_, C46_single_tap x f levels osr phase none none, by simp [EqOut.signal], fun n hn => ?_⟩
    show (x.map (· * f)).getD n 0 = _
    rw [getD_map_lt _ 0 0 _ hn]
    simp [withPast_nat, mul_comm]

end

/-! ### interpolation -/

section
variable {F : Type*} [Field F] [DecidableEq F]

theorem up_withPast_mul (x u : List F) (osr : ℕ) (ho : 0 < osr) (hu : upsample x osr = .ok u) (q : ℤ) :
    withPast [] u (q * osr) = withPast [] x q := by
  obtain ⟨u', e, hl, hv⟩ := C43_upsample x osr ho
  rw [hu] at e
  cases e
  rcases time_cases q with ⟨n, rfl⟩ | ⟨k, rfl⟩
  · rw [withPast_nat, show ((n : ℤ) * osr) = ((n * osr : ℕ) : ℤ) by push_cast; ring, withPast_nat]
    rcases Nat.lt_or_ge n x.length with h | h
    · have := hv n 0 h ho
      simpa using this
    · rw [getD_of_le 0 _ h, getD_of_le 0 _ (by rw [hl]; exact Nat.mul_le_mul_right _ h)]
  · rw [withPast_neg]
    unfold withPast
    rw [if_neg (by nlinarith)]
    simp

theorem up_withPast_other (x u : List F) (osr : ℕ) (ho : 0 < osr) (hu : upsample x osr = .ok u) (t : ℤ)
    (ht : ¬((osr : ℤ) ∣ t)) : withPast [] u t = 0 := by
  obtain ⟨u', e, hl, hv⟩ := C43_upsample x osr ho
  rw [hu] at e
  cases e
  rcases time_cases t with ⟨n, rfl⟩ | ⟨k, rfl⟩
  · rw [withPast_nat]
    rcases Nat.lt_or_ge n u.length with h | h
    · have hd : n / osr * osr + n % osr = n := Nat.div_add_mod' n osr
      have h2 : n / osr < x.length := by
        rw [Nat.div_lt_iff_lt_mul ho, ← hl]; exact h
      have h3 := hv (n / osr) (n % osr) h2 (Nat.mod_lt _ ho)
      rw [hd, if_neg (fun h0 => ht (by exact_mod_cast Nat.dvd_of_mod_eq_zero h0))] at h3
      exact h3
    · rw [getD_of_le 0 _ h]
  · rw [withPast_neg]; simp

/-- upsampling turns a filtered signal into the upsampled signal filtered with the upsampled coefficients -/
theorem up_filter (b a x w ux uw : List F) (osr : ℕ) (ho : 0 < osr) (hux : upsample x osr = .ok ux)
    (huw : upsample w osr = .ok uw) (ha : 0 < a.length)
    (h : ∀ n : ℕ, n < x.length → DiffEq b a (withPast [] x) (withPast [] w) n) (t : ℤ) (ht : t < x.length * osr) :
    ∑ j ∈ range a.length, a.getD j 0 * withPast [] uw (t - j * osr)
      = ∑ i ∈ range b.length, b.getD i 0 * withPast [] ux (t - i * osr) := by
  by_cases hd : (osr : ℤ) ∣ t
  · obtain ⟨q, hq⟩ := hd
    have e : ∀ j : ℕ, t - (j : ℤ) * osr = (q - j) * osr := by intro j; rw [hq]; ring
    simp only [e, up_withPast_mul x ux osr ho hux, up_withPast_mul w uw osr ho huw]
    rcases time_cases q with ⟨n, rfl⟩ | ⟨k, rfl⟩
    · refine (diffEq_iff b a ha _ _ _).1 (h n ?_)
      have : (osr : ℤ) * n < osr * x.length := by rw [← hq]; linarith
      have := lt_of_mul_lt_mul_left this (by omega)
      exact_mod_cast this
    · have hz : ∀ (l : List F) (j : ℕ), withPast [] l (-(k : ℤ) - 1 - j) = 0 := by
        intro l j
        unfold withPast
        rw [if_neg (by omega)]
        simp
      simp only [hz, mul_zero, sum_const_zero]
  · have hz : ∀ j : ℕ, ¬((osr : ℤ) ∣ t - j * osr) := fun j hj => hd ((dvd_sub_left (Dvd.intro_left _ rfl)).1 hj)
    rw [sum_eq_zero fun j _ => by rw [up_withPast_other w uw osr ho huw _ (hz j), mul_zero],
      sum_eq_zero fun j _ => by rw [up_withPast_other x ux osr ho hux _ (hz j), mul_zero]]

end

end Verif
