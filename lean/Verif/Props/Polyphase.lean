import Verif.Lemmas.Polyphase
import Verif.Props.Pulse

/-!
# C108 Oversampled filters with upsampled coefficients

The coefficients `upsample(b, osr)` act on every sampling phase like `b` does at the symbol rate: this is what
test/example_scripts/example_runs.py relies on when it upsamples the channel and the equalizer.
-/

open Finset

set_option linter.unusedSectionVars false

namespace Verif

open Spec (withPast DiffEq everyNth IsEqualizer NearestFirst IsPulse)

section
variable {F : Type*} [Field F] [DecidableEq F]

/-- **C108.** Sampling the output of the filter with upsampled coefficients at one phase gives the output of the filter
itself for the samples of that phase. Holds for recursive filters as well. -/
theorem C108_filter (b a x ub ua : List F) (osr φ : ℕ) (ho : 0 < osr) (hφ : φ < osr) (hx : φ < x.length)
    (hb : 0 < b.length) (ha : 0 < a.length) (h0 : a.getD 0 0 ≠ 0) (hub : upsample b osr = .ok ub)
    (hua : upsample a osr = .ok ua) :
    ∃ y z z', awgnChannel x ub (.vec ua) none = .ok (y, z) ∧ y.length = x.length ∧
      awgnChannel (everyNth osr φ x) b (.vec a) none = .ok (everyNth osr φ y, z') :=
  filter_phase b a x ub ua osr φ ho hφ hx hb ha h0 hub hua

example : awgnChannel (F := ℚ) [1, 5, 2, 6, 4] [1/2, 0] (.vec [1, 0, -1/5, 0]) none
      = .ok ([1/2, 5/2, 11/10, 7/2, 111/50], [7/10, 111/250, 0]) ∧
    awgnChannel (F := ℚ) (everyNth 2 0 [1, 5, 2, 6, 4]) [1/2] (.vec [1, -1/5]) none = .ok ([1/2, 11/10, 111/50], [111/250]) ∧
    awgnChannel (F := ℚ) (everyNth 2 1 [1, 5, 2, 6, 4]) [1/2] (.vec [1, -1/5]) none = .ok ([5/2, 7/2], [7/10]) := by
  decide +kernel

end

section
variable {K : Type} [Field K] [LinearOrder K] [IsStrictOrderedRing K]

/-- **C108.** Feed-forward equalizer: sampling the output of the upsampled taps gives the output of the taps for the
samples. -/
theorem C108_feed_forward (x ffe u : List K) (levels : Option (List K)) (osr φ : ℕ) (phase phase' : ℤ) (ho : 0 < osr)
    (hφ : φ < osr) (hx : φ < x.length) (hL : 0 < ffe.length) (hu : upsample ffe osr = .ok u) :
    ∃ r r', ffeDfe x u none levels osr phase none none = .ok r ∧
      ffeDfe (everyNth osr φ x) ffe none levels 1 phase' none none = .ok r' ∧ r'.signal = everyNth osr φ r.signal := by
  obtain ⟨r, e, hl, hr⟩ := ffe_out x u levels osr phase
    (by rw [up_length ffe u osr ho hu]; exact Nat.mul_pos hL ho) (by omega)
  obtain ⟨r', e', hl', hr'⟩ := ffe_out (everyNth osr φ x) ffe levels 1 phase' hL ((everyNth_lt osr φ x ho hφ 0).2 (by omega))
  refine ⟨r, r', e, e', ext_getD 0 (by rw [hl', everyNth_length, everyNth_length, hl]) fun n hn => ?_⟩
  rw [hl'] at hn
  have hn' := (everyNth_lt osr φ x ho hφ n).1 hn
  rw [hr' n hn, everyNth_getD osr φ _ ho hφ, hr _ hn', up_sum ffe u osr ho hu]
  refine sum_congr rfl fun i _ => ?_
  rw [everyNth_withPast osr φ x ho hφ]
  congr 2
  push_cast
  ring

/-- **C108.** Decision feedback equalizer: run at the sample rate with upsampled feed-forward taps, its slicer input at the
sampling phase is the slicer input of the equalizer run at the symbol rate on the samples, although the decisions are fed
back half a symbol after they are taken. -/
theorem C108_decision_feedback (x ffe dfe u : List K) (levels : Option (List K)) (hne : levels ≠ some []) (osr φ : ℕ)
    (ho : 0 < osr) (hφ : φ < osr) (hx : φ < x.length) (hL : 0 < ffe.length) (hk : 0 < dfe.length)
    (ziD : Option (List K)) (hD : ∀ z, ziD = some z → z.length = dfe.length) (hu : upsample ffe osr = .ok u) :
    ∃ r r', ffeDfe x u (some dfe) levels osr φ none ziD = .ok r ∧
      ffeDfe (everyNth osr φ x) ffe (some dfe) levels 1 0 none ziD = .ok r' ∧ r.signal.length = x.length ∧
      r'.signal = everyNth osr φ r.signal := by
  obtain ⟨r, d, e, h, -⟩ := C47_recursion x u dfe levels hne osr ho φ hk
    (by rw [up_length ffe u osr ho hu]; exact Nat.mul_pos hL ho) (by omega) none ziD (by simp) hD
  obtain ⟨r', d', e', h', -⟩ := C47_recursion (everyNth osr φ x) ffe dfe levels hne 1 (by omega) 0 hk hL
    ((everyNth_lt osr φ x ho hφ 0).2 (by omega)) none ziD (by simp) hD
  have hφ' : ((φ : ℤ) % osr).toNat = φ := by
    rw [Int.emod_eq_of_lt (by omega) (by omega)]; simp
  rw [hφ'] at h
  rw [phase_one] at h'
  simp only [Option.getD_none, List.drop_nil, List.reverse_nil] at h h'
  have hp := isEqualizer_phase ffe u dfe _ osr φ ho hφ hu _ x r.signal d h
  exact ⟨r, r', e, e', h.length_y, (isEqualizer_unique _ _ _ 1 0 (by omega) _ _ _ _ _ _ _ h' hp).1⟩

example : ffeDfe (K := ℚ) [1, 3, -1, 2, 2, -3] [1, 0, 1/2, 0] (some [1/4]) none 2 1 none none
      = .ok (.both [1, 3, -1/2, 11/4, 3/4, -11/4] [-1, 2, 2, -3] [3]) ∧
    ffeDfe (K := ℚ) (everyNth 2 1 [1, 3, -1, 2, 2, -3]) [1, 1/2] (some [1/4]) none 1 0 none none
      = .ok (.both [3, 11/4, -11/4] [2, -3] [-3]) := by
  decide +kernel

/-- the columns of the frames of a signal -/
theorem phaseColumn_eq {α : Type} [Field α] [DecidableEq α] (x : List α) (osr φ : ℕ) (ho : 0 < osr) (hφ : φ < osr) (hx : x ≠ [])
    (hd : osr ∣ x.length) : phaseColumn x osr φ = .ok (everyNth osr φ x) := by
  obtain ⟨M, e, hM, hr⟩ := C42_frames x hx osr 0 0 (by omega)
  unfold phaseColumn
  rw [e]
  show Except.ok _ = _
  congr 1
  obtain ⟨m, hm⟩ := hd
  have hMl : M.length = m := by
    refine eq_of_lt_iff fun r => ?_
    rw [hM r, hm]
    simp only [sub_zero, max_self, Nat.cast_zero, zero_add]
    rw [mul_comm (r : ℤ)]
    push_cast
    constructor
    · intro h; exact_mod_cast lt_of_mul_lt_mul_left h (by omega)
    · intro h; exact mul_lt_mul_of_pos_left (by exact_mod_cast h) (by omega)
  have hel : (everyNth osr φ x).length = m := by
    refine eq_of_lt_iff fun r => ?_
    rw [everyNth_lt osr φ x ho hφ, hm, mul_comm osr]
    constructor
    · intro h
      by_contra hc
      have : m * osr ≤ r * osr := Nat.mul_le_mul_right _ (by omega)
      omega
    · intro h
      have : (r + 1) * osr ≤ m * osr := Nat.mul_le_mul_right _ h
      rw [add_mul] at this
      omega
  refine ext_getD 0 (by rw [List.length_map, hMl, hel]) fun r hr' => ?_
  rw [List.length_map] at hr'
  rw [getD_map_lt _ [] 0 _ hr', (hr r hr').2 φ hφ, everyNth_getD osr φ x ho hφ]
  unfold Spec.sample
  have h0 : (0 : ℤ) ≤ (r : ℤ) * osr + φ := by positivity
  simp only [Nat.cast_zero, sub_zero]
  rw [if_pos h0]
  congr 1

/-- skipping whole symbols before or after sampling -/
theorem everyNth_drop {α : Type} [Field α] [DecidableEq α] (x : List α) (osr φ s : ℕ) (ho : 0 < osr) (hφ : φ < osr) :
    everyNth osr φ (x.drop (s * osr)) = (everyNth osr φ x).drop s := by
  have key : ∀ k, k < (everyNth osr φ (x.drop (s * osr))).length ↔ k < ((everyNth osr φ x).drop s).length := by
    intro k
    have h2 := everyNth_lt osr φ x ho hφ (k + s)
    rw [everyNth_lt osr φ _ ho hφ, List.length_drop, List.length_drop]
    rw [add_mul] at h2
    omega
  refine ext_getD 0 (eq_of_lt_iff key) fun k _ => ?_
  rw [everyNth_getD osr φ _ ho hφ, drop_getD, drop_getD, everyNth_getD osr φ _ ho hφ]
  congr 1
  ring

/-- **C108.** Both results of `rx_example`: the equalizer at the sample rate sampled afterwards (which is returned) and the
alternative that is commented out, equalizing the samples, are the same list. -/
theorem C108_rx_example (osr φ : ℕ) (ffe x : List K) (ho : 0 < osr) (hφ : φ < osr) (hL : 0 < ffe.length)
    (hd : osr ∣ x.length) (hx : ffe.length * osr < x.length) :
    ∃ y, rxExampleReturned osr φ ffe x = .ok y ∧ rxExampleAlternative osr φ ffe x = .ok y ∧
      (y.length + ffe.length) * osr = x.length := by
  obtain ⟨u, hu, hul, -⟩ := C43_upsample ffe osr ho
  obtain ⟨one, hone, hol, -⟩ := C43_upsample [(1 : K)] osr ho
  have hx0 : x ≠ [] := by rintro rfl; simp at hx
  have hLo : osr ≤ ffe.length * osr := Nat.le_mul_of_pos_left _ hL
  have hfir : ∀ (b s : List K), 0 < b.length → 0 < s.length → ∃ y z, awgnChannel s b (.vec [1]) none = .ok (y, z) ∧
      firFilter b s = .ok y ∧ y.length = s.length ∧
      ∀ n : ℕ, n < s.length → y.getD n 0 = ∑ i ∈ range b.length, b.getD i 0 * withPast [] s (n - i) := by
    intro b s hb hs
    obtain ⟨y, z, e, hl, hy⟩ := C44_difference_equation b (.vec [(1 : K)]) s hb (by simp [Denom.coeffs])
      (by simp [Denom.coeffs]) hs
    refine ⟨y, z, e, ?_, hl, fun n hn => ?_⟩
    · have e2 : awgnChannel s b (.vec [(1 : K)]) none = lfilter b [1] s (List.replicate (b.length - 1) 0) := by
        unfold awgnChannel channelRest Denom.coeffs
        simp only [Option.getD_none, List.length_singleton]
        rw [show max 1 b.length = b.length by omega]
      unfold firFilter
      rw [← e2, e]
      rfl
    · have := hy n hn
      rw [diffEq_iff _ _ (by simp [Denom.coeffs])] at this
      simpa [Denom.coeffs, withPast_nat] using this
  obtain ⟨y, z, -, e, hl, hy⟩ := hfir u x (by rw [hul]; exact Nat.mul_pos hL ho) (by omega)
  obtain ⟨y', z', -, e', hl', hy'⟩ := hfir ffe (everyNth osr φ x) hL ((everyNth_lt osr φ x ho hφ 0).2 (by omega))
  have hyy : y' = everyNth osr φ y := by
    refine ext_getD 0 (by rw [hl', everyNth_length, everyNth_length, hl]) fun n hn => ?_
    rw [hl'] at hn
    have hn' := (everyNth_lt osr φ x ho hφ n).1 hn
    rw [hy' n hn, everyNth_getD osr φ _ ho hφ, hy _ hn', up_sum ffe u osr ho hu]
    refine sum_congr rfl fun i _ => ?_
    rw [everyNth_withPast osr φ x ho hφ]
    congr 2
    push_cast
    ring
  have hcol : phaseColumn (y.drop (ffe.length * osr)) osr φ = .ok ((everyNth osr φ y).drop ffe.length) := by
    rw [phaseColumn_eq _ osr φ ho hφ (by intro h; have := congrArg List.length h; simp at this; omega)
      (by rw [List.length_drop, hl]; exact (Nat.dvd_sub hd (Dvd.intro_left _ rfl))), everyNth_drop _ osr φ _ ho hφ]
  refine ⟨(everyNth osr φ y).drop ffe.length, ?_, ?_, ?_⟩
  · unfold rxExampleReturned
    rw [hu]
    show ((firFilter u x).bind fun out => phaseColumn (out.drop (ffe.length * osr)) osr φ) = _
    rw [e]
    exact hcol
  · unfold rxExampleAlternative
    rw [phaseColumn_eq x osr φ ho hφ hx0 hd]
    show ((firFilter ffe (everyNth osr φ x)).bind fun out => Except.ok (out.drop ffe.length)) = _
    rw [e', hyy]
    rfl
  · obtain ⟨m, hm⟩ := hd
    have : (everyNth osr φ y).length = m := by
      refine eq_of_lt_iff fun r => ?_
      rw [everyNth_lt osr φ y ho hφ, hl, hm, mul_comm osr]
      constructor
      · intro h
        by_contra hc
        have : m * osr ≤ r * osr := Nat.mul_le_mul_right _ (by omega)
        omega
      · intro h
        have : (r + 1) * osr ≤ m * osr := Nat.mul_le_mul_right _ h
        rw [add_mul] at this
        omega
    have hLm : ffe.length < m := by
      rw [hm, mul_comm osr] at hx
      exact lt_of_mul_lt_mul_right hx (by omega)
    rw [List.length_drop, this, hm, Nat.sub_add_cancel (by omega), mul_comm]

example : rxExampleReturned (K := ℚ) 2 1 [1, 1/2] [1, 2, 3, 4, 5, 6, 7, 8] = .ok [8, 11] ∧
    rxExampleAlternative (K := ℚ) 2 1 [1, 1/2] [1, 2, 3, 4, 5, 6, 7, 8] = .ok [8, 11] := by decide +kernel

/-- The number of samples has to be a multiple of `osr`: otherwise the last, incomplete frame is filled with zeros before
the equalizer in one case and behind it in the other. -/
example : rxExampleReturned (K := ℚ) 2 1 [1, 1/2] [1, 2, 3, 4, 5, 6, 7] = .ok [8, 0] ∧
    rxExampleAlternative (K := ℚ) 2 1 [1, 1/2] [1, 2, 3, 4, 5, 6, 7] = .ok [8, 3] := by decide +kernel

/-- **C108.** The slicer input `rx_example2` plots, sampled at the chosen phase, is the slicer input it returns (if it were
computed from the same signal), apart from the larger number of symbols skipped. -/
theorem C108_rx_example2 (osr φ : ℕ) (ffe dfe levels x : List K) (ho : 0 < osr) (hφ : φ < osr) (hL : 2 ≤ ffe.length)
    (hk : 0 < dfe.length) (hlv : levels ≠ []) (hx : x ≠ []) (hd : osr ∣ x.length) :
    ∃ y y', rxExample2Plotted osr φ ffe dfe levels x = .ok y ∧ rxExample2Returned osr φ ffe dfe levels x = .ok y' ∧
      everyNth osr φ y = y'.drop ((osr - 1) * ffe.length) := by
  obtain ⟨u, hu, hul, -⟩ := C43_upsample ffe osr ho
  have hlen : osr ≤ x.length := Nat.le_of_dvd (List.length_pos_iff.2 hx) hd
  obtain ⟨r, r', e, e', hl, hs⟩ := C108_decision_feedback x ffe dfe u (some levels) (by simpa using hlv) osr φ ho hφ (by omega)
    (by omega) hk none (by simp) hu
  have hthree : ∀ (s f : List K) (o : ℕ) (ph : ℤ) (q : EqOut K), 2 ≤ f.length → 0 < s.length → 0 < o →
      ffeDfe s f (some dfe) (some levels) o ph none none = .ok q → unpackThree q = .ok q.signal := by
    intro s f o ph q hf hs ho' hq
    obtain ⟨q', d, e2, -, -, h2, -⟩ := C47_recursion s f dfe (some levels) (by simpa using hlv) o ho' ph hk (by omega) hs none none
      (by simp) (by simp)
    rw [hq] at e2
    cases e2
    obtain ⟨zf, hzf, -⟩ := h2 (by omega)
    cases q with
    | plain y => cases hzf
    | ffe y z =>
      obtain ⟨q', d, e2, -, -, -, zd, hzd, -⟩ := C47_recursion s f dfe (some levels) (by simpa using hlv) o ho' ph hk (by omega) hs none none
        (by simp) (by simp)
      rw [hq] at e2
      cases e2
      cases hzd
    | dfe y z => cases hzf
    | both y z w => rfl
  have h1 := hthree x u osr φ r (by rw [hul]; have := Nat.mul_le_mul hL ho; omega) (by omega) ho e
  have h2 := hthree _ ffe 1 0 r' hL ((everyNth_lt osr φ x ho hφ 0).2 (by omega)) (by omega) e'
  refine ⟨r.signal.drop (osr * u.length), r'.signal.drop ffe.length, ?_, ?_, ?_⟩
  · unfold rxExample2Plotted
    rw [hu]
    show ((ffeDfe x u (some dfe) (some levels) osr φ none none).bind _) = _
    rw [e]
    show ((unpackThree r).bind _) = _
    rw [h1]
    show Except.ok (if (r.signal.drop (osr * u.length)).length % osr ≠ 0 then _ else _) = _
    rw [if_neg]
    rw [not_not, List.length_drop, hl]
    exact Nat.mod_eq_zero_of_dvd (Nat.dvd_sub hd (Dvd.intro _ rfl))
  · unfold rxExample2Returned
    rw [phaseColumn_eq x osr φ ho hφ hx hd]
    show ((ffeDfe (everyNth osr φ x) ffe (some dfe) (some levels) 1 0 none none).bind _) = _
    rw [e']
    show ((unpackThree r').bind _) = _
    rw [h2]
    rfl
  · rw [hs, mul_comm osr, everyNth_drop _ osr φ _ ho hφ, List.drop_drop, hul]
    congr 1
    obtain ⟨k, rfl⟩ : ∃ k, osr = k + 1 := ⟨osr - 1, by omega⟩
    rw [Nat.add_sub_cancel]
    ring

example : ∃ y y', rxExample2Plotted (K := ℚ) 2 1 [1, 1/2] [1/4] [-3, -1, 1, 3] [1, 3, -1, 2, 2, -3, 1, 1, 2, 1, 1, 3] = .ok y ∧
    rxExample2Returned (K := ℚ) 2 1 [1, 1/2] [1/4] [-3, -1, 1, 3] [1, 3, -1, 2, 2, -3, 1, 1, 2, 1, 1, 3] = .ok y' ∧
    y' = [-11/4, 1/4, 5/4, 13/4] ∧ everyNth 2 1 y = [5/4, 13/4] := by
  exact ⟨[13/4, 5/4, 7/4, 13/4], [-11/4, 1/4, 5/4, 13/4], by decide +kernel, by decide +kernel, rfl, by decide +kernel⟩

end

/-! ### the search over the phases -/

/-- the state of the search after some phases -/
theorem phaseSearch_spec {E : Type} [LinearOrder E] (errs : List (Option E)) (ii : ℕ) (best : Option (E × ℕ)) :
    (phaseSearch ii best errs = none ↔ best = none ∧ ∀ e ∈ errs, e = none) ∧
    ∀ e i, phaseSearch ii best errs = some (e, i) →
      ((best = some (e, i) ∨ (∃ k, i = ii + k ∧ errs[k]? = some (some e) ∧ (∀ b, best = some b → e < b.1) ∧
        ∀ j < k, ∀ e', errs[j]? = some (some e') → e < e'))) ∧
      (∀ (j : ℕ) e', errs[j]? = some (some e') → e ≤ e') := by
  induction errs generalizing ii best with
  | nil =>
    refine ⟨by simp [phaseSearch], fun e i h => ⟨Or.inl h, by simp⟩⟩
  | cons c t ih =>
    cases c with
    | none =>
      obtain ⟨h1, h2⟩ := ih (ii + 1) best
      refine ⟨by rw [phaseSearch, h1]; simp, fun e i h => ?_⟩
      rw [phaseSearch] at h
      obtain ⟨h3, h4⟩ := h2 e i h
      refine ⟨h3.imp id ?_, ?_⟩
      · rintro ⟨k, rfl, hk, hb, hj⟩
        refine ⟨k + 1, by omega, by simpa using hk, hb, fun j hjk e' he' => ?_⟩
        cases j with
        | zero => simp at he'
        | succ j => exact hj j (by omega) e' (by simpa using he')
      · intro j e' he'
        cases j with
        | zero => simp at he'
        | succ j => exact h4 j e' (by simpa using he')
    | some c =>
      have step : ∀ b', (b' = some (c, ii) ∧ (∀ b, best = some b → c < b.1) ∨ (∃ b, best = some b ∧ b' = some b ∧ b.1 ≤ c)) →
          phaseSearch ii best (some c :: t) = phaseSearch (ii + 1) b' t →
          (phaseSearch ii best (some c :: t) = none ↔ best = none ∧ ∀ e ∈ some c :: t, e = none) ∧
          ∀ e i, phaseSearch ii best (some c :: t) = some (e, i) →
            ((best = some (e, i) ∨ (∃ k, i = ii + k ∧ (some c :: t)[k]? = some (some e) ∧ (∀ b, best = some b → e < b.1) ∧
              ∀ j < k, ∀ e', (some c :: t)[j]? = some (some e') → e < e'))) ∧
            (∀ (j : ℕ) e', (some c :: t)[j]? = some (some e') → e ≤ e') := by
        intro b' hb' heq
        rw [heq]
        obtain ⟨h1, h2⟩ := ih (ii + 1) b'
        refine ⟨?_, fun e i h => ?_⟩
        · rw [h1]
          rcases hb' with ⟨rfl, -⟩ | ⟨b, -, rfl, -⟩ <;> simp
        · obtain ⟨h3, h4⟩ := h2 e i h
          rcases hb' with ⟨rfl, hlt⟩ | ⟨b, hb, rfl, hle⟩
          · rcases h3 with h3 | ⟨k, rfl, hk, hbb, hj⟩
            · simp only [Option.some.injEq, Prod.mk.injEq] at h3
              obtain ⟨rfl, rfl⟩ := h3
              refine ⟨Or.inr ⟨0, by simp, by simp, hlt, by simp⟩, fun j e' he' => ?_⟩
              cases j with
              | zero => simp at he'; rw [he']
              | succ j => exact h4 j e' (by simpa using he')
            · have hec : e < c := hbb _ rfl
              refine ⟨Or.inr ⟨k + 1, by omega, by simpa using hk, fun b hb => lt_trans hec (hlt b hb), fun j hjk e' he' => ?_⟩,
                fun j e' he' => ?_⟩
              · cases j with
                | zero => simp at he'; rw [← he']; exact hec
                | succ j => exact hj j (by omega) e' (by simpa using he')
              · cases j with
                | zero => simp at he'; rw [← he']; exact hec.le
                | succ j => exact h4 j e' (by simpa using he')
          · rcases h3 with h3 | ⟨k, rfl, hk, hbb, hj⟩
            · refine ⟨Or.inl (by rw [hb, h3]), fun j e' he' => ?_⟩
              cases j with
              | zero =>
                simp at he'
                simp only [Option.some.injEq] at h3
                rw [← he']
                rw [h3] at hle
                exact hle
              | succ j => exact h4 j e' (by simpa using he')
            · have hec : e < b.1 := hbb _ rfl
              refine ⟨Or.inr ⟨k + 1, by omega, by simpa using hk, fun b2 hb2 => ?_, fun j hjk e' he' => ?_⟩, fun j e' he' => ?_⟩
              · rw [hb] at hb2; cases hb2; exact hec
              · cases j with
                | zero => simp at he'; rw [← he']; exact lt_of_lt_of_le hec hle
                | succ j => exact hj j (by omega) e' (by simpa using he')
              · cases j with
                | zero => simp at he'; rw [← he']; exact (lt_of_lt_of_le hec hle).le
                | succ j => exact h4 j e' (by simpa using he')
      cases best with
      | none => exact step (some (c, ii)) (Or.inl ⟨rfl, by simp⟩) rfl
      | some b =>
        by_cases hcb : c < b.1
        · exact step (some (c, ii)) (Or.inl ⟨rfl, by simpa using hcb⟩) (by rw [phaseSearch, if_pos hcb])
        · exact step (some b) (Or.inr ⟨b, rfl, rfl, not_lt.1 hcb⟩) (by rw [phaseSearch, if_neg hcb])

/-- **C108.** The search over the sampling phases ends with the first phase of smallest error; phases whose error is NaN are
passed over, and only if all are NaN no phase is chosen (the scripts go on with phase -1 and zero taps). -/
theorem C108_phase_search {E : Type} [LinearOrder E] (errs : List (Option E)) :
    (phaseSearch 0 none errs = none ↔ ∀ e ∈ errs, e = none) ∧
    ∀ e i, phaseSearch 0 none errs = some (e, i) ↔ errs[i]? = some (some e) ∧ (∀ (j : ℕ) e', errs[j]? = some (some e') → e ≤ e') ∧
      ∀ j < i, ∀ e', errs[j]? = some (some e') → e < e' := by
  obtain ⟨h1, h2⟩ := phaseSearch_spec errs 0 none
  refine ⟨by rw [h1]; simp, fun e i => ⟨fun h => ?_, fun h => ?_⟩⟩
  · obtain ⟨h3, h4⟩ := h2 e i h
    rcases h3 with h3 | ⟨k, hk, hk1, -, hk2⟩
    · cases h3
    · rw [zero_add] at hk
      subst hk
      exact ⟨hk1, h4, hk2⟩
  · obtain ⟨h3, h4, h5⟩ := h
    cases hr : phaseSearch 0 none errs with
    | none =>
      have := (h1.1 hr).2 (some e) (List.mem_of_getElem? h3)
      cases this
    | some p =>
      obtain ⟨e2, i2⟩ := p
      obtain ⟨h6, h7⟩ := h2 e2 i2 hr
      rcases h6 with h6 | ⟨k, hk, hk1, -, hk2⟩
      · cases h6
      · rw [zero_add] at hk
        subst hk
        have hee : e = e2 := le_antisymm (h4 _ _ hk1) (h7 _ _ h3)
        subst hee
        have : i2 = i := by
          rcases lt_trichotomy i2 i with h | h | h
          · exact absurd (h5 _ h _ hk1) (lt_irrefl _)
          · exact h
          · exact absurd (hk2 _ h _ h3) (lt_irrefl _)
        rw [this]

example : phaseSearch (E := ℤ) 0 none [none, some 5, some 2, none, some 2, some 3] = some (2, 2) := by decide

/-! ### interpolation -/

/-- **C108.** A channel with upsampled coefficients behind the pulse shaping: the result is the shaped output of the
symbol-rate channel, for any pulse. Holds for recursive channels as well. -/
theorem C108_interpolation (x b a ub ua : List ℝ) (osr span : ℕ) (name : String) (β : ℝ) (g : ℝ → ℝ)
    (hg : IsPulse name β osr g) (ho : 0 < osr) (hs : 0 < span) (hx : 0 < x.length)
    (hb : 0 < b.length) (ha : 0 < a.length) (h0 : a.getD 0 0 ≠ 0) (hub : upsample b osr = .ok ub)
    (hua : upsample a osr = .ok ua) :
    ∃ w s y zw zs zy z, awgnChannel x b (.vec a) none = .ok (w, zw) ∧ pulseShape x osr span name β none = .ok (s, zs) ∧
      awgnChannel s ub (.vec ua) none = .ok (y, z) ∧ pulseShape w osr span name β none = .ok (y, zy) := by
  obtain ⟨w, zw, ew, hwl, hw⟩ := C44_difference_equation b (.vec a) x hb ha h0 hx
  have hp := getPulse_eq name β osr span ho g hg
  obtain ⟨ux, eux, huxl, es⟩ := pulseShape_eq x osr span name β g hp ho hs hx none (by simp)
  obtain ⟨uw, euw, huwl, ey⟩ := pulseShape_eq w osr span name β g hp ho hs (by omega) none (by simp)
  rw [Option.getD_none] at es ey
  obtain ⟨p, hpdef⟩ : ∃ p, p = (timeVec osr span : List ℝ).map g := ⟨_, rfl⟩
  have hpl : p.length = osr * span * 2 := by rw [hpdef, List.length_map, timeVec_length]
  rw [← hpdef] at es ey
  obtain ⟨s, hsdef⟩ : ∃ s, s = (lfRun id p [1] (List.replicate (osr * span * 2 - 1) 0) ux).1 := ⟨_, rfl⟩
  obtain ⟨y, hydef⟩ : ∃ y, y = (lfRun id p [1] (List.replicate (osr * span * 2 - 1) 0) uw).1 := ⟨_, rfl⟩
  have hsl : s.length = x.length * osr := by rw [hsdef, lfRun_length, huxl]
  have hyl : y.length = x.length * osr := by rw [hydef, lfRun_length, huwl, hwl]
  have hpos : 0 < x.length * osr := Nat.mul_pos hx ho
  -- the shaped signals at all times up to the end
  have shaped : ∀ (u v : List ℝ), u.length = x.length * osr →
      v = (lfRun id p [1] (List.replicate (osr * span * 2 - 1) 0) u).1 → ∀ t : ℤ, t < x.length * osr →
      withPast [] v t = ∑ k ∈ range p.length, p.getD k 0 * withPast [] u (t - k) := by
    intro u v hu hv t ht
    rcases time_cases t with ⟨n, rfl⟩ | ⟨k, rfl⟩
    · rw [withPast_nat, hv, shape_out p u osr span hpl (Nat.mul_pos ho hs) n (by rw [hu]; exact_mod_cast ht)]
    · rw [withPast_neg, sum_eq_zero]
      · simp
      · intro i _
        have : withPast [] u (-(k : ℤ) - 1 - i) = 0 := by
          unfold withPast
          rw [if_neg (by omega)]
          simp
        rw [this, mul_zero]
  obtain ⟨z, e⟩ := C44_only_solution ub (.vec ua) s (by rw [up_length b ub osr ho hub]; exact Nat.mul_pos hb ho)
    (by show 0 < ua.length; rw [up_length a ua osr ho hua]; exact Nat.mul_pos ha ho)
    (by show ua.getD 0 0 ≠ 0; rw [up_zero a ua osr ho ha hua]; exact h0) (by omega) y (by omega) (fun n hn => by
      show DiffEq ub ua _ _ _
      have hn' : (n : ℤ) < x.length * osr := by rw [hsl] at hn; exact_mod_cast hn
      rw [diffEq_iff _ _ (by rw [up_length a ua osr ho hua]; exact Nat.mul_pos ha ho), up_sum a ua osr ho hua,
        up_sum b ub osr ho hub]
      have e1 : ∀ (c u v : List ℝ), u.length = x.length * osr →
          v = (lfRun id p [1] (List.replicate (osr * span * 2 - 1) 0) u).1 →
          ∑ j ∈ range c.length, c.getD j 0 * withPast [] v ((n : ℤ) - ((j * osr : ℕ) : ℤ))
            = ∑ k ∈ range p.length, p.getD k 0 * ∑ j ∈ range c.length, c.getD j 0 * withPast [] u ((n : ℤ) - k - j * osr) := by
        intro c u v hu hv
        simp only [mul_sum]
        rw [sum_comm]
        refine sum_congr rfl fun j _ => ?_
        rw [shaped u v hu hv _ (by have : (0 : ℤ) ≤ ((j * osr : ℕ) : ℤ) := by positivity
                                   omega), mul_sum]
        refine sum_congr rfl fun k _ => ?_
        rw [show (n : ℤ) - ((j * osr : ℕ) : ℤ) - k = (n : ℤ) - k - j * osr by push_cast; ring]
        ring
      rw [e1 a uw y (by rw [huwl, hwl]) hydef, e1 b ux s huxl hsdef]
      refine sum_congr rfl fun k _ => ?_
      rw [up_filter b a x w ux uw osr ho eux euw ha hw ((n : ℤ) - k) (by omega)])
  exact ⟨w, s, y, zw, _, _, z, ew, by rw [es, hsdef], e, by rw [ey, hydef]⟩

/-- **C108.** Sampled once per symbol, a pulse without intersymbol interference behind which the channel is applied with
upsampled coefficients gives the output of the symbol-rate channel: the received samples of `rx_example2` (without jitter,
noise and CTLE) are those of a symbol-rate simulation. -/
theorem C108_nyquist (x b a ub ua : List ℝ) (osr span : ℕ) (name : String) (β : ℝ)
    (hname : name = "sinc" ∨ (name = "rcos" ∧ β ≠ 0)) (ho : 0 < osr) (hs : 0 < span) (hx : 0 < x.length)
    (hb : 0 < b.length) (ha : 0 < a.length) (h0 : a.getD 0 0 ≠ 0) (hub : upsample b osr = .ok ub)
    (hua : upsample a osr = .ok ua) :
    ∃ w s y zw zs z, awgnChannel x b (.vec a) none = .ok (w, zw) ∧ pulseShape x osr span name β none = .ok (s, zs) ∧
      awgnChannel s ub (.vec ua) none = .ok (y, z) ∧
      ∀ i : ℕ, i + span < x.length → y.getD ((i + span) * osr) 0 = w.getD i 0 := by
  obtain ⟨g, hg⟩ : ∃ g, IsPulse name β osr g := by
    rcases hname with rfl | ⟨rfl, hβ⟩
    · exact ⟨_, Or.inr (Or.inl ⟨rfl, rfl⟩)⟩
    · exact ⟨_, Or.inr (Or.inr (Or.inl ⟨rfl, hβ, rcosFn_spec β⟩))⟩
  obtain ⟨w, s, y, zw, zs, zy, z, h1, h2, h3, h4⟩ := C108_interpolation x b a ub ua osr span name β g hg ho hs hx hb ha h0 hub hua
  obtain ⟨w', zw', ew, hwl, -⟩ := C44_difference_equation b (.vec a) x hb ha h0 hx
  rw [h1] at ew
  cases ew
  obtain ⟨y', zy', e, -, hy⟩ := C51_nyquist w osr span name β hname ho hs (by omega)
  rw [h4] at e
  cases e
  exact ⟨w, s, y, zw, zs, z, h1, h2, h3, fun i hi => hy i (by omega)⟩

/-- The hypotheses are met: 32 samples per symbol, rolloff 0.9, span 8, the recursive channel of `channel_example`. -/
example : ∃ ub ua : List ℝ, upsample [1/2] 32 = .ok ub ∧ upsample [1, -1/5] 32 = .ok ua ∧
    ∃ w s y zw zs z, awgnChannel [3, -1, 1, 1, -3, 3, -1, 1, 1, -3] [1/2] (.vec [1, -1/5]) none = .ok (w, zw) ∧
      pulseShape [3, -1, 1, 1, -3, 3, -1, 1, 1, -3] 32 8 "rcos" (9/10) none = .ok (s, zs) ∧
      awgnChannel s ub (.vec ua) none = .ok (y, z) ∧ y.getD ((1 + 8) * 32) 0 = w.getD 1 0 := by
  obtain ⟨ub, hub, -⟩ := C43_upsample [(1/2 : ℝ)] 32 (by norm_num)
  obtain ⟨ua, hua, -⟩ := C43_upsample [(1 : ℝ), -1/5] 32 (by norm_num)
  obtain ⟨w, s, y, zw, zs, z, h1, h2, h3, h4⟩ := C108_nyquist [3, -1, 1, 1, -3, 3, -1, 1, 1, -3] [1/2] [1, -1/5] ub ua 32 8 "rcos"
    (9/10) (Or.inr ⟨rfl, by norm_num⟩) (by norm_num) (by norm_num) (by simp) (by simp) (by simp) (by simp) hub hua
  exact ⟨ub, ua, hub, hua, w, s, y, zw, zs, z, h1, h2, h3, h4 1 (by simp)⟩

/-- **C108, negative.** `rx_example` (line 146) filters the oversampled signal with the symbol-spaced taps of the channel
without upsampling them: a channel that delays by one symbol then delays by one sample only, and the sample of symbol `i`
carries symbol `i` instead of symbol `i - 1`. -/
theorem C108_symbol_spaced_taps_at_sample_rate (x : List ℝ) (osr span : ℕ) (β : ℝ) (ho : 2 ≤ osr) (hs : 0 < span) :
    ∀ i : ℕ, 0 < i → i + span < x.length →
    ∃ s y y' u zs z z', pulseShape x osr span "rect" β none = .ok (s, zs) ∧
      awgnChannel s [0, 1] (.vec [1]) none = .ok (y, z) ∧ upsample [(0 : ℝ), 1] osr = .ok u ∧
      awgnChannel s u (.vec [1]) none = .ok (y', z') ∧
      y.getD ((i + span) * osr) 0 = x.getD i 0 ∧ y'.getD ((i + span) * osr) 0 = x.getD (i - 1) 0 := by
  intro i hi hix
  have hx : 0 < x.length := by omega
  obtain ⟨s, zs, es, hsl, hsv⟩ := C50_rect x osr span β (by omega) hs hx
  obtain ⟨u, hu, hul, -⟩ := C43_upsample [(0 : ℝ), 1] osr (by omega)
  have hpos : 0 < s.length := by rw [hsl]; exact Nat.mul_pos hx (by omega)
  obtain ⟨y, z, e, -, hy⟩ := C44_difference_equation [0, 1] (.vec [(1 : ℝ)]) s (by simp) (by simp [Denom.coeffs])
    (by simp [Denom.coeffs]) hpos
  obtain ⟨y', z', e', -, hy'⟩ := C44_difference_equation u (.vec [(1 : ℝ)]) s (by rw [hul]; simp; omega)
    (by simp [Denom.coeffs]) (by simp [Denom.coeffs]) hpos
  have hn : (i + span) * osr < s.length := by rw [hsl]; exact Nat.mul_lt_mul_of_pos_right hix (by omega)
  have hso : osr ≤ span * osr := Nat.le_mul_of_pos_left _ hs
  have hio : osr ≤ i * osr := Nat.le_mul_of_pos_left _ hi
  have ha : ∀ v : List ℝ, ∀ n : ℕ, ∑ j ∈ range ((Denom.vec [(1 : ℝ)]).coeffs).length,
      ((Denom.vec [(1 : ℝ)]).coeffs).getD j 0 * withPast [] v ((n : ℤ) - j) = v.getD n 0 := by
    intro v n
    simp [Denom.coeffs, withPast_nat]
  refine ⟨s, y, y', u, zs, z, z', es, e, hu, e', ?_, ?_⟩
  · have := hy _ hn
    rw [diffEq_iff _ _ (by simp [Denom.coeffs]), ha] at this
    rw [this]
    simp only [List.length_cons, List.length_nil, zero_add, sum_range_succ, sum_range_zero, List.getD_cons_zero,
      List.getD_cons_succ, zero_mul, one_mul]
    rw [show (((i + span) * osr : ℕ) : ℤ) - ((0 + 1 : ℕ) : ℤ) = (((i + span) * osr - 1 : ℕ) : ℤ) by
      rw [Nat.cast_sub (by rw [add_mul]; omega)], withPast_nat, hsv _ (by rw [← hsl]; omega), if_neg (by rw [add_mul]; omega)]
    congr 1
    rw [show (i + span) * osr - 1 - (span * osr - osr / 2) = (osr / 2 - 1) + i * osr by rw [add_mul]; omega,
      Nat.add_mul_div_right _ _ (by omega), Nat.div_eq_of_lt (by omega), zero_add]
  · have := hy' _ hn
    rw [diffEq_iff _ _ (by simp [Denom.coeffs]), ha, up_sum _ u osr (by omega) hu] at this
    rw [this]
    simp only [List.length_cons, List.length_nil, zero_add, sum_range_succ, sum_range_zero, List.getD_cons_zero,
      List.getD_cons_succ, zero_mul, one_mul]
    rw [← Nat.cast_sub (by rw [add_mul]; omega), withPast_nat, hsv _ (by rw [← hsl]; omega), if_neg (by rw [add_mul]; omega)]
    congr 1
    obtain ⟨k, rfl⟩ : ∃ k, i = k + 1 := ⟨i - 1, by omega⟩
    rw [show (k + 1 + span) * osr - osr - (span * osr - osr / 2) = osr / 2 + k * osr by simp only [add_mul, one_mul]; omega,
      Nat.add_mul_div_right _ _ (by omega), Nat.div_eq_of_lt (by omega), zero_add, Nat.add_sub_cancel]

/-- one symbol of delay requested, none obtained: with 32 samples per symbol the sample of the third symbol is 5 instead of
-1 -/
example : ∃ s y y' u zs z z', pulseShape [(3 : ℝ), -1, 5, 7] 32 1 "rect" 0 none = .ok (s, zs) ∧
      awgnChannel s [0, 1] (.vec [1]) none = .ok (y, z) ∧ upsample [(0 : ℝ), 1] 32 = .ok u ∧
      awgnChannel s u (.vec [1]) none = .ok (y', z') ∧ y.getD 96 0 = 5 ∧ y'.getD 96 0 = -1 := by
  simpa using C108_symbol_spaced_taps_at_sample_rate [3, -1, 5, 7] 32 1 0 (by norm_num) (by norm_num) 2 (by norm_num) (by simp)

end Verif
