import Verif.Props.EqNoise
import Verif.Props.Ffe
import Verif.Lemmas.DfeNoise

/-!
# The decision feedback equalizer in noise (C114)

Symbols through `awgn_channel` with the response `g, h1, .., hL`, `awgn`, then `ffe_dfe` with the FFE tap `1/g` and the feedback
taps `h/g`. The samples behind `numpy.random.normal` are independent standard normal.
-/

open MeasureTheory ProbabilityTheory

namespace Verif
open Spec

/-- the decisions behind the decision feedback equalizer -/
def DfeDecides (c : Constellation) (fs : Bool) (g : ℝ) (h x : List ℝ) (snr : ℝ) (noise out : List ℝ) : Prop :=
  ∃ y o, awgn noise x snr = some y ∧ ffeDfe y [1 / g] (some (h.map (· / g))) (some (getLevels c fs)) 1 0 none none = .ok o ∧
    slicer (.vec o.signal) (some (getLevels c fs)) = .ok (.vec out)

theorem withPast_pred (l : List ℝ) (n j : ℕ) : withPast [] l ((n : ℤ) - 1 - j) = if j < n then l.getD (n - 1 - j) 0 else 0 := by
  unfold withPast
  by_cases hj : j < n
  · rw [if_pos hj, if_pos (by omega), show ((n : ℤ) - 1 - j).toNat = n - 1 - j by omega]
  · rw [if_neg hj, if_neg (by omega), List.getD_eq_default _ _ (by simp)]

/-- a sample behind the channel, first tap apart -/
theorem channel_sample (lv h : List ℝ) (g : ℝ) (hl : 0 < lv.length) (x zo : List ℝ)
    (hx : awgnChannel lv (g :: h) (.num 1) none = .ok (x, zo)) :
    x.length = lv.length ∧ ∀ n < lv.length, x.getD n 0
      = g * lv.getD n 0 + ∑ j ∈ Finset.range h.length, if j < n then h.getD j 0 * lv.getD (n - 1 - j) 0 else 0 := by
  obtain ⟨x', zo', h1, h2, h3⟩ := C44_difference_equation (g :: h) (.num (1 : ℝ)) lv (by simp) (by simp [Denom.coeffs])
    (by simp [Denom.coeffs]) hl
  rw [hx] at h1
  obtain ⟨rfl, rfl⟩ := Prod.mk.inj (Except.ok.inj h1)
  refine ⟨h2, fun n hn => ?_⟩
  have h := h3 n hn
  unfold DiffEq at h
  simp only [Denom.coeffs, List.length_cons, List.length_nil] at h
  rw [withPast_nat, Finset.sum_range_succ'] at h
  simp only [List.getD_cons_zero, List.getD_cons_succ, one_mul, Nat.cast_zero, sub_zero, withPast_nat] at h
  have hI : ∀ f : ℕ → ℝ, ∑ j ∈ Finset.Ico 1 (0 + 1), f j = 0 := fun f => by simp
  simp only [hI, sub_zero] at h
  rw [h, add_comm]
  congr 1
  refine Finset.sum_congr rfl fun j _ => ?_
  rw [show (n : ℤ) - ((j + 1 : ℕ) : ℤ) = (n : ℤ) - 1 - j by push_cast; ring, withPast_pred]
  split <;> simp

/-- what the decision feedback equalizer does to a noisy record: symbol, noise, and what wrong decisions leave -/
theorem dfe_noisy (c : Constellation) (fs : Bool) (sym : List Int) (hs : ∀ v ∈ sym, 0 ≤ v ∧ v < numLevels c)
    (h2 : 2 ≤ sym.length) (lv : List ℝ) (hlv : mapping sym c fs none false = .ok lv) (hnz : ∃ v ∈ lv, v ≠ 0) (g : ℝ) (hg : 0 < g)
    (h : List ℝ) (hh : 0 < h.length) (x zo : List ℝ) (hx : awgnChannel lv (g :: h) (.num 1) none = .ok (x, zo)) (snr : ℝ) :
    x.length = sym.length ∧ (∀ n : Fin sym.length, lv.getD n 0 = (getLevels c fs).getD (sym.getD n 0).toNat 0) ∧
    ∃ s, awgnStd x snr = some s ∧ 0 < s ∧ ∃ D : (Fin x.length → ℝ) → List ℝ,
      (∀ z, (D z).length = x.length ∧ ∀ out, DfeDecides c fs g h x snr (List.ofFn z) out ↔ out = D z) ∧
      DfeProcess x.length (getLevels c fs) (h.map (· / g)) (fun n => lv.getD n 0) (s / g) fun z n => (D z).getD n 0 := by
  obtain ⟨s0, -, -, hsym⟩ := noisy_symbols c fs sym hs h2 lv hlv hnz snr
  have hll : lv.length = sym.length := mapping_length c fs sym hs lv hlv
  obtain ⟨hxl, hxs⟩ := channel_sample lv h g (by omega) x zo hx
  have hxz : ∃ v ∈ x, v ≠ 0 := by
    by_contra hc
    push Not at hc
    have hx0 : ∀ n, x.getD n 0 = 0 := by
      intro n
      by_cases hn : n < x.length
      · rw [List.getD_eq_getElem x 0 hn]; exact hc _ (List.getElem_mem _)
      · exact List.getD_eq_default _ _ (by omega)
    have hall : ∀ n < lv.length, lv.getD n 0 = 0 := by
      intro n
      induction n using Nat.strong_induction_on with
      | _ n ih =>
        intro hn
        have e := hxs n hn
        rw [hx0 n, Finset.sum_eq_zero fun j _ => by
          split
          · rw [ih _ (by omega) (by omega), mul_zero]
          · rfl, add_zero] at e
        exact (mul_eq_zero.1 e.symm).resolve_left hg.ne'
    obtain ⟨v, hv, hv0⟩ := hnz
    obtain ⟨n, hn, rfl⟩ := List.mem_iff_getElem.1 hv
    exact hv0 (by rw [← List.getD_eq_getElem lv 0 hn]; exact hall n hn)
  refine ⟨hxl.trans hll, fun n => ?_, ?_⟩
  · obtain ⟨y, -, -, hy⟩ := hsym fun _ => 0
    exact (hy n).1
  obtain ⟨s, hs1, -, hs0, hn⟩ := noisy_ffe x [0] snr (by omega) (by simp)
  choose y o h1 h3 h4 h5 h6 h7 using hn
  have hlen : (getLevels c fs).length = numLevels c := by rw [getLevels_length, numLevels_eq]
  have hlv0 : (getLevels c fs).length ≠ 0 := by have := numLevels_ge c; omega
  have hlvne : getLevels c fs ≠ [] := by rintro h; rw [h] at hlv0; simp at hlv0
  have hd := fun z => C47_recursion_symbol_rate (y z) [1 / g] (h.map (· / g)) (some (getLevels c fs)) (by simpa using hlvne) 0
    (by simpa using hh) (by simp) (by rw [h3]; omega) none none (by simp) (by simp)
  choose r d e1 e2 e3 e4 using hd
  refine ⟨s, hs1, hs0 hxz, fun z => (r z).signal.map (sliceOne (getLevels c fs)), fun z => ⟨by simp [e2, h3], fun out => ⟨?_, ?_⟩⟩, ⟨?_⟩⟩
  · rintro ⟨y', o', a1, a2, a3⟩
    rw [h1] at a1
    obtain rfl := Option.some.inj a1
    rw [e1] at a2
    obtain rfl := Except.ok.inj a2
    simp [slicer, hlv0] at a3
    exact a3.symm
  · rintro rfl
    exact ⟨y z, r z, h1 z, e1 z, by simp [slicer, hlv0]⟩
  · intro z n hn
    have hny : n < (y z).length := by rw [h3]; exact hn
    have hdec : ∀ k < x.length, ((r z).signal.map (sliceOne (getLevels c fs))).getD k 0 = (d z).getD k 0 := by
      intro k hk
      rw [getD_map_zero _ 0 0 _ _ (by rw [e2, h3]; exact hk)]
      exact nearestFirst_unique _ _ _ _ (sliceOne_spec _ hlvne _) (e4 z k (by rw [h3]; exact hk)).2
    show ((r z).signal.map (sliceOne (getLevels c fs))).getD n 0 = _
    rw [getD_map_zero _ 0 0 _ _ (by rw [e2]; exact hny)]
    congr 1
    rw [(e4 z n hny).1]
    simp only [List.length_cons, List.length_nil, Finset.sum_range_succ, Finset.sum_range_zero, List.getD_cons_zero, Nat.cast_zero, sub_zero,
      zero_add, Option.getD_none, List.drop_nil, List.reverse_nil]
    rw [withPast_nat, h4 z ⟨n, hn⟩]
    simp only
    rw [hxs n (by omega)]
    unfold wrongPast
    rw [List.length_map]
    have e5 : ∀ j ∈ Finset.range h.length, (h.map (· / g)).getD j 0 * withPast [] (d z) ((n : ℤ) - 1 - j)
        = if j < n then h.getD j 0 / g * ((r z).signal.map (sliceOne (getLevels c fs))).getD (n - 1 - j) 0 else 0 := by
      intro j hj
      rw [withPast_pred, getD_map_zero _ 0 0 _ _ (Finset.mem_range.1 hj)]
      split
      · rw [hdec _ (by omega)]
      · rw [mul_zero]
    have e6 : ∀ j ∈ Finset.range h.length, (if j < n then (h.map (· / g)).getD j 0 * (lv.getD (n - 1 - j) 0
        - ((r z).signal.map (sliceOne (getLevels c fs))).getD (n - 1 - j) 0) else 0)
        = (1 / g) * (if j < n then h.getD j 0 * lv.getD (n - 1 - j) 0 else 0)
          - if j < n then h.getD j 0 / g * ((r z).signal.map (sliceOne (getLevels c fs))).getD (n - 1 - j) 0 else 0 := by
      intro j hj
      rw [getD_map_zero _ 0 0 _ _ (Finset.mem_range.1 hj)]
      split
      · ring
      · ring
    rw [Finset.sum_congr rfl e5, Finset.sum_congr rfl e6, Finset.sum_sub_distrib, ← Finset.mul_sum]
    field_simp
    ring

/-- number of levels next to the level sent at most -/
def mostNeighbours (M : ℕ) : ℕ := if M = 2 then 1 else 2

theorem neighbours_le (M : ℕ) (k : ℕ) (hk : k < M) : gridNeighbours M k ≤ mostNeighbours M := by
  unfold gridNeighbours mostNeighbours
  split_ifs <;> omega

theorem level_span (c : Constellation) (fs : Bool) (u v : ℝ) (hu : u ∈ getLevels c fs) (hv : v ∈ getLevels c fs) :
    |u - v| ≤ (numLevels c - 1 : ℕ) * ((getLevels c fs).getD 1 0 - (getLevels c fs).getD 0 0) := by
  obtain ⟨hd, hgrid⟩ := levels_grid c fs
  have hlen : (getLevels c fs).length = numLevels c := by rw [getLevels_length, numLevels_eq]
  obtain ⟨i, hi, rfl⟩ := List.mem_iff_getElem.1 hu
  obtain ⟨j, hj, rfl⟩ := List.mem_iff_getElem.1 hv
  rw [← List.getD_eq_getElem _ 0 hi, ← List.getD_eq_getElem _ 0 hj, hgrid i (by omega), hgrid j (by omega)]
  obtain ⟨d, hdd⟩ : ∃ d, d = (getLevels c fs).getD 1 0 - (getLevels c fs).getD 0 0 := ⟨_, rfl⟩
  rw [← hdd] at hd ⊢
  rw [show ∀ L : ℝ, L + i * d - (L + j * d) = (i - j) * d from fun L => by ring, abs_mul, abs_of_pos hd]
  refine mul_le_mul_of_nonneg_right ?_ hd.le
  have h1 : (i : ℝ) ≤ (numLevels c - 1 : ℕ) := by exact_mod_cast (by omega : i ≤ numLevels c - 1)
  have h2 : (j : ℝ) ≤ (numLevels c - 1 : ℕ) := by exact_mod_cast (by omega : j ≤ numLevels c - 1)
  have h3 : (0 : ℝ) ≤ i := Nat.cast_nonneg _
  have h4 : (0 : ℝ) ≤ j := Nat.cast_nonneg _
  exact abs_le.2 ⟨by linarith, by linarith⟩

/-- **C114.** Error propagation of the decision feedback equalizer is bounded. With `p1` the largest probability of a wrong
decision over all states of the feedback register (all its decisions wrong by the whole range of the levels), the expected
number of wrong decisions is at most that without error propagation over `(1 - p1)^L`, for `L` feedback taps. -/
theorem C114_errors (c : Constellation) (fs : Bool) (sym : List Int) (hs : ∀ v ∈ sym, 0 ≤ v ∧ v < numLevels c)
    (h2 : 2 ≤ sym.length) (lv : List ℝ) (hlv : mapping sym c fs none false = .ok lv) (hnz : ∃ v ∈ lv, v ≠ 0) (g : ℝ) (hg : 0 < g)
    (h : List ℝ) (hh : 0 < h.length) (x zo : List ℝ) (hx : awgnChannel lv (g :: h) (.num 1) none = .ok (x, zo)) (snr : ℝ)
    (d : ℝ) (hd : d = (getLevels c fs).getD 1 0 - (getLevels c fs).getD 0 0)
    (ρ : ℝ) (hρ : ρ = (numLevels c - 1 : ℕ) * d * ∑ j ∈ Finset.range h.length, |h.getD j 0 / g|) :
    ∃ s, awgnStd x snr = some s ∧ 0 < s ∧ (mostNeighbours (numLevels c) * qFunc ((d / 2 - ρ) / (s / g)) < 1 →
      ∑ n ∈ Finset.range sym.length,
          (normalDraws x.length).real {z | ∃ out, DfeDecides c fs g h x snr (List.ofFn z) out ∧ out.getD n 0 ≠ lv.getD n 0}
        ≤ sym.length * (mostNeighbours (numLevels c) * qFunc (d / (2 * (s / g))))
          / (1 - mostNeighbours (numLevels c) * qFunc ((d / 2 - ρ) / (s / g))) ^ h.length) := by
  obtain ⟨hxl, hsy, s, hs1, hs0, D, hD, P⟩ := dfe_noisy c fs sym hs h2 lv hlv hnz g hg h hh x zo hx snr
  refine ⟨s, hs1, hs0, fun hp => ?_⟩
  have hσ : 0 < s / g := by positivity
  have hlen : (getLevels c fs).length = numLevels c := by rw [getLevels_length, numLevels_eq]
  have hM := numLevels_ge c
  have hlvne : getLevels c fs ≠ [] := by rintro h; rw [h] at hlen; simp at hlen; omega
  obtain ⟨hdp, hgrid⟩ := levels_grid c fs
  rw [← hd] at hdp hgrid
  have hev : ∀ n, {z : Fin x.length → ℝ | ∃ out, DfeDecides c fs g h x snr (List.ofFn z) out ∧ out.getD n 0 ≠ lv.getD n 0}
      = {z | (D z).getD n 0 ≠ lv.getD n 0} := by
    intro n
    ext z
    constructor
    · rintro ⟨out, h1, h3⟩
      rw [((hD z).2 out).1 h1] at h3
      exact h3
    · intro h3
      exact ⟨D z, ((hD z).2 _).2 rfl, h3⟩
  simp only [hev]
  -- the level sent at symbol n
  have hk : ∀ n < x.length, ∃ k < numLevels c, lv.getD n 0 = (getLevels c fs).getD k 0 := by
    intro n hn
    have hn' : n < sym.length := by omega
    exact ⟨_, (sym_lt c sym hs ⟨n, hn'⟩).1, hsy ⟨n, hn'⟩⟩
  have hmem : ∀ k < numLevels c, (getLevels c fs).getD k 0 ∈ getLevels c fs := by
    intro k hk
    rw [List.getD_eq_getElem _ 0 (by omega)]
    exact List.getElem_mem _
  have hb : ∀ k < numLevels c, (gridNeighbours (numLevels c) k : ℝ) ≤ mostNeighbours (numLevels c) := by
    intro k hk
    exact_mod_cast neighbours_le _ k hk
  have hdec : ∀ n < x.length, ∀ z, (D z).getD n 0 ∈ getLevels c fs := by
    intro n hn z
    have := P.step z n hn
    rw [this]
    exact sliceOne_mem _ hlvne _
  have h := P.errors hlvne (mostNeighbours (numLevels c) * qFunc (d / (2 * (s / g))))
    (mostNeighbours (numLevels c) * qFunc ((d / 2 - ρ) / (s / g))) (mul_nonneg (Nat.cast_nonneg _) (qFunc_pos _).le)
    (mul_nonneg (Nat.cast_nonneg _) (qFunc_pos _).le) hp ?_ ?_
  · rw [List.length_map] at h
    rw [← hxl]
    exact h
  · intro n hn
    obtain ⟨k, hk1, hk2⟩ := hk n hn
    rw [hk2, (slice_prob_off (getLevels c fs) (numLevels c) hlen _ _ hdp hgrid hM k hk1 0 (s / g) hσ).2.2, decisionError_zero _ hM]
    exact mul_le_mul_of_nonneg_right (hb k hk1) (qFunc_pos _).le
  · intro n hn z
    obtain ⟨k, hk1, hk2⟩ := hk n hn
    have hw : |wrongPast (h.map (· / g)) (fun n => lv.getD n 0) (fun n => (D z).getD n 0) n| ≤ ρ := by
      have := wrongPast_le (h.map (· / g)) (fun n => lv.getD n 0) (fun n => (D z).getD n 0) n ((numLevels c - 1 : ℕ) * d)
        (by positivity) (fun i hi => by
          obtain ⟨k', hk1', hk2'⟩ := hk i (by omega)
          have := level_span c fs (lv.getD i 0) ((D z).getD i 0) (by rw [hk2']; exact hmem k' hk1') (hdec i (by omega) z)
          rwa [← hd] at this)
      rw [hρ]
      refine this.trans (le_of_eq ?_)
      rw [List.length_map]
      congr 1
      exact Finset.sum_congr rfl fun j hj => by rw [getD_map_zero _ 0 0 _ _ (Finset.mem_range.1 hj)]
    rw [hk2, (slice_prob_off (getLevels c fs) (numLevels c) hlen _ _ hdp hgrid hM k hk1 _ (s / g) hσ).2.2]
    refine (decisionError_le _ hM k _ _ ρ _ hw hσ).trans ?_
    exact mul_le_mul_of_nonneg_right (hb k hk1) (qFunc_pos _).le

/-- **C114.** Two levels, and feedback taps whose magnitudes add up to at most half the main tap: error propagation multiplies
the expected number of wrong decisions by `2^L` at most. -/
theorem C114_binary (c : Constellation) (hc : numLevels c = 2) (fs : Bool) (sym : List Int) (hs : ∀ v ∈ sym, 0 ≤ v ∧ v < numLevels c)
    (h2 : 2 ≤ sym.length) (lv : List ℝ) (hlv : mapping sym c fs none false = .ok lv) (hnz : ∃ v ∈ lv, v ≠ 0) (g : ℝ) (hg : 0 < g)
    (h : List ℝ) (hh : 0 < h.length) (hsum : 2 * ∑ j ∈ Finset.range h.length, |h.getD j 0| ≤ g)
    (x zo : List ℝ) (hx : awgnChannel lv (g :: h) (.num 1) none = .ok (x, zo)) (snr : ℝ) :
    ∃ s, awgnStd x snr = some s ∧ 0 < s ∧
      ∑ n ∈ Finset.range sym.length,
          (normalDraws x.length).real {z | ∃ out, DfeDecides c fs g h x snr (List.ofFn z) out ∧ out.getD n 0 ≠ lv.getD n 0}
        ≤ sym.length * 2 ^ h.length * qFunc (((getLevels c fs).getD 1 0 - (getLevels c fs).getD 0 0) / (2 * (s / g))) := by
  obtain ⟨d, hd⟩ : ∃ d, d = (getLevels c fs).getD 1 0 - (getLevels c fs).getD 0 0 := ⟨_, rfl⟩
  obtain ⟨ρ, hρ⟩ : ∃ ρ, ρ = (numLevels c - 1 : ℕ) * d * ∑ j ∈ Finset.range h.length, |h.getD j 0 / g| := ⟨_, rfl⟩
  obtain ⟨s, h1, h3, h4⟩ := C114_errors c fs sym hs h2 lv hlv hnz g hg h hh x zo hx snr d hd ρ hρ
  refine ⟨s, h1, h3, ?_⟩
  have hdp : 0 < d := by rw [hd]; exact (levels_grid c fs).1
  have hm : mostNeighbours (numLevels c) = 1 := by rw [hc]; rfl
  have hρ' : ρ ≤ d / 2 := by
    rw [hρ, hc]
    have e : ∑ j ∈ Finset.range h.length, |h.getD j 0 / g| = (∑ j ∈ Finset.range h.length, |h.getD j 0|) / g := by
      rw [Finset.sum_div]
      exact Finset.sum_congr rfl fun j _ => by rw [abs_div, abs_of_pos hg]
    have e2 : (∑ j ∈ Finset.range h.length, |h.getD j 0|) / g ≤ 1 / 2 := by
      rw [div_le_div_iff₀ hg two_pos]; linarith
    rw [e]
    push_cast
    nlinarith
  have hq : qFunc ((d / 2 - ρ) / (s / g)) ≤ 1 / 2 := by
    rw [← qFunc_zero]
    exact qFunc_anti (div_nonneg (by linarith) (by positivity))
  rw [hm] at h4
  simp only [Nat.cast_one, one_mul] at h4
  have h5 := h4 (by linarith)
  rw [← hd]
  refine h5.trans ?_
  have hqp := qFunc_pos (d / (2 * (s / g)))
  have h6 : (1 / 2 : ℝ) ^ h.length ≤ (1 - qFunc ((d / 2 - ρ) / (s / g))) ^ h.length := pow_le_pow_left₀ (by norm_num) (by linarith) _
  have h7 : (0 : ℝ) < (1 / 2) ^ h.length := by positivity
  calc _ ≤ sym.length * qFunc (d / (2 * (s / g))) / (1 / 2) ^ h.length := by
        apply div_le_div_of_nonneg_left _ h7 h6
        positivity
    _ = _ := by
        rw [one_div, inv_pow, div_inv_eq_mul]
        ring

/-- **C114.** Without a wrong decision in the past there is no interference: the first `n` decisions are all right with the
product of the probabilities of single symbols without channel, and the first wrong decision is at symbol `n` accordingly. -/
theorem C114_first (c : Constellation) (fs : Bool) (sym : List Int) (hs : ∀ v ∈ sym, 0 ≤ v ∧ v < numLevels c)
    (h2 : 2 ≤ sym.length) (lv : List ℝ) (hlv : mapping sym c fs none false = .ok lv) (hnz : ∃ v ∈ lv, v ≠ 0) (g : ℝ) (hg : 0 < g)
    (h : List ℝ) (hh : 0 < h.length) (x zo : List ℝ) (hx : awgnChannel lv (g :: h) (.num 1) none = .ok (x, zo)) (snr : ℝ) :
    ∃ s t, awgnStd x snr = some s ∧ 0 < s ∧ t = ((getLevels c fs).getD 1 0 - (getLevels c fs).getD 0 0) / (2 * (s / g)) ∧
      (∀ n ≤ sym.length, (normalDraws x.length).real {z | ∃ out, DfeDecides c fs g h x snr (List.ofFn z) out ∧
          ∀ i < n, out.getD i 0 = lv.getD i 0}
        = ∏ i ∈ Finset.range n, (1 - gridNeighbours (numLevels c) (sym.getD i 0) * qFunc t)) ∧
      ∀ n < sym.length, (normalDraws x.length).real {z | ∃ out, DfeDecides c fs g h x snr (List.ofFn z) out ∧
          (∀ i < n, out.getD i 0 = lv.getD i 0) ∧ out.getD n 0 ≠ lv.getD n 0}
        = (∏ i ∈ Finset.range n, (1 - gridNeighbours (numLevels c) (sym.getD i 0) * qFunc t))
          * (gridNeighbours (numLevels c) (sym.getD n 0) * qFunc t) := by
  obtain ⟨hxl, hsy, s, hs1, hs0, D, hD, P⟩ := dfe_noisy c fs sym hs h2 lv hlv hnz g hg h hh x zo hx snr
  refine ⟨s, _, hs1, hs0, rfl, ?_⟩
  have hσ : 0 < s / g := by positivity
  have hlen : (getLevels c fs).length = numLevels c := by rw [getLevels_length, numLevels_eq]
  have hM := numLevels_ge c
  obtain ⟨hdp, hgrid⟩ := levels_grid c fs
  have hex : ∀ (z : Fin x.length → ℝ) (Q : List ℝ → Prop), (∃ out, DfeDecides c fs g h x snr (List.ofFn z) out ∧ Q out) ↔ Q (D z) := by
    intro z Q
    constructor
    · rintro ⟨out, h1, h3⟩
      rw [((hD z).2 out).1 h1] at h3
      exact h3
    · intro h3
      exact ⟨D z, ((hD z).2 _).2 rfl, h3⟩
  have hR : ∀ i < sym.length,
      (gaussianReal 0 1).real {u | sliceOne (getLevels c fs) (lv.getD i 0 + (0 + s / g * u)) = lv.getD i 0}
        = 1 - gridNeighbours (numLevels c) (sym.getD i 0) * qFunc (((getLevels c fs).getD 1 0 - (getLevels c fs).getD 0 0) / (2 * (s / g))) ∧
      (gaussianReal 0 1).real {u | sliceOne (getLevels c fs) (lv.getD i 0 + (0 + s / g * u)) = lv.getD i 0}ᶜ
        = gridNeighbours (numLevels c) (sym.getD i 0) * qFunc (((getLevels c fs).getD 1 0 - (getLevels c fs).getD 0 0) / (2 * (s / g))) := by
    intro i hi
    obtain ⟨hk1, hk2⟩ := sym_lt c sym hs ⟨i, hi⟩
    have hl := hsy ⟨i, hi⟩
    simp only at hk1 hk2 hl
    obtain ⟨-, p1, p2⟩ := slice_prob_off (getLevels c fs) (numLevels c) hlen _ _ hdp hgrid hM _ hk1 0 (s / g) hσ
    rw [decisionError_zero _ hM, hk2] at p1 p2
    rw [hl]
    exact ⟨p1, p2⟩
  have hpre : ∀ (z : Fin x.length → ℝ) n, n ≤ x.length → ((∀ i < n, (D z).getD i 0 = lv.getD i 0) ↔ ∀ i : Fin x.length, (i : ℕ) < n →
      z i ∈ {u | sliceOne (getLevels c fs) (lv.getD i 0 + (0 + s / g * u)) = lv.getD i 0}) := fun z n hn => P.prefix_iff z n hn
  constructor
  · intro n hn
    have e : {z : Fin x.length → ℝ | ∃ out, DfeDecides c fs g h x snr (List.ofFn z) out ∧ ∀ i < n, out.getD i 0 = lv.getD i 0}
        = {z | ∀ i : Fin x.length, (i : ℕ) < n → z i ∈ {u | sliceOne (getLevels c fs) (lv.getD i 0 + (0 + s / g * u)) = lv.getD i 0}} := by
      ext z
      rw [Set.mem_ofPred_eq, hex z fun out => ∀ i < n, out.getD i 0 = lv.getD i 0, hpre z n (by omega)]
      rfl
    rw [e, normalDraws, prefix_prob (fun i => {u | sliceOne (getLevels c fs) (lv.getD i 0 + (0 + s / g * u)) = lv.getD i 0}) n (by omega)]
    exact Finset.prod_congr rfl fun i hi => (hR i (by have := Finset.mem_range.1 hi; omega)).1
  · intro n hn
    have e : {z : Fin x.length → ℝ | ∃ out, DfeDecides c fs g h x snr (List.ofFn z) out ∧ (∀ i < n, out.getD i 0 = lv.getD i 0) ∧
          out.getD n 0 ≠ lv.getD n 0}
        = {z | ∀ i : Fin x.length, (i : ℕ) < n + 1 → z i ∈ (fun i => if i = n
            then {u | sliceOne (getLevels c fs) (lv.getD i 0 + (0 + s / g * u)) = lv.getD i 0}ᶜ
            else {u | sliceOne (getLevels c fs) (lv.getD i 0 + (0 + s / g * u)) = lv.getD i 0}) (i : ℕ)} := by
      ext z
      rw [Set.mem_ofPred_eq, hex z fun out => (∀ i < n, out.getD i 0 = lv.getD i 0) ∧ out.getD n 0 ≠ lv.getD n 0, hpre z n (by omega)]
      have hw : (∀ i : Fin x.length, (i : ℕ) < n → z i ∈ {u | sliceOne (getLevels c fs) (lv.getD i 0 + (0 + s / g * u)) = lv.getD i 0}) →
          ((D z).getD n 0 ≠ lv.getD n 0 ↔ z ⟨n, by omega⟩ ∉ {u | sliceOne (getLevels c fs) (lv.getD n 0 + (0 + s / g * u)) = lv.getD n 0}) := by
        intro hp
        refine not_congr ?_
        constructor
        · intro hn'
          exact (hpre z (n + 1) (by omega)).1 (fun i hi => by
            rcases Nat.lt_succ_iff_lt_or_eq.1 hi with hi | rfl
            · exact (hpre z n (by omega)).2 hp i hi
            · exact hn') ⟨n, by omega⟩ (Nat.lt_succ_self n)
        · intro hn'
          exact (hpre z (n + 1) (by omega)).2 (fun i hi => by
            rcases Nat.lt_succ_iff_lt_or_eq.1 hi with hi | hi
            · exact hp i hi
            · have : i = ⟨n, by omega⟩ := Fin.ext hi
              rw [this]; exact hn') n (Nat.lt_succ_self n)
      constructor
      · rintro ⟨hp, hn'⟩ i hi
        rcases Nat.lt_succ_iff_lt_or_eq.1 hi with hi | hi
        · simp only [show ¬ ((i : ℕ) = n) by omega, if_false]
          exact hp i hi
        · have : i = ⟨n, by omega⟩ := Fin.ext hi
          rw [this]
          simp only [if_true]
          exact (hw hp).1 hn'
      · intro hall
        have hp : ∀ i : Fin x.length, (i : ℕ) < n → z i ∈ {u | sliceOne (getLevels c fs) (lv.getD i 0 + (0 + s / g * u)) = lv.getD i 0} := by
          intro i hi
          have := hall i (by omega)
          simpa only [show ¬ ((i : ℕ) = n) by omega, if_false] using this
        refine ⟨hp, (hw hp).2 ?_⟩
        have := hall ⟨n, by omega⟩ (Nat.lt_succ_self n)
        simp only [if_true] at this
        exact this
    rw [e, normalDraws, prefix_prob (fun i => if i = n
            then {u | sliceOne (getLevels c fs) (lv.getD i 0 + (0 + s / g * u)) = lv.getD i 0}ᶜ
            else {u | sliceOne (getLevels c fs) (lv.getD i 0 + (0 + s / g * u)) = lv.getD i 0}) (n + 1) (by omega), Finset.prod_range_succ,
      if_pos rfl, (hR n hn).2]
    congr 1
    refine Finset.prod_congr rfl fun i hi => ?_
    have hi' := Finset.mem_range.1 hi
    rw [if_neg (by omega), (hR i (by omega)).1]

/-- alternating symbols 0, 1, 0, 1, .. -/
def alternating (N : ℕ) : List Int := (List.range N).map fun n => ((n % 2 : ℕ) : Int)

/-- **C114.** Error propagation does happen. NRZ, the response `1, 1` and alternating symbols: after a wrong decision the feedback
turns every following symbol into its opposite, so that the noise has to help for a right one. The decisions are right up to
symbol `n` and all wrong from it on with probability `Q (1 - Q)^(N-1)`, `Q` the probability of one wrong decision. -/
theorem C114_catastrophe (N : ℕ) (hN : 2 ≤ N) (lv : List ℝ) (hlv : mapping (alternating N) .nrz false none false = .ok lv)
    (x zo : List ℝ) (hx : awgnChannel lv [1, 1] (.num 1) none = .ok (x, zo)) (snr : ℝ) :
    ∃ s, awgnStd x snr = some s ∧ 0 < s ∧ ∀ n < N,
      (normalDraws x.length).real {z | ∃ out, DfeDecides .nrz false 1 [1] x snr (List.ofFn z) out ∧
          (∀ i < n, out.getD i 0 = lv.getD i 0) ∧ ∀ i, n ≤ i → i < N → out.getD i 0 ≠ lv.getD i 0}
        = qFunc (1 / s) * (1 - qFunc (1 / s)) ^ (N - 1) := by
  have hl : getLevels .nrz false = [-1, 1] := by simp [getLevels, intLevels]
  have hM : numLevels .nrz = 2 := rfl
  have hlen0 : (alternating N).length = N := by simp [alternating]
  have hsymi : ∀ i < N, (alternating N).getD i 0 = ((i % 2 : ℕ) : Int) := by
    intro i hi
    rw [alternating, List.getD_eq_getElem _ _ (by simpa using hi)]
    simp
  have hs : ∀ v ∈ alternating N, 0 ≤ v ∧ v < numLevels .nrz := by
    intro v hv
    simp only [alternating, List.mem_map, List.mem_range] at hv
    obtain ⟨i, -, rfl⟩ := hv
    rw [hM]
    constructor
    · exact Int.natCast_nonneg _
    · exact_mod_cast Nat.mod_lt i two_pos
  rw [mapping_values .nrz false _ hs] at hlv
  obtain rfl := Except.ok.inj hlv
  obtain ⟨a, ha⟩ : ∃ a : ℕ → ℝ, a = fun i => if i % 2 = 0 then -1 else 1 := ⟨_, rfl⟩
  have hlvi : ∀ i < N, ((alternating N).map fun v => (getLevels .nrz false).getD v.toNat 0).getD i 0 = a i := by
    intro i hi
    rw [getD_map_lt _ 0 0 _ (by omega), hsymi i hi, hl, ha]
    rcases Nat.mod_two_eq_zero_or_one i with h | h <;> simp [h]
  have hnz : ∃ v ∈ (alternating N).map fun v => (getLevels .nrz false).getD v.toNat 0, v ≠ 0 := by
    refine ⟨_, List.mem_map.2 ⟨0, ?_, rfl⟩, by simp [hl]⟩
    simp only [alternating, List.mem_map, List.mem_range]
    exact ⟨0, by omega, by simp⟩
  obtain ⟨hxl, -, s, hs1, hs0, D, hD, P⟩ := dfe_noisy .nrz false _ hs (by omega) _ (mapping_values .nrz false _ hs) hnz 1 one_pos [1]
    (by simp) x zo hx snr
  rw [hlen0] at hxl
  refine ⟨s, hs1, hs0, fun n hn => ?_⟩
  have ha1 : ∀ i, a i = -1 ∨ a i = 1 := by
    intro i; rw [ha]; simp only; split
    · exact .inl rfl
    · exact .inr rfl
  have hasucc : ∀ i, a (i + 1) = -a i := by
    intro i
    rw [ha]
    rcases Nat.mod_two_eq_zero_or_one i with h | h
    · simp [h, show (i + 1) % 2 = 1 by omega]
    · simp [h, show (i + 1) % 2 = 0 by omega]
  have hex : ∀ (z : Fin x.length → ℝ) (Q : List ℝ → Prop), (∃ out, DfeDecides .nrz false 1 [1] x snr (List.ofFn z) out ∧ Q out) ↔ Q (D z) := by
    intro z Q
    constructor
    · rintro ⟨out, h1, h3⟩
      rw [((hD z).2 out).1 h1] at h3
      exact h3
    · intro h3
      exact ⟨D z, ((hD z).2 _).2 rfl, h3⟩
  have hstep : ∀ z i (hi : i < x.length), (D z).getD i 0
      = sliceOne [-1, 1] (a i + ((if 0 < i then a (i - 1) - (D z).getD (i - 1) 0 else 0) + s * z ⟨i, hi⟩)) := by
    intro z i hi
    have h := P.step z i hi
    rw [h, hl]
    congr 1
    rw [hl] at hlvi
    rw [hlvi i (by omega), wrongPast]
    simp only [List.map_cons, List.map_nil, List.length_cons, List.length_nil, Finset.sum_range_succ, Finset.sum_range_zero, zero_add,
      List.getD_cons_zero, div_one, one_mul, Nat.sub_zero]
    by_cases h0 : 0 < i
    · rw [if_pos h0, if_pos h0, hlvi (i - 1) (by omega)]
    · rw [if_neg h0, if_neg h0]
  have hdec : ∀ z i, i < x.length → (D z).getD i 0 = -1 ∨ (D z).getD i 0 = 1 := by
    intro z i hi
    rw [hstep z i hi]
    have := sliceOne_mem [(-1 : ℝ), 1] (by simp) (a i + ((if 0 < i then a (i - 1) - (D z).getD (i - 1) 0 else 0) + s * z ⟨i, hi⟩))
    simpa using this
  have hwrong : ∀ z i, i < x.length → ((D z).getD i 0 ≠ a i ↔ (D z).getD i 0 = -a i) := by
    intro z i hi
    rcases hdec z i hi with h | h <;> rcases ha1 i with h' | h' <;> rw [h, h'] <;> norm_num
  -- the noise samples that lead there
  obtain ⟨R, hR⟩ : ∃ R : ℕ → Set ℝ, R = fun i => if i < n then {u | sliceOne [-1, 1] (a i + (0 + s * u)) = a i}
      else if i = n then {u | sliceOne [-1, 1] (a i + (0 + s * u)) = a i}ᶜ else {u | sliceOne [-1, 1] (-a i + (0 + s * u)) = -a i} := ⟨_, rfl⟩
  obtain ⟨ok, hok⟩ : ∃ ok : (Fin x.length → ℝ) → ℕ → Prop, ok = fun z i => if i < n then (D z).getD i 0 = a i else (D z).getD i 0 ≠ a i :=
    ⟨_, rfl⟩
  have hkey : ∀ z i (hi : i < x.length), (0 < i → ok z (i - 1)) → (ok z i ↔ z ⟨i, hi⟩ ∈ R i) := by
    intro z i hi hpast
    rw [hok] at hpast ⊢
    rw [hR]
    simp only at hpast ⊢
    by_cases h1 : i < n
    · have hw : (if 0 < i then a (i - 1) - (D z).getD (i - 1) 0 else 0) = 0 := by
        split
        · next h0 =>
          have := hpast h0
          rw [if_pos (by omega)] at this
          rw [this, sub_self]
        · rfl
      rw [if_pos h1, if_pos h1, hstep z i hi, hw]
      rfl
    · rw [if_neg h1, if_neg h1]
      by_cases h2 : i = n
      · have hw : (if 0 < i then a (i - 1) - (D z).getD (i - 1) 0 else 0) = 0 := by
          split
          · next h0 =>
            have := hpast h0
            rw [if_pos (by omega)] at this
            rw [this, sub_self]
          · rfl
        rw [if_pos h2, hstep z i hi, hw]
        rfl
      · have hw : (D z).getD i 0 = sliceOne [-1, 1] (-a i + (0 + s * z ⟨i, hi⟩)) := by
          have := hpast (by omega)
          rw [if_neg (by omega), hwrong z _ (by omega)] at this
          rw [hstep z i hi, if_pos (by omega), this]
          congr 1
          have := hasucc (i - 1)
          rw [show i - 1 + 1 = i by omega] at this
          rw [this]
          ring
        rw [if_neg h2, hwrong z i hi, hw]
        rfl
  have hall : ∀ z, (∀ i < N, ok z i) ↔ ∀ i : Fin x.length, (i : ℕ) < N → z i ∈ R i := by
    intro z
    constructor
    · intro h i hi
      exact (hkey z i i.2 fun h0 => h _ (by omega)).1 (h i hi)
    · intro h i
      induction i with
      | zero => exact fun hi => (hkey z 0 (by omega) fun h0 => absurd h0 (lt_irrefl _)).2 (h ⟨0, by omega⟩ hi)
      | succ i ih => exact fun hi => (hkey z (i + 1) (by omega) fun _ => ih (by omega)).2 (h ⟨i + 1, by omega⟩ hi)
  have e : {z : Fin x.length → ℝ | ∃ out, DfeDecides .nrz false 1 [1] x snr (List.ofFn z) out ∧
      (∀ i < n, out.getD i 0 = ((alternating N).map fun v => (getLevels .nrz false).getD v.toNat 0).getD i 0) ∧
      ∀ i, n ≤ i → i < N → out.getD i 0 ≠ ((alternating N).map fun v => (getLevels .nrz false).getD v.toNat 0).getD i 0}
      = {z | ∀ i : Fin x.length, (i : ℕ) < N → z i ∈ R i} := by
    ext z
    rw [Set.mem_ofPred_eq, hex z fun out => (∀ i < n, out.getD i 0 = ((alternating N).map fun v => (getLevels .nrz false).getD v.toNat 0).getD i 0) ∧
      ∀ i, n ≤ i → i < N → out.getD i 0 ≠ ((alternating N).map fun v => (getLevels .nrz false).getD v.toNat 0).getD i 0, Set.mem_ofPred_eq, ← hall z, hok]
    constructor
    · rintro ⟨h1, h2⟩ i hi
      by_cases h : i < n
      · simp only [if_pos h]
        rw [h1 i h, hlvi i hi]
      · simp only [if_neg h]
        have := h2 i (by omega) hi
        rwa [hlvi i hi] at this
    · intro h
      constructor
      · intro i hi
        have := h i (by omega)
        simp only [if_pos hi] at this
        rw [this, hlvi i (by omega)]
      · intro i hi hi'
        have := h i hi'
        simp only [if_neg (by omega : ¬ i < n)] at this
        rw [hlvi i hi']
        exact this
  rw [e, normalDraws, prefix_prob R N (by omega)]
  have hp : ∀ b : ℝ, (b = -1 ∨ b = 1) → (gaussianReal 0 1).real {u | sliceOne [-1, 1] (b + (0 + s * u)) = b} = 1 - qFunc (1 / s) ∧
      (gaussianReal 0 1).real {u | sliceOne [-1, 1] (b + (0 + s * u)) = b}ᶜ = qFunc (1 / s) := by
    intro b hb
    have hgrid : ∀ j < 2, ([-1, 1] : List ℝ).getD j 0 = -1 + j * 2 := by
      intro j hj
      have : j = 0 ∨ j = 1 := by omega
      rcases this with rfl | rfl <;> norm_num
    have h2s : (2 : ℝ) / (2 * s) = 1 / s := by field_simp
    rcases hb with rfl | rfl
    · have h := slice_prob_off [-1, 1] 2 rfl (-1) 2 two_pos hgrid le_rfl 0 (by norm_num) 0 s hs0
      rw [decisionError_zero _ le_rfl, h2s] at h
      simpa [gridNeighbours] using h.2
    · have h := slice_prob_off [-1, 1] 2 rfl (-1) 2 two_pos hgrid le_rfl 1 (by norm_num) 0 s hs0
      rw [decisionError_zero _ le_rfl, h2s] at h
      simpa [gridNeighbours] using h.2
  have hprob : ∀ i, (gaussianReal 0 1).real (R i) = if i = n then qFunc (1 / s) else 1 - qFunc (1 / s) := by
    intro i
    rw [hR]
    simp only
    by_cases h1 : i < n
    · rw [if_pos h1, if_neg (by omega), (hp _ (ha1 i)).1]
    · by_cases h2 : i = n
      · rw [if_neg h1, if_pos h2, if_pos h2, (hp _ (ha1 i)).2]
      · rw [if_neg h1, if_neg h2, if_neg h2, (hp (-a i) (by rcases ha1 i with h | h <;> rw [h] <;> norm_num)).1]
  rw [Finset.prod_congr rfl fun i _ => hprob i, ← Finset.mul_prod_erase _ _ (Finset.mem_range.2 hn), if_pos rfl,
    Finset.prod_congr rfl fun i hi => if_neg (Finset.ne_of_mem_erase hi), Finset.prod_const, Finset.card_erase_of_mem (Finset.mem_range.2 hn),
    Finset.card_range]

/-- one symbol stream with a response that meets the hypotheses of the theorems above: NRZ, response `1, 1/2` -/
example (snr : ℝ) : ∃ x zo, awgnChannel [-1, 1] [1, 1 / 2] (.num 1) none = .ok (x, zo) ∧ ∃ s, awgnStd x snr = some s ∧ 0 < s ∧
    ∑ n ∈ Finset.range 2, (normalDraws x.length).real
        {z | ∃ out, DfeDecides .nrz false 1 [1 / 2] x snr (List.ofFn z) out ∧ out.getD n 0 ≠ ([-1, 1] : List ℝ).getD n 0}
      ≤ 4 * qFunc (1 / s) := by
  have hl : getLevels .nrz false = [-1, 1] := by simp [getLevels, intLevels]
  obtain ⟨x, zo, hx, -⟩ := C44_difference_equation ([1, 1 / 2] : List ℝ) (.num (1 : ℝ)) [-1, 1] (by simp) (by simp [Denom.coeffs])
    (by simp [Denom.coeffs]) (by simp)
  obtain ⟨s, h1, h2, h3⟩ := C114_binary .nrz rfl false [0, 1] (by decide) (by simp) [-1, 1]
    (by simp only [mapping, Bool.false_eq_true, if_false, hl]; rfl) ⟨1, by simp, by norm_num⟩ 1 one_pos [1 / 2] (by simp)
    (by norm_num [Finset.sum_range_succ]) x zo hx snr
  refine ⟨x, zo, hx, s, h1, h2, h3.trans (le_of_eq ?_)⟩
  rw [hl]
  simp only [List.getD_cons_zero, List.getD_cons_succ, List.length_cons, List.length_nil]
  have e : ((1 : ℝ) - -1) / (2 * (s / 1)) = 1 / s := by field_simp; norm_num
  rw [e]
  norm_num

/-- PAM3 through the response `1, 1/10`: the side condition of `C114_errors` holds at every noise level -/
example (snr : ℝ) : ∃ x zo, awgnChannel [-1, 0, 1] [1, 1 / 10] (.num 1) none = .ok (x, zo) ∧ ∃ s, awgnStd x snr = some s ∧ 0 < s ∧
    ∑ n ∈ Finset.range 3, (normalDraws x.length).real
        {z | ∃ out, DfeDecides .pam3 false 1 [1 / 10] x snr (List.ofFn z) out ∧ out.getD n 0 ≠ ([-1, 0, 1] : List ℝ).getD n 0}
      ≤ 3 * (2 * qFunc (1 / (2 * s))) / (1 - 2 * qFunc (3 / 10 / s)) := by
  have hl : getLevels .pam3 false = [-1, 0, 1] := by simp [getLevels, intLevels]
  obtain ⟨x, zo, hx, -⟩ := C44_difference_equation ([1, 1 / 10] : List ℝ) (.num (1 : ℝ)) [-1, 0, 1] (by simp) (by simp [Denom.coeffs])
    (by simp [Denom.coeffs]) (by simp)
  obtain ⟨s, h1, h2, h3⟩ := C114_errors .pam3 false [0, 1, 2] (by decide) (by simp) [-1, 0, 1]
    (by simp only [mapping, Bool.false_eq_true, if_false, hl]; rfl) ⟨1, by simp, by norm_num⟩ 1 one_pos [1 / 10] (by simp) x zo hx snr
    1 (by rw [hl]; norm_num) (1 / 5) (by norm_num [numLevels, Finset.sum_range_succ, abs_of_pos])
  have hm : mostNeighbours (numLevels .pam3) = 2 := rfl
  have ha : ((1 : ℝ) / 2 - 1 / 5) / (s / 1) = 3 / 10 / s := by rw [div_one]; norm_num
  rw [hm, ha, div_one] at h3
  have hq : qFunc (3 / 10 / s) < 1 / 2 := by
    rw [← qFunc_zero]
    exact qFunc_strictAnti (by positivity)
  have h4 := h3 (by push_cast; linarith)
  refine ⟨x, zo, hx, s, h1, h2, ?_⟩
  simpa using h4

/-- three PAM3 symbols through the response `1, 1/10`: the first wrong decision at the middle level -/
example (snr : ℝ) : ∃ x zo, awgnChannel [-1, 0, 1] [1, 1 / 10] (.num 1) none = .ok (x, zo) ∧ ∃ s, awgnStd x snr = some s ∧ 0 < s ∧
    (normalDraws x.length).real {z | ∃ out, DfeDecides .pam3 false 1 [1 / 10] x snr (List.ofFn z) out ∧
        (∀ i < 1, out.getD i 0 = ([-1, 0, 1] : List ℝ).getD i 0) ∧ out.getD 1 0 ≠ ([-1, 0, 1] : List ℝ).getD 1 0}
      = (1 - qFunc (1 / (2 * s))) * (2 * qFunc (1 / (2 * s))) := by
  have hl : getLevels .pam3 false = [-1, 0, 1] := by simp [getLevels, intLevels]
  obtain ⟨x, zo, hx, -⟩ := C44_difference_equation ([1, 1 / 10] : List ℝ) (.num (1 : ℝ)) [-1, 0, 1] (by simp) (by simp [Denom.coeffs])
    (by simp [Denom.coeffs]) (by simp)
  obtain ⟨s, t, h1, h2, ht, -, h3⟩ := C114_first .pam3 false [0, 1, 2] (by decide) (by simp) [-1, 0, 1]
    (by simp only [mapping, Bool.false_eq_true, if_false, hl]; rfl) ⟨1, by simp, by norm_num⟩ 1 one_pos [1 / 10] (by simp) x zo hx snr
  refine ⟨x, zo, hx, s, h1, h2, (h3 1 (by simp)).trans ?_⟩
  rw [hl] at ht
  have ht' : t = 1 / (2 * s) := by rw [ht]; norm_num
  rw [← ht', Finset.prod_range_one]
  norm_num [gridNeighbours, numLevels]

/-- two alternating symbols, both decided wrong -/
example (snr : ℝ) : ∃ x zo, awgnChannel [-1, 1] [1, 1] (.num 1) none = .ok (x, zo) ∧ ∃ s, awgnStd x snr = some s ∧ 0 < s ∧
    (normalDraws x.length).real {z | ∃ out, DfeDecides .nrz false 1 [1] x snr (List.ofFn z) out ∧
        (∀ i < 0, out.getD i 0 = ([-1, 1] : List ℝ).getD i 0) ∧ ∀ i, 0 ≤ i → i < 2 → out.getD i 0 ≠ ([-1, 1] : List ℝ).getD i 0}
      = qFunc (1 / s) * (1 - qFunc (1 / s)) := by
  have hl : getLevels .nrz false = [-1, 1] := by simp [getLevels, intLevels]
  obtain ⟨x, zo, hx, -⟩ := C44_difference_equation ([1, 1] : List ℝ) (.num (1 : ℝ)) [-1, 1] (by simp) (by simp [Denom.coeffs])
    (by simp [Denom.coeffs]) (by simp)
  obtain ⟨s, h1, h2, h3⟩ := C114_catastrophe 2 le_rfl [-1, 1]
    (by simp only [mapping, Bool.false_eq_true, if_false, hl]; rfl) x zo hx snr
  refine ⟨x, zo, hx, s, h1, h2, (h3 0 two_pos).trans ?_⟩
  norm_num

end Verif
