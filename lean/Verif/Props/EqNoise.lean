import Verif.Lemmas.EqNoise
import Verif.Props.ErrorRate
import Verif.Props.LmsTrain
import Verif.Props.Filter
import Mathlib.RingTheory.PowerSeries.Basic

/-!
# The feed-forward equalizer on a noisy record (C113)

`awgn`, `ffe_dfe` without feedback taps, then `slicer` or one pass of LMS training. The samples behind
`numpy.random.normal` are independent standard normal.
-/

open MeasureTheory ProbabilityTheory

namespace Verif
open Spec

/-- the slicer behind the equalizer decides for the level `v` at symbol `n` -/
def FfeDecides (c : Constellation) (fs : Bool) (x t : List ℝ) (snr : ℝ) (noise : List ℝ) (n : ℕ) (v : ℝ) : Prop :=
  ∃ y o out, awgn noise x snr = some y ∧ ffeDfe y t none none 1 0 none none = .ok o ∧
    slicer (.vec o.signal) (some (getLevels c fs)) = .ok (.vec out) ∧ out.getD n 0 = v

/-- the slicer behind the equalizer decides for another level than `v` at symbol `n` -/
def FfeMisses (c : Constellation) (fs : Bool) (x t : List ℝ) (snr : ℝ) (noise : List ℝ) (n : ℕ) (v : ℝ) : Prop :=
  ∃ y o out, awgn noise x snr = some y ∧ ffeDfe y t none none 1 0 none none = .ok o ∧
    slicer (.vec o.signal) (some (getLevels c fs)) = .ok (.vec out) ∧ out.getD n 0 ≠ v

theorem ffe_tapOut (y t : List ℝ) (ht : 1 ≤ t.length) (hy : y ≠ []) :
    ∃ o, ffeDfe y t none none 1 0 none none = .ok o ∧ o.signal.length = y.length ∧
      ∀ n < y.length, o.signal.getD n 0 = tapOut y t n := by
  obtain ⟨o, h1, h2, h3⟩ := ffe_signal y t (fun _ => 0) ht hy
  refine ⟨o, h1, h2, fun n hn => ?_⟩
  rw [← h3 n (by omega)]
  unfold equalized tapOut
  rw [Finset.sum_map, Finset.sum_empty, sub_zero]
  refine Finset.sum_congr rfl fun i _ => ?_
  rw [Nat.castEmbedding_apply, listSig_nat, listSig_sub]
  rfl

/-- the noisy record and its equalized version -/
theorem noisy_ffe (x t : List ℝ) (snr : ℝ) (hx : 2 ≤ x.length) (ht : 1 ≤ t.length) :
    ∃ s, awgnStd x snr = some s ∧ 0 ≤ s ∧ ((∃ v ∈ x, v ≠ 0) → 0 < s) ∧ ∀ z : Fin x.length → ℝ, ∃ y o,
      awgn (List.ofFn z) x snr = some y ∧ y.length = x.length ∧ (∀ m : Fin x.length, y.getD m 0 = x.getD m 0 + s * z m) ∧
      ffeDfe y t none none 1 0 none none = .ok o ∧ o.signal.length = x.length ∧
      ∀ n < x.length, o.signal.getD n 0
        = tapOut x t n + ∑ m : Fin x.length, (s * if (m : ℕ) ≤ n then t.getD (n - m) 0 else 0) * z m := by
  obtain ⟨s, -, hs1, -, -, -, hs0, -, hs2⟩ := C59_ratio x (List.ofFn (n := x.length) fun _ => 0) snr hx (by simp)
  refine ⟨s, hs1, hs0, fun h => (hs2 h).1, fun z => ?_⟩
  obtain ⟨s', y, h1, h3, h4, h5, -⟩ := C59_ratio x (List.ofFn z) snr hx (by simp)
  rw [hs1] at h1
  obtain rfl := Option.some.inj h1
  have hy : ∀ m : Fin x.length, y.getD m 0 = x.getD m 0 + s * z m := by
    intro m
    rw [h5 m m.2]
    congr 2
    simp
  obtain ⟨o, e1, e2, e3⟩ := ffe_tapOut y t ht (by rintro rfl; simp at h4; omega)
  exact ⟨y, o, h3, h4, hy, e1, e2.trans h4, fun n hn => by rw [e3 n (by omega), tapOut_noisy x y t s z hy n hn]⟩

/-- **C113.** The output of the equalizer for symbol `n` is normally distributed: its mean is the equalized noise-free
record, its variance that of the added noise times the sum of the squares of the taps that see the record. -/
theorem C113_law (x t : List ℝ) (snr : ℝ) (hx : 2 ≤ x.length) (ht : 1 ≤ t.length) :
    ∃ s, awgnStd x snr = some s ∧ ∃ out : (Fin x.length → ℝ) → List ℝ,
      (∀ z, ∃ y o, awgn (List.ofFn z) x snr = some y ∧ ffeDfe y t none none 1 0 none none = .ok o ∧ o.signal = out z) ∧
      ∀ n < x.length, (normalDraws x.length).map (fun z => (out z).getD n 0)
        = gaussianReal (tapOut x t n) (s ^ 2 * tapGain t n).toNNReal := by
  obtain ⟨s, hs1, -, -, h⟩ := noisy_ffe x t snr hx ht
  choose y o h1 h2 h3 h4 h5 h6 using h
  refine ⟨s, hs1, fun z => (o z).signal, fun z => ⟨y z, o z, h1 z, h4 z, rfl⟩, fun n hn => ?_⟩
  have e : (fun z => ((o z).signal).getD n 0) = (fun v => tapOut x t n + v) ∘
      (fun z : Fin x.length → ℝ => ∑ m : Fin x.length, (s * if (m : ℕ) ≤ n then t.getD (n - m) 0 else 0) * z m) := by
    funext z
    exact h6 z n hn
  rw [e, ← Measure.map_map (by fun_prop) (by fun_prop), linear_law, gaussianReal_map_const_add, zero_add,
    tapGain_by_sample t x.length n hn s]

/-- **C113.** Probability of the right and of a wrong decision for symbol `n` behind the equalizer: exactly the tail
probabilities of the distances to the decision thresholds over the standard deviation of the equalized noise. -/
theorem C113_decision (c : Constellation) (fs : Bool) (x t : List ℝ) (snr : ℝ) (hx : 2 ≤ x.length) (ht : 1 ≤ t.length)
    (hnz : ∃ v ∈ x, v ≠ 0) (n : ℕ) (hn : n < x.length) (hg : ∃ k ≤ n, t.getD k 0 ≠ 0) (k : ℕ) (hk : k < numLevels c) :
    ∃ s, awgnStd x snr = some s ∧ 0 < s * Real.sqrt (tapGain t n) ∧
      (normalDraws x.length).real {z | FfeMisses c fs x t snr (List.ofFn z) n ((getLevels c fs).getD k 0)}
        = decisionError (numLevels c) k ((getLevels c fs).getD 1 0 - (getLevels c fs).getD 0 0)
          (tapOut x t n - (getLevels c fs).getD k 0) (s * Real.sqrt (tapGain t n)) ∧
      (normalDraws x.length).real {z | FfeDecides c fs x t snr (List.ofFn z) n ((getLevels c fs).getD k 0)}
        = 1 - decisionError (numLevels c) k ((getLevels c fs).getD 1 0 - (getLevels c fs).getD 0 0)
          (tapOut x t n - (getLevels c fs).getD k 0) (s * Real.sqrt (tapGain t n)) := by
  obtain ⟨s, hs1, -, hs0, h⟩ := noisy_ffe x t snr hx ht
  have hsp := hs0 hnz
  have hG : 0 < tapGain t n := by
    obtain ⟨i, hi, hti⟩ := hg
    have hil : i < t.length := by
      by_contra hc
      exact hti (List.getD_eq_default _ _ (by omega))
    refine Finset.sum_pos' (fun j _ => by split <;> positivity) ⟨i, Finset.mem_range.2 hil, ?_⟩
    rw [if_pos hi]; positivity
  have hσ : 0 < s * Real.sqrt (tapGain t n) := mul_pos hsp (Real.sqrt_pos.2 hG)
  refine ⟨s, hs1, hσ, ?_⟩
  obtain ⟨σ, hσd⟩ : ∃ σ, σ = s * Real.sqrt (tapGain t n) := ⟨_, rfl⟩
  rw [← hσd] at hσ ⊢
  have hσ2 : σ ^ 2 = ∑ m : Fin x.length, (s * if (m : ℕ) ≤ n then t.getD (n - m) 0 else 0) ^ 2 := by
    rw [tapGain_by_sample t x.length n hn s, hσd, mul_pow, Real.sq_sqrt hG.le]
  have hlen : (getLevels c fs).length = numLevels c := by rw [getLevels_length, numLevels_eq]
  obtain ⟨hd, hgrid⟩ := levels_grid c fs
  have hlv0 : (getLevels c fs).length ≠ 0 := by have := numLevels_ge c; omega
  obtain ⟨B, hB⟩ : ∃ B, B = {z | sliceOne (getLevels c fs) ((getLevels c fs).getD k 0
      + (tapOut x t n - (getLevels c fs).getD k 0 + σ * z)) = (getLevels c fs).getD k 0} := ⟨_, rfl⟩
  obtain ⟨hm, hp1, hp2⟩ := slice_prob_off (getLevels c fs) (numLevels c) hlen _ _ hd hgrid (numLevels_ge c) k hk
    (tapOut x t n - (getLevels c fs).getD k 0) σ hσ
  rw [← hB] at hm hp1 hp2
  have hdec : ∀ z, (∃ out, (∃ y o, awgn (List.ofFn z) x snr = some y ∧ ffeDfe y t none none 1 0 none none = .ok o ∧
      slicer (.vec o.signal) (some (getLevels c fs)) = .ok (.vec out)) ∧
      (out.getD n 0 = (getLevels c fs).getD k 0 ↔
        (∑ m : Fin x.length, (s * if (m : ℕ) ≤ n then t.getD (n - m) 0 else 0) * z m) / σ ∈ B)) := by
    intro z
    obtain ⟨y, o, h1, h2, h3, h4, h5, h6⟩ := h z
    refine ⟨o.signal.map (sliceOne (getLevels c fs)), ⟨y, o, h1, h4, by simp [slicer, hlv0]⟩, ?_⟩
    rw [getD_map_zero _ 0 0 _ _ (by omega), h6 n hn, hB]
    show _ ↔ sliceOne _ _ = _
    rw [mul_div_cancel₀ _ hσ.ne']
    rw [show ∀ a b e : ℝ, b + (a - b + e) = a + e from fun a b e => by ring]
  have huniq : ∀ (z : Fin x.length → ℝ) out out', (∃ y o, awgn (List.ofFn z) x snr = some y ∧
      ffeDfe y t none none 1 0 none none = .ok o ∧ slicer (.vec o.signal) (some (getLevels c fs)) = .ok (.vec out)) →
      (∃ y o, awgn (List.ofFn z) x snr = some y ∧
      ffeDfe y t none none 1 0 none none = .ok o ∧ slicer (.vec o.signal) (some (getLevels c fs)) = .ok (.vec out')) →
      out = out' := by
    rintro z out out' ⟨y, o, a1, a2, a3⟩ ⟨y', o', b1, b2, b3⟩
    rw [a1] at b1
    obtain rfl := Option.some.inj b1
    rw [a2] at b2
    obtain rfl := Except.ok.inj b2
    rw [a3] at b3
    simpa using b3
  have hiff : ∀ z, FfeDecides c fs x t snr (List.ofFn z) n ((getLevels c fs).getD k 0) ↔
      (∑ m : Fin x.length, (s * if (m : ℕ) ≤ n then t.getD (n - m) 0 else 0) * z m) / σ ∈ B := by
    intro z
    obtain ⟨out, ho, hi⟩ := hdec z
    rw [← hi]
    constructor
    · rintro ⟨y, o, out', a1, a2, a3, a4⟩
      rw [huniq z out out' ho ⟨y, o, a1, a2, a3⟩]; exact a4
    · intro hh
      obtain ⟨y, o, a1, a2, a3⟩ := ho
      exact ⟨y, o, out, a1, a2, a3, hh⟩
  have hiff' : ∀ z, FfeMisses c fs x t snr (List.ofFn z) n ((getLevels c fs).getD k 0) ↔
      (∑ m : Fin x.length, (s * if (m : ℕ) ≤ n then t.getD (n - m) 0 else 0) * z m) / σ ∈ Bᶜ := by
    intro z
    obtain ⟨out, ho, hi⟩ := hdec z
    rw [Set.mem_compl_iff, ← hi]
    constructor
    · rintro ⟨y, o, out', a1, a2, a3, a4⟩
      rw [huniq z out out' ho ⟨y, o, a1, a2, a3⟩]; exact a4
    · intro hh
      obtain ⟨y, o, a1, a2, a3⟩ := ho
      exact ⟨y, o, out, a1, a2, a3, hh⟩
  simp only [hiff, hiff']
  rw [unit_prob _ σ hσ hσ2 B hm, unit_prob _ σ hσ hσ2 Bᶜ hm.compl]
  exact ⟨hp2, hp1⟩

theorem decisionError_zero (M : ℕ) (hM : 2 ≤ M) (k : ℕ) (d σ : ℝ) :
    decisionError M k d 0 σ = gridNeighbours M k * qFunc (d / (2 * σ)) := by
  unfold decisionError gridNeighbours
  rw [add_zero, sub_zero, div_div]
  have e : ((k : ℤ) = (M : ℤ) - 1) ↔ k = M - 1 := by omega
  simp only [e, Nat.cast_eq_zero]
  split_ifs <;> push_cast <;> ring

theorem decisionError_le (M : ℕ) (hM : 2 ≤ M) (k : ℕ) (d δ ρ σ : ℝ) (hδ : |δ| ≤ ρ) (hσ : 0 < σ) :
    decisionError M k d δ σ ≤ gridNeighbours M k * qFunc ((d / 2 - ρ) / σ) := by
  have h1 := abs_le.1 hδ
  have q1 : qFunc ((d / 2 + δ) / σ) ≤ qFunc ((d / 2 - ρ) / σ) := qFunc_anti (by gcongr; linarith)
  have q2 : qFunc ((d / 2 - δ) / σ) ≤ qFunc ((d / 2 - ρ) / σ) := qFunc_anti (by gcongr; linarith)
  unfold decisionError gridNeighbours
  have e : ((k : ℤ) = (M : ℤ) - 1) ↔ k = M - 1 := by omega
  simp only [e, Nat.cast_eq_zero]
  split_ifs <;> push_cast <;> linarith

/-- **C113.** If the noise-free output of the equalizer is within `ρ` of the level sent, a wrong decision is at most as
probable as per neighbouring level the tail beyond what `ρ` leaves of half the distance of the levels. -/
theorem C113_eye (c : Constellation) (fs : Bool) (x t : List ℝ) (snr ρ : ℝ) (hx : 2 ≤ x.length) (ht : 1 ≤ t.length)
    (hnz : ∃ v ∈ x, v ≠ 0) (n : ℕ) (hn : n < x.length) (hg : ∃ k ≤ n, t.getD k 0 ≠ 0) (k : ℕ) (hk : k < numLevels c)
    (hρ : |tapOut x t n - (getLevels c fs).getD k 0| ≤ ρ) :
    ∃ s, awgnStd x snr = some s ∧
      (normalDraws x.length).real {z | FfeMisses c fs x t snr (List.ofFn z) n ((getLevels c fs).getD k 0)}
        ≤ gridNeighbours (numLevels c) k
          * qFunc ((((getLevels c fs).getD 1 0 - (getLevels c fs).getD 0 0) / 2 - ρ) / (s * Real.sqrt (tapGain t n))) := by
  obtain ⟨s, h1, h2, h3, -⟩ := C113_decision c fs x t snr hx ht hnz n hn hg k hk
  exact ⟨s, h1, h3.trans_le (decisionError_le _ (numLevels_ge c) k _ _ ρ _ hρ h2)⟩

/-- the taps `a / g` undo the all-pole channel `g / a` -/
theorem tapOut_ar (lv a : List ℝ) (g : ℝ) (hg : g ≠ 0) (ha : 0 < a.length) (h0 : a.getD 0 0 ≠ 0) (hl : 0 < lv.length)
    (x zo : List ℝ) (hx : awgnChannel lv [g] (.vec a) none = .ok (x, zo)) :
    x.length = lv.length ∧ ∀ n < lv.length, tapOut x (a.map (· / g)) n = lv.getD n 0 := by
  obtain ⟨x', zo', h1, h2, h3⟩ := C44_difference_equation [g] (.vec a) lv (by simp) ha h0 hl
  rw [hx] at h1
  obtain ⟨rfl, rfl⟩ := Prod.mk.inj (Except.ok.inj h1)
  refine ⟨h2, fun n hn => ?_⟩
  have h := h3 n hn
  unfold DiffEq at h
  simp only [Denom.coeffs] at h
  have hp : ∀ k : ℕ, withPast [] x ((n : ℤ) - k) = pastSample x n k := by
    intro k
    unfold withPast pastSample
    by_cases hk : k ≤ n
    · rw [if_pos (by omega), if_pos hk]; congr 1; omega
    · rw [if_neg (by omega), if_neg hk]; simp
  have hp0 : withPast [] x (n : ℤ) = pastSample x n 0 := by have := hp 0; simpa using this
  have e1 : ∑ i ∈ Finset.range [g].length, [g].getD i 0 * withPast [] lv ((n : ℤ) - i) = g * lv.getD n 0 := by
    simp [withPast]
  rw [e1, hp0] at h
  unfold tapOut
  rw [List.length_map, Finset.range_eq_Ico, Finset.sum_eq_sum_Ico_succ_bot ha]
  have e2 : ∀ k, (a.map (· / g)).getD k 0 = a.getD k 0 / g := by
    intro k
    by_cases hk : k < a.length
    · rw [getD_map_zero _ 0 0 _ _ hk]
    · rw [List.getD_eq_default _ _ (by simp; omega), List.getD_eq_default _ _ (by omega), zero_div]
  simp only [e2]
  have e3 : ∑ k ∈ Finset.Ico (0 + 1) a.length, a.getD k 0 / g * pastSample x n k
      = (∑ k ∈ Finset.Ico 1 a.length, a.getD k 0 * withPast [] x ((n : ℤ) - k)) / g := by
    rw [zero_add, Finset.sum_div]
    refine Finset.sum_congr rfl fun k _ => ?_
    rw [hp k]; ring
  rw [e3, div_mul_eq_mul_div, ← add_div, h]
  rw [sub_add_cancel]
  field_simp

theorem mapping_length (c : Constellation) (fs : Bool) (sym : List Int) (hs : ∀ v ∈ sym, 0 ≤ v ∧ v < numLevels c)
    (lv : List ℝ) (hlv : mapping sym c fs none false = .ok lv) : lv.length = sym.length := by
  have hlen : (getLevels c fs).length = numLevels c := by rw [getLevels_length, numLevels_eq]
  have : mapping sym c fs none false = .ok (sym.map (fun x => (getLevels c fs).getD x.toNat 0)) := by
    simp only [mapping, Bool.false_eq_true, if_false]
    exact npTake_ok _ _ _ (fun x hx => npGet_valid _ 0 x (hs x hx).1 (by rw [hlen]; exact (hs x hx).2))
  rw [this] at hlv
  rw [← Except.ok.inj hlv, List.length_map]

/-- **C113.** Behind an all-pole channel `g / a` the taps `a / g` leave no interference, and the decision for symbol `n` is
wrong with the probability of a symbol without channel in noise whose standard deviation is larger by the root of the sum
of the squares of the taps. -/
theorem C113_ar (c : Constellation) (fs : Bool) (sym : List Int) (hs : ∀ v ∈ sym, 0 ≤ v ∧ v < numLevels c)
    (h2 : 2 ≤ sym.length) (lv : List ℝ) (hlv : mapping sym c fs none false = .ok lv) (hnz : ∃ v ∈ lv, v ≠ 0) (a : List ℝ)
    (g : ℝ) (hg : g ≠ 0) (ha : 0 < a.length) (h0 : a.getD 0 0 ≠ 0) (x zo : List ℝ)
    (hx : awgnChannel lv [g] (.vec a) none = .ok (x, zo)) (snr : ℝ) :
    ∃ s, awgnStd x snr = some s ∧ 0 < s ∧ ∀ n : Fin sym.length,
      (normalDraws x.length).real {z | FfeMisses c fs x (a.map (· / g)) snr (List.ofFn z) n (lv.getD n 0)}
        = gridNeighbours (numLevels c) (sym.getD n 0)
          * qFunc (((getLevels c fs).getD 1 0 - (getLevels c fs).getD 0 0) / (2 * (s * Real.sqrt (tapGain (a.map (· / g)) n)))) := by
  obtain ⟨s0, -, -, hsym⟩ := noisy_symbols c fs sym hs h2 lv hlv hnz snr
  have hll : lv.length = sym.length := mapping_length c fs sym hs lv hlv
  obtain ⟨hxl, hout⟩ := tapOut_ar lv a g hg ha h0 (by omega) x zo hx
  have hnzx : ∃ v ∈ x, v ≠ 0 := by
    by_contra hc
    push Not at hc
    obtain ⟨v, hv, hv0⟩ := hnz
    obtain ⟨n, hn, rfl⟩ := List.mem_iff_getElem.1 hv
    apply hv0
    rw [← List.getD_eq_getElem lv 0 hn, ← hout n hn]
    unfold tapOut
    refine Finset.sum_eq_zero fun k _ => ?_
    unfold pastSample
    split
    · by_cases hk : n - k < x.length
      · rw [List.getD_eq_getElem _ _ hk, hc _ (List.getElem_mem hk), mul_zero]
      · rw [List.getD_eq_default x _ (by omega), mul_zero]
    · rw [mul_zero]
  have hta : (a.map (· / g)).getD 0 0 ≠ 0 := by
    rw [getD_map_zero _ 0 0 _ _ ha]
    exact div_ne_zero h0 hg
  obtain ⟨s, hs1, -, hs0, -⟩ := noisy_ffe x (a.map (· / g)) snr (by omega) (by rw [List.length_map]; omega)
  refine ⟨s, hs1, hs0 hnzx, fun n => ?_⟩
  obtain ⟨hk, hke⟩ := sym_lt c sym hs n
  obtain ⟨s', e1, -, e2, -⟩ := C113_decision c fs x (a.map (· / g)) snr (by omega) (by rw [List.length_map]; omega) hnzx n (by have := n.2; omega)
    ⟨0, by omega, hta⟩ _ hk
  rw [hs1] at e1
  obtain rfl := Option.some.inj e1
  obtain ⟨y, -, -, hy⟩ := hsym fun _ => 0
  have hlvn := (hy n).1
  rw [hlvn, e2, hout n (by have := n.2; omega), hlvn, sub_self, decisionError_zero _ (numLevels_ge c), hke]

theorem sum_pastSample (y t : List ℝ) (n : ℕ) :
    tapOut y t n = ∑ k ∈ Finset.range (n + 1), t.getD k 0 * y.getD (n - k) 0 := by
  unfold tapOut pastSample
  have := taps_by_sample t (n + 1) n (by omega) (fun c m => c * y.getD m 0) (by simp)
  have e : ∀ k, t.getD k 0 * (if k ≤ n then y.getD (n - k) 0 else 0) = if k ≤ n then t.getD k 0 * y.getD (n - k) 0 else 0 := by
    intro k; split <;> ring
  simp only [e]
  rw [← this, ← Finset.sum_range_reflect]
  refine Finset.sum_congr rfl fun k hk => ?_
  have := Finset.mem_range.1 hk
  rw [if_pos (by omega), show n + 1 - 1 - k = n - k by omega, show n - (n - k) = k by omega]

/-- equalizing a channel whose response the taps turn into a delay -/
theorem tapOut_fir (lv h t : List ℝ) (D : ℕ) (hh : 0 < h.length) (hl : 0 < lv.length) (x zo : List ℝ)
    (hx : awgnChannel lv h (.num 1) none = .ok (x, zo))
    (hzf : ∀ m < lv.length, ∑ j ∈ Finset.range (m + 1), h.getD j 0 * t.getD (m - j) 0 = if m = D then 1 else 0) :
    x.length = lv.length ∧ ∀ n < lv.length, D ≤ n → tapOut x t n = lv.getD (n - D) 0 := by
  obtain ⟨x', zo', h1, h2, h3⟩ := C44_difference_equation h (.num 1) lv hh (by simp [Denom.coeffs]) (by simp [Denom.coeffs]) hl
  rw [hx] at h1
  obtain ⟨rfl, rfl⟩ := Prod.mk.inj (Except.ok.inj h1)
  have hxn : ∀ n < lv.length, x.getD n 0 = ∑ j ∈ Finset.range (n + 1), h.getD j 0 * lv.getD (n - j) 0 := by
    intro n hn
    have := h3 n hn
    unfold DiffEq at this
    simp only [Denom.coeffs] at this
    rw [← sum_pastSample]
    have e : ∑ i ∈ Finset.range h.length, h.getD i 0 * withPast [] lv ((n : ℤ) - i) = tapOut lv h n := by
      refine Finset.sum_congr rfl fun i _ => ?_
      congr 1
      unfold withPast pastSample
      by_cases hk : i ≤ n
      · rw [if_pos (by omega), if_pos hk]; congr 1; omega
      · rw [if_neg (by omega), if_neg hk]; simp
    rw [e] at this
    simpa [withPast] using this
  refine ⟨h2, fun n hn hD => ?_⟩
  rw [sum_pastSample]
  obtain ⟨T, hT⟩ : ∃ T : PowerSeries ℝ, T = PowerSeries.mk fun k => t.getD k 0 := ⟨_, rfl⟩
  obtain ⟨H, hH⟩ : ∃ H : PowerSeries ℝ, H = PowerSeries.mk fun k => h.getD k 0 := ⟨_, rfl⟩
  obtain ⟨L, hL⟩ : ∃ L : PowerSeries ℝ, L = PowerSeries.mk fun k => lv.getD k 0 := ⟨_, rfl⟩
  have e1 : ∑ k ∈ Finset.range (n + 1), t.getD k 0 * x.getD (n - k) 0 = PowerSeries.coeff n (T * (H * L)) := by
    rw [PowerSeries.coeff_mul, Finset.Nat.sum_antidiagonal_eq_sum_range_succ_mk]
    refine Finset.sum_congr rfl fun k hk => ?_
    have := Finset.mem_range.1 hk
    rw [hxn (n - k) (by omega), PowerSeries.coeff_mul, Finset.Nat.sum_antidiagonal_eq_sum_range_succ_mk, hT, hH, hL]
    simp only [PowerSeries.coeff_mk]
  rw [e1, ← mul_assoc, mul_comm T H, PowerSeries.coeff_mul, Finset.Nat.sum_antidiagonal_eq_sum_range_succ_mk]
  have e2 : ∀ m < lv.length, PowerSeries.coeff m (H * T) = if m = D then 1 else 0 := by
    intro m hm
    rw [← hzf m hm, PowerSeries.coeff_mul, Finset.Nat.sum_antidiagonal_eq_sum_range_succ_mk, hT, hH]
    simp only [PowerSeries.coeff_mk]
  rw [Finset.sum_eq_single_of_mem D (Finset.mem_range.2 (by omega)) (fun m hm hmD => by
    have := Finset.mem_range.1 hm
    show PowerSeries.coeff m (H * T) * _ = 0
    rw [e2 m (by omega), if_neg hmD, zero_mul])]
  show PowerSeries.coeff D (H * T) * PowerSeries.coeff (n - D) L = _
  rw [e2 D (by omega), if_pos rfl, one_mul, hL, PowerSeries.coeff_mk]

/-- taps that turn the response into a delay have at least the inverse energy of the response -/
theorem tapGain_matched (h t : List ℝ) (D n : ℕ) (hD : D ≤ n)
    (hzf : ∑ j ∈ Finset.range (D + 1), h.getD j 0 * t.getD (D - j) 0 = 1) :
    1 ≤ (∑ j ∈ Finset.range h.length, h.getD j 0 ^ 2) * tapGain t n := by
  have h1 := Finset.sum_mul_sq_le_sq_mul_sq (Finset.range (D + 1)) (fun j => h.getD j 0) (fun j => t.getD (D - j) 0)
  rw [hzf, one_pow] at h1
  refine h1.trans (mul_le_mul ?_ ?_ (Finset.sum_nonneg fun _ _ => sq_nonneg _) (Finset.sum_nonneg fun _ _ => sq_nonneg _))
  · have : ∑ j ∈ Finset.range h.length, h.getD j 0 ^ 2 = ∑ j ∈ Finset.range (max h.length (D + 1)), h.getD j 0 ^ 2 := by
      refine Finset.sum_subset (Finset.range_mono (le_max_left _ _)) fun k _ hk => ?_
      rw [Finset.mem_range, not_lt] at hk
      rw [List.getD_eq_default _ _ hk]; ring
    rw [this]
    exact Finset.sum_le_sum_of_subset_of_nonneg (Finset.range_mono (le_max_right _ _)) fun _ _ _ => sq_nonneg _
  · have := taps_by_sample t (n + 1) n (by omega) (fun c _ => c ^ 2) (by simp)
    unfold tapGain
    have e : ∑ m ∈ Finset.range (n + 1), (if m ≤ n then t.getD (n - m) 0 ^ 2 else 0)
        = ∑ j ∈ Finset.range (n + 1), t.getD j 0 ^ 2 := by
      rw [← Finset.sum_flip (fun k => t.getD k 0 ^ 2)]
      refine Finset.sum_congr rfl fun k hk => ?_
      have := Finset.mem_range.1 hk
      rw [if_pos (by omega)]
    rw [← this, e, Finset.sum_flip (fun k => t.getD k 0 ^ 2)]
    exact Finset.sum_le_sum_of_subset_of_nonneg (Finset.range_mono (by omega)) fun _ _ _ => sq_nonneg _

/-- **C113.** Taps that turn the response `h` of a channel into a delay of `D` symbols (as far as the record reaches) leave no
interference, but no such taps are better than one pulse received through its matched filter: the probability of a wrong
decision is at least the tail beyond half the level distance times the root energy of the response over the noise. -/
theorem C113_matched (c : Constellation) (fs : Bool) (sym : List Int) (hs : ∀ v ∈ sym, 0 ≤ v ∧ v < numLevels c)
    (h2 : 2 ≤ sym.length) (lv : List ℝ) (hlv : mapping sym c fs none false = .ok lv) (hnz : ∃ v ∈ lv, v ≠ 0) (h t : List ℝ)
    (D : ℕ) (x zo : List ℝ) (hx : awgnChannel lv h (.num 1) none = .ok (x, zo)) (hh : 0 < h.length) (hxz : ∃ v ∈ x, v ≠ 0)
    (hzf : ∀ m < sym.length, ∑ j ∈ Finset.range (m + 1), h.getD j 0 * t.getD (m - j) 0 = if m = D then 1 else 0) (snr : ℝ) :
    ∃ s, awgnStd x snr = some s ∧ 0 < s ∧ ∀ n : Fin sym.length, D ≤ n →
      (normalDraws x.length).real {z | FfeMisses c fs x t snr (List.ofFn z) n (lv.getD (n - D) 0)}
        = gridNeighbours (numLevels c) (sym.getD (n - D) 0)
          * qFunc (((getLevels c fs).getD 1 0 - (getLevels c fs).getD 0 0) / (2 * (s * Real.sqrt (tapGain t n)))) ∧
      gridNeighbours (numLevels c) (sym.getD (n - D) 0)
          * qFunc (((getLevels c fs).getD 1 0 - (getLevels c fs).getD 0 0)
            * Real.sqrt (∑ j ∈ Finset.range h.length, h.getD j 0 ^ 2) / (2 * s))
        ≤ (normalDraws x.length).real {z | FfeMisses c fs x t snr (List.ofFn z) n (lv.getD (n - D) 0)} := by
  obtain ⟨s0, -, -, hsym⟩ := noisy_symbols c fs sym hs h2 lv hlv hnz snr
  have hll : lv.length = sym.length := mapping_length c fs sym hs lv hlv
  obtain ⟨hxl, hout⟩ := tapOut_fir lv h t D hh (by omega) x zo hx (by rwa [hll])
  have hcase : t.length = 0 → ∀ n < sym.length, D ≤ n → False := by
    intro ht n hn hD
    have := hzf D (by omega)
    rw [if_pos rfl] at this
    have h0 : ∀ k, t.getD k 0 = 0 := fun k => List.getD_eq_default _ _ (by omega)
    simp only [h0, mul_zero, Finset.sum_const_zero] at this
    exact zero_ne_one this
  obtain ⟨s, hs1, -, hs0, -⟩ := noisy_ffe x [0] snr (by omega) (by simp)
  have hsp := hs0 hxz
  refine ⟨s, hs1, hsp, fun n hD => ?_⟩
  have hn := n.2
  have ht : 1 ≤ t.length := by
    by_contra hc
    exact hcase (by omega) n hn hD
  have h1 := hzf D (by omega)
  rw [if_pos rfl] at h1
  have hm := tapGain_matched h t D n hD h1
  have hG : 0 < tapGain t n := by
    by_contra hc
    have : (∑ j ∈ Finset.range h.length, h.getD j 0 ^ 2) * tapGain t n ≤ 0 :=
      mul_nonpos_of_nonneg_of_nonpos (Finset.sum_nonneg fun _ _ => sq_nonneg _) (by linarith)
    linarith
  have hg : ∃ k ≤ (n : ℕ), t.getD k 0 ≠ 0 := by
    by_contra hc
    push Not at hc
    refine hG.ne' (Finset.sum_eq_zero fun k _ => ?_)
    split
    · rename_i hk
      rw [hc k hk]; ring
    · rfl
  obtain ⟨hk, hke⟩ := sym_lt c sym hs ⟨n - D, by omega⟩
  obtain ⟨y, -, -, hy⟩ := hsym fun _ => 0
  have hlvn := (hy ⟨n - D, by omega⟩).1
  simp only at hlvn hk hke
  obtain ⟨s', e1, -, e2, -⟩ := C113_decision c fs x t snr (by omega) ht hxz n (by omega) hg _ hk
  rw [hs1] at e1
  obtain rfl := Option.some.inj e1
  have hP : (normalDraws x.length).real {z | FfeMisses c fs x t snr (List.ofFn z) n (lv.getD (n - D) 0)}
        = gridNeighbours (numLevels c) (sym.getD (n - D) 0)
          * qFunc (((getLevels c fs).getD 1 0 - (getLevels c fs).getD 0 0) / (2 * (s * Real.sqrt (tapGain t n)))) := by
    rw [hlvn, e2, hout n (by omega) hD, hlvn, sub_self, decisionError_zero _ (numLevels_ge c), hke]
  refine ⟨hP, ?_⟩
  rw [hP]
  refine mul_le_mul_of_nonneg_left (qFunc_anti ?_) (Nat.cast_nonneg _)
  obtain ⟨hd, -⟩ := levels_grid c fs
  obtain ⟨d, hdd⟩ : ∃ d, d = (getLevels c fs).getD 1 0 - (getLevels c fs).getD 0 0 := ⟨_, rfl⟩
  rw [← hdd] at hd ⊢
  have hr : 1 ≤ Real.sqrt (∑ j ∈ Finset.range h.length, h.getD j 0 ^ 2) * Real.sqrt (tapGain t n) := by
    rw [← Real.sqrt_mul (Finset.sum_nonneg fun _ _ => sq_nonneg _), Real.one_le_sqrt]
    exact hm
  have hq : 0 < Real.sqrt (tapGain t n) := Real.sqrt_pos.2 hG
  rw [div_le_div_iff₀ (by positivity) (by positivity)]
  nlinarith [mul_pos hd hsp]

/-- the second symbol of a record with some interference, NRZ: at most the tail beyond three quarters of half the distance -/
example (snr : ℝ) : ∃ s, awgnStd [1 / 2, -1, 1] snr = some s ∧
    (normalDraws 3).real {z | FfeMisses .nrz false [1 / 2, -1, 1] [1, 1 / 2] snr (List.ofFn z) 1 (-1)}
      ≤ 1 * qFunc (((1 - -1) / 2 - 1 / 4) / (s * Real.sqrt (5 / 4))) := by
  have hl : getLevels .nrz false = [-1, 1] := by simp [getLevels, intLevels]
  obtain ⟨s, h1, h2⟩ := C113_eye .nrz false [1 / 2, -1, 1] [1, 1 / 2] snr (1 / 4) (by simp) (by simp) ⟨1, by simp, by norm_num⟩ 1
    (by simp) ⟨0, by simp, by simp⟩ 0 (by decide)
    (by rw [hl]; simp [tapOut, pastSample, Finset.sum_range_succ]; norm_num [abs_le])
  refine ⟨s, h1, ?_⟩
  have hg : tapGain [1, 1 / 2] 1 = 5 / 4 := by simp [tapGain, Finset.sum_range_succ]; norm_num
  rw [hg, hl] at h2
  have hn : gridNeighbours (numLevels .nrz) ((0 : ℕ) : ℤ) = 1 := by decide
  rw [hn] at h2
  simpa using h2

/-- an all-pole channel with one pole: the noise grows by the factor 5/4 from the second symbol on -/
example (snr : ℝ) : ∃ x zo s, awgnChannel [1, -1, 1] [1] (.vec [1, -1 / 2]) none = .ok (x, zo) ∧ awgnStd x snr = some s ∧ 0 < s ∧
    (normalDraws x.length).real {z | FfeMisses .nrz false x [1, -1 / 2] snr (List.ofFn z) 2 1}
      = qFunc ((1 - -1) / (2 * (s * Real.sqrt (5 / 4)))) := by
  have hl : getLevels .nrz false = [-1, 1] := by simp [getLevels, intLevels]
  obtain ⟨x, zo, h1, -, -⟩ := C44_difference_equation ([1] : List ℝ) (.vec [1, -1 / 2]) [1, -1, 1] (by simp) (by simp [Denom.coeffs])
    (by simp [Denom.coeffs]) (by simp)
  obtain ⟨s, e1, e2, e3⟩ := C113_ar .nrz false [1, 0, 1] (by decide) (by simp) [1, -1, 1]
    (by simp only [mapping, Bool.false_eq_true, if_false, hl]; rfl) ⟨1, by simp, by norm_num⟩ [1, -1 / 2] 1 one_ne_zero (by simp) (by simp)
    x zo h1 snr
  refine ⟨x, zo, s, h1, e1, e2, ?_⟩
  have h := e3 ⟨2, by simp⟩
  have hg : tapGain [1, -1 / 2] 2 = 5 / 4 := by simp [tapGain, Finset.sum_range_succ]; norm_num
  have hn : gridNeighbours (numLevels .nrz) (([1, 0, 1] : List Int).getD 2 0) = 1 := by decide
  have hm : ([1, -1 / 2] : List ℝ).map (· / 1) = [1, -1 / 2] := by simp
  rw [hm] at h
  simp only [hg, hl] at h
  rw [hn] at h
  simpa using h

/-- a channel with one echo, its inverse to three taps, and the matched-filter bound with the energy 5/4 -/
example (snr : ℝ) : ∃ x zo s, awgnChannel [1, -1, 1] [1, 1 / 2] (.num 1) none = .ok (x, zo) ∧ awgnStd x snr = some s ∧ 0 < s ∧
    1 * qFunc ((1 - -1) * Real.sqrt (5 / 4) / (2 * s))
      ≤ (normalDraws x.length).real {z | FfeMisses .nrz false x [1, -1 / 2, 1 / 4] snr (List.ofFn z) 2 1} := by
  have hl : getLevels .nrz false = [-1, 1] := by simp [getLevels, intLevels]
  obtain ⟨x, zo, h1, -, -⟩ := C44_difference_equation ([1, 1 / 2] : List ℝ) (.num 1) [1, -1, 1] (by simp) (by simp [Denom.coeffs])
    (by simp [Denom.coeffs]) (by simp)
  have hz : ∀ m < 3, ∑ j ∈ Finset.range (m + 1), ([1, 1 / 2] : List ℝ).getD j 0 * ([1, -1 / 2, 1 / 4] : List ℝ).getD (m - j) 0
      = if m = 0 then 1 else 0 := by
    intro m hm
    interval_cases m <;> simp [Finset.sum_range_succ] <;> norm_num
  have hxz : ∃ v ∈ x, v ≠ 0 := by
    obtain ⟨hxl, ho⟩ := tapOut_fir [1, -1, 1] [1, 1 / 2] [1, -1 / 2, 1 / 4] 0 (by simp) (by simp) x zo h1 (by simpa using hz)
    have h0 := ho 0 (by simp) (by simp)
    simp only [tapOut, pastSample, List.length_cons, List.length_nil, Finset.sum_range_succ, Finset.sum_range_zero] at h0
    simp at h0
    match x, hxl with
    | v :: _, _ =>
      refine ⟨v, by simp, fun hv => ?_⟩
      rw [hv] at h0
      simp at h0
  obtain ⟨s, e1, e2, e3⟩ := C113_matched .nrz false [1, 0, 1] (by decide) (by simp) [1, -1, 1]
    (by simp only [mapping, Bool.false_eq_true, if_false, hl]; rfl) ⟨1, by simp, by norm_num⟩ [1, 1 / 2] [1, -1 / 2, 1 / 4] 0
    x zo h1 (by simp) hxz (by simpa using hz) snr
  refine ⟨x, zo, s, h1, e1, e2, ?_⟩
  have h := (e3 ⟨2, by simp⟩ (by simp)).2
  have hg : ∑ j ∈ Finset.range ([1, 1 / 2] : List ℝ).length, ([1, 1 / 2] : List ℝ).getD j 0 ^ 2 = 5 / 4 := by
    simp [Finset.sum_range_succ]; norm_num
  have hn : gridNeighbours (numLevels .nrz) (([1, 0, 1] : List Int).getD (2 - 0) 0) = 1 := by decide
  simp only [hg, hl] at h
  rw [hn] at h
  simpa using h

end Verif
