import Verif.Lemmas.PulseFn
import Verif.Lemmas.FilterClass
import Verif.Props.Framing
import Mathlib.Algebra.Order.Floor.Ring
import Mathlib.Algebra.Order.Archimedean.Basic

/-! Pulse shaping is a superposition of shifted pulses. -/

open Finset

set_option linter.unusedSectionVars false

namespace Verif

open Spec (withPast sample truncated IsPulse)

section
variable {K : Type*} [Field K]

theorem timeVec_length (osr span : ℕ) : (timeVec osr span : List K).length = osr * span * 2 := by
  unfold timeVec
  rw [List.length_map, List.length_range, show osr * 2 * span = 2 * (osr * span) by ring]
  omega

theorem timeVec_map_getD (g : K → K) (osr span k : ℕ) (hk : k < osr * span * 2) :
    ((timeVec osr span : List K).map g).getD k 0 = g (((k : K) - (osr : K) * (span : K)) / osr) := by
  rw [getD_map_lt _ 0 0 _ (by rw [timeVec_length]; exact hk)]
  unfold timeVec
  have e : osr * 2 * span / 2 = osr * span := by
    rw [show osr * 2 * span = 2 * (osr * span) by ring]; omega
  simp only [e]
  rw [getD_map_lt (fun k : ℕ => ((k : K) - ((osr * span : ℕ) : K)) / (osr : K)) 0 0 _ (by rw [List.length_range]; omega),
    List.getD_eq_getElem?_getD, List.getElem?_range (by omega)]
  simp

variable [DecidableEq K]

theorem map_div_one (l : List K) : l.map (· / (1 : K)) = l := by simp

theorem shapeWith_eq (p u : List K) (osr span : ℕ) (h : 0 < osr * span) (hp : p.length = osr * span * 2)
    (hu : 0 < u.length) (zi : Option (List K)) (hz : ∀ z, zi = some z → z.length = osr * span * 2 - 1) :
    shapeWith p u osr span zi = .ok (lfRun id p [1] (zi.getD (List.replicate (osr * span * 2 - 1) 0)) u) := by
  have key : ∀ z : List K, z.length = osr * span * 2 - 1 → lfilter p [1] u z = .ok (lfRun id p [1] z u) := by
    intro z hz
    unfold lfilter
    rw [if_neg (by rintro (h | h | h) <;> first | omega | simp at h), if_neg (by rw [List.length_singleton]; omega),
      if_neg (by omega)]
    simp only [List.getD_cons_zero, map_div_one]
  unfold shapeWith
  rw [if_neg (by omega)]
  cases zi with
  | none => exact key _ (List.length_replicate ..)
  | some z =>
    show (if z.length ≠ osr * span * 2 - 1 then _ else _) = _
    rw [if_neg (by rw [hz z rfl]; simp)]
    exact key z (hz z rfl)

theorem upsample_eq (x : List K) (osr : ℕ) (ho : 0 < osr) : ∃ u, upsample x osr = .ok u ∧ u.length = x.length * osr ∧
    ∀ i j, i < x.length → j < osr → u.getD (i * osr + j) 0 = if j = 0 then x.getD i 0 else 0 := by
  exact C43_upsample x osr ho

theorem sum_blocks (f : ℕ → K) (r N : ℕ) :
    ∑ m ∈ range (N * r), f m = ∑ i ∈ range N, ∑ j ∈ range r, f (i * r + j) := by
  induction N with
  | zero => simp
  | succ N ih => rw [Nat.succ_mul, sum_range_add, ih, sum_range_succ]

/-- an FIR filter applied to the upsampled signal superimposes shifted responses -/
theorem superpose (p x u : List K) (osr : ℕ) (ho : 0 < osr) (hu : upsample x osr = .ok u) (n : ℕ) (hn : n < u.length) :
    ∑ i ∈ range p.length, p.getD i 0 * withPast [] u (n - i)
      = ∑ j ∈ range x.length, x.getD j 0 * sample p ((n : ℤ) - j * osr) := by
  obtain ⟨u', e, hl, hv⟩ := upsample_eq x osr ho
  rw [hu] at e
  cases e
  have e1 : ∑ i ∈ range p.length, p.getD i 0 * withPast [] u (n - i) = ∑ m ∈ range u.length, u.getD m 0 * sample p ((n : ℤ) - m) := by
    rw [sum_taps]
    obtain ⟨q, hq⟩ : ∃ q, u.length = n + 1 + q := ⟨u.length - (n + 1), by omega⟩
    rw [hq, sum_range_add (fun m => u.getD m 0 * sample p ((n : ℤ) - m)), sum_eq_zero (s := range q), add_zero,
      ← sum_range_reflect]
    · refine sum_congr rfl fun j hj => ?_
      rw [mem_range] at hj
      rw [show n + 1 - 1 - j = n - j by omega, show n - (n - j) = j by omega, mul_comm]
      unfold sample
      rw [if_pos (by omega)]
      congr 2
      omega
    · intro j _
      unfold sample
      rw [if_neg (by push_cast; omega), mul_zero]
  rw [e1, hl, sum_blocks]
  refine sum_congr rfl fun i hi => ?_
  rw [mem_range] at hi
  rw [sum_eq_single_of_mem 0 (mem_range.2 ho)]
  · rw [hv i 0 hi ho, if_pos rfl]
    push_cast
    simp
  · intro j hj h0
    rw [hv i j hi (mem_range.1 hj), if_neg h0, zero_mul]

theorem shape_out (p u : List K) (osr span : ℕ) (hp : p.length = osr * span * 2) (h : 0 < osr * span) (n : ℕ)
    (hn : n < u.length) :
    (lfRun id p [1] (List.replicate (osr * span * 2 - 1) 0) u).1.getD n 0
      = ∑ i ∈ range p.length, p.getD i 0 * withPast [] u (n - i) := by
  have := lfRun_diff p [1] (List.replicate (osr * span * 2 - 1) 0) u (by simp)
    (by rw [List.length_replicate]; omega) (by simp) n hn
  simp only [List.getD_cons_zero, map_div_one, one_mul] at this
  rw [this, replicate_getD]
  simp

end

/-- sample `k` of the pulse vector is the truncated pulse at time `(k - osr*span)/osr` -/
theorem sample_pulse (g : ℝ → ℝ) (osr span : ℕ) (ho : 0 < osr) (k : ℤ) :
    sample ((timeVec osr span).map g) k = truncated span g (((k : ℝ) - osr * span) / osr) := by
  have hpos : (0 : ℝ) < osr := by exact_mod_cast ho
  have hmem : (((k : ℝ) - osr * span) / osr ∈ Set.Ico (-(span : ℝ)) span) ↔ 0 ≤ k ∧ k < osr * span * 2 := by
    rw [Set.mem_Ico, le_div_iff₀ hpos, div_lt_iff₀ hpos]
    have e1 : (-(span : ℝ) * osr ≤ (k : ℝ) - osr * span) ↔ 0 ≤ k := by
      rw [← Int.cast_nonneg_iff (R := ℝ)]
      constructor <;> intro h <;> linarith
    have e2 : ((k : ℝ) - osr * span < span * osr) ↔ k < osr * span * 2 := by
      rw [← Int.cast_lt (R := ℝ)]
      push_cast
      constructor <;> intro h <;> linarith
    rw [e1, e2]
  unfold truncated sample
  by_cases h : 0 ≤ k ∧ k < osr * span * 2
  · rw [Set.indicator_of_mem (hmem.2 h), if_pos h.1, timeVec_map_getD _ _ _ _ (by zify; rw [Int.toNat_of_nonneg h.1]; exact h.2)]
    congr 3
    have : ((k.toNat : ℤ) : ℝ) = (k : ℝ) := by rw [Int.toNat_of_nonneg h.1]
    exact_mod_cast this
  · rw [Set.indicator_of_notMem (fun h' => h (hmem.1 h'))]
    split_ifs with h0
    · rw [getD_of_le]
      rw [List.length_map, timeVec_length]
      zify
      rw [Int.toNat_of_nonneg h0]
      push Not at h
      exact h h0
    · rfl

theorem timeVec_mem (osr span : ℕ) (u : ℝ) (h : u ∈ (timeVec osr span : List ℝ)) : ∃ k : ℤ, u = k / osr := by
  unfold timeVec at h
  simp only [List.mem_map, List.mem_range] at h
  obtain ⟨k, -, rfl⟩ := h
  exact ⟨(k : ℤ) - (osr * 2 * span / 2 : ℕ), by push_cast; rfl⟩

theorem getPulse_eq (name : String) (β : ℝ) (osr span : ℕ) (ho : 0 < osr) (g : ℝ → ℝ) (h : IsPulse name β osr g) :
    getPulse name osr span β = .ok ((timeVec osr span).map g) := by
  unfold getPulse
  rcases h with ⟨rfl, rfl⟩ | ⟨rfl, rfl⟩ | ⟨rfl, hβ, hg⟩ | ⟨rfl, hβ, hg, ho8, hgrid⟩
  · rw [if_pos rfl]
    unfold rectPulse Spec.rectFn
    congr 2
    funext u
    by_cases hu : u < 1 / 2 ∧ -1 / 2 ≤ u
    · rw [if_pos hu, Set.indicator_of_mem (show u ∈ Set.Ico (-1 / 2 : ℝ) (1 / 2) from ⟨hu.2, hu.1⟩)]; rfl
    · rw [if_neg hu, Set.indicator_of_notMem (fun h => hu ⟨h.2, h.1⟩)]
  · rw [if_neg (by decide), if_pos rfl]
    unfold sincPulse
    congr 2
    funext u
    exact npSinc_eq u
  · rw [if_neg (by decide), if_neg (by decide), if_pos rfl, isRaisedCosine_unique β g hg]
    unfold rcosPulse
    rw [if_neg hβ]
    congr 2
    funext u
    exact rcos_code β hβ u
  · rw [if_neg (by decide), if_neg (by decide), if_neg (by decide), if_pos rfl, isRootRaisedCosine_unique β g hg]
    unfold rrcPulse
    rw [if_neg hβ.ne']
    congr 1
    refine List.map_congr_left fun u hu => ?_
    obtain ⟨k, rfl⟩ := timeVec_mem osr span u hu
    refine rrc_code β hβ _ ?_ (hgrid k)
    intro hk
    by_contra hne
    have hpos : (0 : ℝ) < osr := by exact_mod_cast ho
    have hk0 : k ≠ 0 := by rintro rfl; simp at hne
    have h1 : (1 : ℝ) ≤ |(k : ℝ)| := by
      rw [← Int.cast_abs]; exact_mod_cast Int.one_le_abs hk0
    rw [abs_div, abs_of_pos hpos, div_le_iff₀ hpos] at hk
    have h8 : (osr : ℝ) < 10 ^ 8 := by exact_mod_cast ho8
    nlinarith

theorem pulseShape_eq (x : List ℝ) (osr span : ℕ) (name : String) (β : ℝ) (g : ℝ → ℝ)
    (hp : getPulse name osr span β = .ok ((timeVec osr span).map g)) (ho : 0 < osr) (hs : 0 < span) (hx : 0 < x.length)
    (zi : Option (List ℝ)) (hz : ∀ z, zi = some z → z.length = osr * span * 2 - 1) :
    ∃ u, upsample x osr = .ok u ∧ u.length = x.length * osr ∧ pulseShape x osr span name β zi
      = .ok (lfRun id ((timeVec osr span).map g) [1] (zi.getD (List.replicate (osr * span * 2 - 1) 0)) u) := by
  obtain ⟨u, e, hl, -⟩ := upsample_eq x osr ho
  refine ⟨u, e, hl, ?_⟩
  unfold pulseShape
  rw [e, hp]
  exact shapeWith_eq _ u osr span (Nat.mul_pos ho hs) (by rw [List.length_map, timeVec_length])
    (by rw [hl]; exact Nat.mul_pos hx ho) zi hz

theorem upsample_append (x y : List ℝ) (osr : ℕ) (u v : List ℝ) (hu : upsample x osr = .ok u) (hv : upsample y osr = .ok v) :
    upsample (x ++ y) osr = .ok (u ++ v) := by
  unfold upsample at *
  split_ifs at * with h
  cases hu; cases hv
  simp

theorem pulseShapeChunks_eq (osr span : ℕ) (name : String) (β : ℝ) (g : ℝ → ℝ)
    (hp : getPulse name osr span β = .ok ((timeVec osr span).map g)) (ho : 0 < osr) (hs : 0 < span)
    (cs : List (List ℝ)) (hcs : ∀ c ∈ cs, 0 < c.length) (zi : Option (List ℝ))
    (hz : ∀ z, zi = some z → z.length = osr * span * 2 - 1) :
    ∃ ys zo u, pulseShapeChunks osr span name β zi cs = .ok (ys, zo) ∧ upsample cs.flatten osr = .ok u ∧
      ys.map List.length = cs.map (fun c => c.length * osr) ∧
      (ys.flatten, zo.getD (List.replicate (osr * span * 2 - 1) 0))
        = lfRun id ((timeVec osr span).map g) [1] (zi.getD (List.replicate (osr * span * 2 - 1) 0)) u ∧
      (cs ≠ [] → zo ≠ none) := by
  induction cs generalizing zi with
  | nil =>
    refine ⟨[], zi, [], rfl, ?_, rfl, rfl, fun h => absurd rfl h⟩
    unfold upsample
    rw [if_neg (by omega)]
    rfl
  | cons c cs ih =>
    obtain ⟨u, e1, e2, e3⟩ := pulseShape_eq c osr span name β g hp ho hs (hcs c (by simp)) zi hz
    obtain ⟨r, hr⟩ : ∃ r, r = lfRun id ((timeVec osr span).map g) [1]
      (zi.getD (List.replicate (osr * span * 2 - 1) 0)) u := ⟨_, rfl⟩
    rw [← hr] at e3
    have hlen : r.2.length = osr * span * 2 - 1 := by
      rw [hr, lfRun_state_length]
      cases zi with
      | none => simp
      | some z => exact hz z rfl
    obtain ⟨ys, zo, v, f1, f2, f3, f4, f5⟩ := ih (fun c' hc' => hcs c' (by simp [hc'])) (some r.2)
      (by intro z hz; cases hz; exact hlen)
    refine ⟨r.1 :: ys, zo, u ++ v, ?_, ?_, ?_, ?_, ?_⟩
    · simp only [pulseShapeChunks, e3]
      show ((pulseShapeChunks osr span name β (some r.2) cs).bind _) = _
      rw [f1]; rfl
    · rw [List.flatten_cons]; exact upsample_append _ _ _ _ _ e1 f2
    · simp [f3, hr, lfRun_length, e2]
    · rw [lfRun_append, ← hr]
      show _ = (r.1 ++ _, _)
      rw [Option.getD_some] at f4
      rw [← f4, List.flatten_cons]
    · intro _
      cases cs with
      | nil => simp only [pulseShapeChunks] at f1; cases f1; simp
      | cons => exact f5 (by simp)

end Verif
