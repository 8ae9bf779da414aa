import Verif.Lemmas.Timing
import Verif.Lemmas.PulseCurve
import Verif.Model.CdrTest
import Verif.Props.Lms
import Verif.Props.Pulse
import Verif.Props.Framing

/-! Helper lemmas for the clock recovery loop. -/

open Finset

namespace Verif

open Spec (unitScale flipBit txLevel periodic chanOut cursor isiSum peakLevel levelVariance timingError phaseDist sCurve echo echoSign)

section Abstract
variable {N : ℕ} [NeZero N] (ref g : ZMod N → ℝ) (A B : ℝ)

/-- correlation of a reference: flat but for the lag 0 and, weighted by `κ`, the lags `h` and `-h` -/
def LagForm (κ : ℝ) (h : ZMod N) : Prop :=
  ∀ τ, ∑ z, ref z * ref (z + τ) = (A - B) * ((if τ = 0 then 1 else 0) + κ * ((if τ = h then 1 else 0) + (if τ = -h then 1 else 0))) + B

theorem lag_lock (κ : ℝ) (h : ZMod N) (hlag : LagForm ref A B κ h) (s : ZMod N) :
    ∑ z, ref (z + s) * rxZ ref g z = (A - B) * (g s + κ * (g (s + h) + g (s - h))) + B * ∑ r, g r := by
  simp only [rxZ, mul_sum]
  rw [sum_comm]
  have e : ∀ r, ∑ z, ref (z + s) * (g r * ref (z + r)) = (A - B) * (if r = s then g r else 0)
      + (A - B) * κ * (if r = s + h then g r else 0) + (A - B) * κ * (if r = s - h then g r else 0) + B * g r := by
    intro r
    have h1 : ∑ z, ref (z + s) * (g r * ref (z + r)) = g r * ∑ z, ref z * ref (z + (r - s)) := by
      rw [← sum_shift (fun z => ref z * ref (z + (r - s))) s, mul_sum]
      refine sum_congr rfl fun z _ => ?_
      rw [show z + s + (r - s) = z + r by ring]; ring
    rw [h1, hlag]
    have c : r - s = 0 ↔ r = s := sub_eq_zero
    have c1 : r - s = h ↔ r = s + h := ⟨fun e => by rw [← e]; ring, fun e => by rw [e]; ring⟩
    have c2 : r - s = -h ↔ r = s - h := ⟨fun e => by rw [sub_eq_add_neg, ← e]; ring, fun e => by rw [e]; ring⟩
    simp only [c, c1, c2]
    split_ifs <;> ring
  rw [sum_congr rfl fun r _ => e r, sum_add_distrib, sum_add_distrib, sum_add_distrib, ← mul_sum, ← mul_sum, ← mul_sum,
    sum_ite_eq' univ, sum_ite_eq' univ, sum_ite_eq' univ, if_pos (mem_univ _), if_pos (mem_univ _), if_pos (mem_univ _)]
  ring

/-- the lock aligns the reference with the largest correlation -/
theorem lock_largest (κ : ℝ) (h : ZMod N) (hlag : LagForm ref A B κ h) (hAB : B < A) (φ : ZMod N)
    (signal : List ℝ) (hlen : N ≤ signal.length) (hs : ∀ t < signal.length, signal.getD t 0 = rxZ ref g (t + φ)) :
    ∃ a x, (∀ s, g s + κ * (g (s + h) + g (s - h)) ≤ g a + κ * (g (a + h) + g (a - h))) ∧
      lockPattern ((List.range N).map (fun t : ℕ => ref (t : ZMod N))) signal
      = .ok ((List.range N).map (fun t : ℕ => ref ((t : ZMod N) + (φ + a))), x) := by
  have hN : 0 < N := Nat.pos_of_ne_zero (NeZero.ne N)
  set P := (List.range N).map (fun t : ℕ => ref (t : ZMod N)) with hP
  have hPl : P.length = N := by simp [hP]
  have hmin : min P.length signal.length = N := by omega
  set v := signal.take N with hv
  have hvl : v.length = N := by rw [hv, List.length_take]; omega
  have hPg : ∀ t, P.getD (t % N) 0 = ref (t : ZMod N) := by
    intro t
    rw [hP, map_range_getD _ _ _ _ (Nat.mod_lt _ hN)]
    congr 1
    exact ZMod.natCast_mod t N
  have hcorr : ∀ k, corr P v k = (A - B) * (g (k - φ) + κ * (g (k - φ + h) + g (k - φ - h))) + B * ∑ r, g r := by
    intro k
    rw [corr, hvl, hPl, ← lag_lock ref g A B κ h hlag]
    have e : ∀ i ∈ range N, P.getD ((k + i) % N) 0 * v.getD i 0
        = (fun z : ZMod N => ref ((k : ZMod N) + z) * rxZ ref g (z + φ)) (i : ZMod N) := by
      intro i hi
      rw [mem_range] at hi
      rw [hPg, hv, take_getD _ _ _ _ hi, hs i (by omega)]
      push_cast
      rfl
    rw [sum_congr rfl e, zmod_sum_cast N (fun z : ZMod N => ref ((k : ZMod N) + z) * rxZ ref g (z + φ)),
      ← sum_shift _ (-φ)]
    refine sum_congr rfl (fun z _ => ?_)
    rw [neg_add_cancel_right, show (k : ZMod N) + (z + -φ) = z + (k - φ) by ring]
  obtain ⟨h1, h2⟩ := lock_core P v (by omega) (by omega)
  set s := argmax (correlateValid (tile P 2) v) with hsd
  refine ⟨(s : ZMod N) - φ, correlateValid (tile P 2) v, fun r => ?_, ?_⟩
  · have h3 := h2 (r + φ).val
    rw [hcorr, hcorr, ZMod.natCast_zmod_val, add_sub_cancel_right] at h3
    by_contra hlt
    push Not at hlt
    nlinarith
  · rw [lockPattern, if_neg (by omega)]
    simp only [hmin]
    rw [← hv, ← hsd, tile_slice P s h1]
    congr 2
    apply List.ext_getElem
    · simp [hPl]
    · intro i hi hi'
      rw [List.getElem_rotate]
      simp only [hPl]
      have := hPg (i + s)
      rw [List.getD_eq_getElem _ _ (by rw [hPl]; exact Nat.mod_lt _ hN)] at this
      rw [this, List.getElem_map, List.getElem_range]
      push_cast
      rw [add_sub_cancel]

/-- with all taps within `w` of the main one and none larger in magnitude than the largest, the lock aligns the reference with a
largest tap -/
theorem lock_tap (κ : ℝ) (hκ : |κ| ≤ 2 / 5) (h : ZMod N) (w : ℕ)
    (hh : ∀ i : ℤ, |i| ≤ 2 * w + 1 → (i : ZMod N) ≠ h ∧ (i : ZMod N) ≠ -h)
    (hsupp : ∀ s, g s ≠ 0 → ∃ i : ℤ, |i| ≤ w ∧ s = (i : ZMod N)) (hpos : ∃ m, 0 < g m ∧ ∀ s, |g s| ≤ g m) (a : ZMod N)
    (ha : ∀ s, g s + κ * (g (s + h) + g (s - h)) ≤ g a + κ * (g (a + h) + g (a - h))) : ∀ s, g s ≤ g a := by
  -- taps at the distance of the echo from a tap vanish
  have far : ∀ i : ℤ, |i| ≤ w → ∀ e : ZMod N, (e = h ∨ e = -h) → g ((i : ZMod N) + e) = 0 := by
    intro i hi e he
    by_contra hne
    obtain ⟨j, hj, hje⟩ := hsupp _ hne
    have h2 : ((j - i : ℤ) : ZMod N) = e := by push_cast; rw [← hje]; ring
    obtain ⟨n1, n2⟩ := hh (j - i) (by rw [abs_le] at hi hj ⊢; omega)
    rw [h2] at n1 n2
    rcases he with he | he
    · exact n1 he
    · exact n2 he
  have clean : ∀ s, g s ≠ 0 → g (s + h) = 0 ∧ g (s - h) = 0 := by
    intro s hs
    obtain ⟨i, hi, rfl⟩ := hsupp s hs
    exact ⟨far i hi h (Or.inl rfl), by rw [sub_eq_add_neg]; exact far i hi (-h) (Or.inr rfl)⟩
  obtain ⟨m, hmp, hm⟩ := hpos
  have hmc := clean m hmp.ne'
  have h1 := ha m
  rw [hmc.1, hmc.2, add_zero, mul_zero, add_zero] at h1
  intro s
  refine ((le_abs_self _).trans (hm s)).trans ?_
  by_cases hga : g a = 0
  · rw [hga, zero_add] at h1
    have b3 : |κ * (g (a + h) + g (a - h))| ≤ 2 / 5 * (g m + g m) := by
      rw [abs_mul]
      exact mul_le_mul hκ ((abs_add_le _ _).trans (add_le_add (hm _) (hm _))) (abs_nonneg _) (by norm_num)
    have := le_abs_self (κ * (g (a + h) + g (a - h)))
    linarith
  · have hac := clean a hga
    rw [hac.1, hac.2, add_zero, mul_zero, add_zero] at h1
    exact h1

theorem rxZ_shift (a z : ZMod N) : rxZ ref (fun r => g (r + a)) (z + a) = rxZ ref g z := by
  rw [rxZ, rxZ, ← sum_shift (fun r => g r * ref (z + r)) a]
  exact sum_congr rfl fun r _ => by rw [show z + a + r = z + (r + a) by ring]

/-- one iteration of the loop -/
theorem loop_step (κ : ℝ) (hκ : |κ| ≤ 2 / 5) (h : ZMod N) (hlag : LagForm ref A B κ h)
    (hAB : B < A) (w : ℕ) (hh : ∀ i : ℤ, |i| ≤ 2 * w + 1 → (i : ZMod N) ≠ h ∧ (i : ZMod N) ≠ -h) (hsupp : ∀ s, g s ≠ 0 → ∃ i : ℤ, |i| ≤ w ∧ s = (i : ZMod N))
    (hpos : ∃ m, 0 < g m ∧ ∀ s, |g s| ≤ g m) (φ : ZMod N)
    (q : ℕ) (hq : 0 < q) (tol : ℝ) (ht : 0 < tol) (refLen osr : ℕ) (hrl : q * N < refLen) (mat : List (List ℝ))
    (hml : mat.length = q * N + 1) (phase : ℕ)
    (hs : ∀ t < mat.length, (mat.getD t []).getD phase 0 = rxZ ref g (t + φ)) (n : ℕ) :
    ∃ a v, (∀ s, g s ≤ g a) ∧ (v = 0 ∨ v = 1 ∨ v = -1) ∧
      (v = 0 ↔ |(A - B) / N * (g (a - 1) - g (a + 1))| < tol) ∧ (v = 1 ↔ tol ≤ (A - B) / N * (g (a - 1) - g (a + 1))) ∧
      (v = -1 ↔ (A - B) / N * (g (a - 1) - g (a + 1)) ≤ -tol) ∧
      mmLoop tol ((List.range N).map (fun t : ℕ => ref (t : ZMod N))) refLen osr mat (n + 1) phase
        = if v = 0 then .ok ((((phase : ℤ) + v) % (osr : ℤ)).toNat, true)
          else mmLoop tol ((List.range N).map (fun t : ℕ => ref (t : ZMod N))) refLen osr mat n
            (((phase : ℤ) + v) % (osr : ℤ)).toNat := by
  have hN : 0 < N := Nat.pos_of_ne_zero (NeZero.ne N)
  have hqN : N ≤ q * N := Nat.le_mul_of_pos_left _ hq
  set signal := mat.map (fun row => row.getD phase 0) with hsig
  have hsl : signal.length = q * N + 1 := by rw [hsig, List.length_map, hml]
  have hsg : ∀ t < signal.length, signal.getD t 0 = rxZ ref g (t + φ) := by
    intro t ht
    rw [hsl, ← hml] at ht
    rw [hsig, getD_map_lt _ [] 0 _ ht, hs t ht]
  obtain ⟨a, x, ha', hl⟩ := lock_largest ref g A B κ h hlag hAB φ signal (by omega) hsg
  have ha := lock_tap g κ hκ h w hh hsupp hpos a ha'
  set al := (List.range N).map (fun t : ℕ => ref ((t : ZMod N) + (φ + a))) with hal
  have hall : al.length = N := by simp [hal]
  set rep := (tile al ((refLen + N - 1) / N)).take signal.length with hrep
  have hceil : refLen ≤ (refLen + N - 1) / N * N := by
    have h1 := Nat.div_add_mod (refLen + N - 1) N
    have h2 := Nat.mod_lt (refLen + N - 1) hN
    rw [mul_comm] at h1
    omega
  have hrepl : rep.length = signal.length := by
    rw [hrep, List.length_take, tile_length, hall]; omega
  have hrepg : ∀ t < signal.length, rep.getD t 0 = ref ((t : ZMod N) + (φ + a)) := by
    intro t ht
    rw [hrep, take_getD _ _ _ _ ht]
    have h3 := tile_getElem? al ((refLen + N - 1) / N) t (by rw [hall]; omega)
    rw [List.getD_eq_getElem?_getD, h3, ← List.getD_eq_getElem?_getD, hall, hal,
      map_range_getD _ _ _ _ (Nat.mod_lt _ hN), ZMod.natCast_mod]
  obtain ⟨v, h1, h2, h3, h4, h5⟩ := C55_sign signal rep 1 1 tol hrepl.symm (by omega) ht
  have hT : timingError rep.length (fun k => signal.getD k 0) (fun k => rep.getD k 0) 1 1
      = (A - B) / N * (g (a - 1) - g (a + 1)) := by
    have hga : g a ≠ 0 := by
      obtain ⟨s, hs, -⟩ := hpos
      exact (lt_of_lt_of_le hs (ha s)).ne'
    obtain ⟨ia, hia, hae⟩ := hsupp a hga
    have flat : ∀ r, g (r + a) ≠ 0 → ∀ j : ℤ, (j = 1 ∨ j = -1) →
        ∑ z, ref z * ref (z + (r + (j : ZMod N))) = if r + (j : ZMod N) = 0 then A else B := by
      intro r hr j hj
      obtain ⟨i, hi, hie⟩ := hsupp _ hr
      have hre : r + (j : ZMod N) = ((i - ia + j : ℤ) : ZMod N) := by
        push_cast; rw [← hie, ← hae]; ring
      obtain ⟨n1, n2⟩ := hh (i - ia + j) (by
        rw [abs_le] at hi hia ⊢
        rcases hj with rfl | rfl <;> constructor <;> omega)
      rw [← hre] at n1 n2
      rw [hlag, if_neg n1, if_neg n2]
      split_ifs <;> ring
    have hsum := mmZ_flat ref (fun r => g (r + a)) A B
      (fun r hr => by have := flat r hr 1 (Or.inl rfl); rwa [Int.cast_one] at this)
      (fun r hr => by have := flat r hr (-1) (Or.inr rfl); rwa [Int.cast_neg, Int.cast_one, ← sub_eq_add_neg] at this)
    have e : ∀ k ∈ range (q * N), rep.getD k 0 * signal.getD (k + 1) 0 - rep.getD (k + 1) 0 * signal.getD k 0
        = (fun z : ZMod N => mmZ ref (fun r => g (r + a)) (z + (φ + a))) (k : ZMod N) := by
      intro k hk
      rw [mem_range] at hk
      rw [hrepg k (by omega), hrepg (k + 1) (by omega), hsg k (by omega), hsg (k + 1) (by omega)]
      show _ = mmZ ref (fun r => g (r + a)) ((k : ZMod N) + (φ + a))
      rw [mmZ]
      rw [← rxZ_shift ref g a, ← rxZ_shift ref g a]
      push_cast
      rw [show (k : ZMod N) + 1 + φ + a = k + (φ + a) + 1 by ring, show (k : ZMod N) + 1 + (φ + a) = k + (φ + a) + 1 by ring,
        show (k : ZMod N) + φ + a = k + (φ + a) by ring]
    have hNr : (0 : ℝ) < N := by exact_mod_cast hN
    have hqr : (0 : ℝ) < q := by exact_mod_cast hq
    rw [timingError, hrepl, hsl, Nat.add_sub_cancel, one_mul, one_mul, ← sub_div, ← sum_sub_distrib, sum_congr rfl e,
      sum_range_zmod (fun z : ZMod N => mmZ ref (fun r => g (r + a)) (z + (φ + a))), sum_shift, hsum]
    push_cast
    rw [add_sub_cancel_right, show -1 + a = a - 1 by ring, show 1 + a = a + 1 by ring]
    field_simp
  rw [hT] at h3 h4 h5
  refine ⟨a, v, ha, h2, h3, h4, h5, ?_⟩
  rw [mmLoop]
  simp only [bind, Except.bind]
  rw [← hsig, hl]
  simp only [List.length_map, List.length_range]
  rw [← hrep, h1]

end Abstract

/-- the taps seen at phase `τ` (in symbols) of a pulse, `span` symbols to both sides -/
noncomputable def phaseTaps (g : ℝ → ℝ) (span : ℕ) (τ : ℝ) : List ℝ :=
  (List.range (2 * span)).map fun k : ℕ => g ((k : ℝ) - span + τ)

theorem phaseTaps_getD (g : ℝ → ℝ) (span : ℕ) (τ : ℝ) (k : ℕ) (hk : k < 2 * span) :
    (phaseTaps g span τ).getD k 0 = g ((k : ℝ) - span + τ) := by
  rw [phaseTaps, map_range_getD _ _ _ _ hk]

/-- the taps by residue -/
theorem phase_tapZ {N : ℕ} [NeZero N] (g : ℝ → ℝ) (span : ℕ) (τ : ℝ) (hN : 2 * span ≤ N) (j : ℤ) (h1 : -(span : ℤ) ≤ j)
    (h2 : j < span) : tapZ N (phaseTaps g span τ) span (-(j : ZMod N)) = g (j + τ) := by
  have hl : (phaseTaps g span τ).length = 2 * span := by simp [phaseTaps]
  obtain ⟨k, hk⟩ : ∃ k : ℕ, (k : ℤ) = j + span := ⟨(j + span).toNat, by omega⟩
  have h := tapZ_at (N := N) (phaseTaps g span τ) span (by omega) k (by omega)
  rw [phaseTaps_getD _ _ _ _ (by omega)] at h
  have hc : (k : ZMod N) = (j : ZMod N) + (span : ZMod N) := by
    have := congrArg (fun i : ℤ => (i : ZMod N)) hk
    simpa using this
  have hr : (k : ℝ) = (j : ℝ) + (span : ℝ) := by
    have := congrArg (fun i : ℤ => (i : ℝ)) hk
    simpa using this
  rw [hc, hr] at h
  rw [show -(j : ZMod N) = (span : ZMod N) - ((j : ZMod N) + span) by ring, h]
  congr 1
  ring

/-- away from the two symbols around the phase all taps are below 1/2 -/
theorem phase_tapZ_small {N : ℕ} [NeZero N] (b : ℝ) (span : ℕ) (τ : ℝ) (hN : 2 * span ≤ N) (h0 : 0 ≤ τ) (h1 : τ < 1)
    (s : ZMod N) (hs0 : s ≠ 0) (hs1 : s ≠ 1) : |tapZ N (phaseTaps (rcosFn b) span τ) span s| < 1 / 2 := by
  have hl : (phaseTaps (rcosFn b) span τ).length = 2 * span := by simp [phaseTaps]
  by_cases hex : ∃ k < (phaseTaps (rcosFn b) span τ).length, (span : ZMod N) - k = s
  · obtain ⟨k, hk, rfl⟩ := hex
    rw [tapZ_at _ _ (by omega) k hk, phaseTaps_getD _ _ _ _ (by omega)]
    have n0 : k ≠ span := by rintro rfl; exact hs0 (sub_self _)
    have n1 : k + 1 ≠ span := by
      rintro rfl; exact hs1 (by push_cast; ring)
    refine rcosFn_tail b _ ?_
    rw [le_abs]
    rcases Nat.lt_or_ge k span with h | h
    · right
      have : (k : ℝ) + 2 ≤ span := by exact_mod_cast (show k + 2 ≤ span by omega)
      linarith
    · left
      have : (span : ℝ) + 1 ≤ k := by exact_mod_cast (show span + 1 ≤ k by omega)
      linarith
  · rw [tapZ_else _ _ _ (by push Not at hex; exact hex)]
    norm_num

/-- where the largest tap is, and what the detector sees there -/
theorem phase_direction {N : ℕ} [NeZero N] (b : ℝ) (hb0 : 0 ≤ b) (hb1 : b ≤ 1) (span osr φ : ℕ) (hsp : 2 ≤ span)
    (hN : 2 * span ≤ N) (ho : 0 < osr) (hφ : φ < osr) (a : ZMod N)
    (ha : ∀ s, tapZ N (phaseTaps (rcosFn b) span (φ / osr)) span s ≤ tapZ N (phaseTaps (rcosFn b) span (φ / osr)) span a) :
    (2 * φ ≤ osr ∧ tapZ N (phaseTaps (rcosFn b) span (φ / osr)) span (a - 1)
        - tapZ N (phaseTaps (rcosFn b) span (φ / osr)) span (a + 1) = -sCurve (rcosFn b) ((phaseDist osr φ : ℕ) / osr)) ∨
    (osr ≤ 2 * φ ∧ tapZ N (phaseTaps (rcosFn b) span (φ / osr)) span (a - 1)
        - tapZ N (phaseTaps (rcosFn b) span (φ / osr)) span (a + 1) = sCurve (rcosFn b) ((phaseDist osr φ : ℕ) / osr)) := by
  have hor : (0 : ℝ) < osr := by exact_mod_cast ho
  obtain ⟨τ, hτ⟩ : ∃ τ : ℝ, τ = φ / osr := ⟨_, rfl⟩
  rw [← hτ] at ha ⊢
  have t0 : 0 ≤ τ := by rw [hτ]; positivity
  have t1 : τ < 1 := by rw [hτ, div_lt_one hor]; exact_mod_cast hφ
  set G := tapZ N (phaseTaps (rcosFn b) span τ) span with hG
  have g0 : G 0 = rcosFn b τ := by
    have := phase_tapZ (N := N) (rcosFn b) span τ hN 0 (by omega) (by omega)
    simpa using this
  have g1 : G 1 = rcosFn b (1 - τ) := by
    have := phase_tapZ (N := N) (rcosFn b) span τ hN (-1) (by omega) (by omega)
    rw [← rcosFn_even b (1 - τ), show -(1 - τ) = ((-1 : ℤ) : ℝ) + τ by push_cast; ring]
    simpa using this
  have gm1 : G (-1) = rcosFn b (1 + τ) := by
    have := phase_tapZ (N := N) (rcosFn b) span τ hN 1 (by omega) (by omega)
    simpa using this
  have g2 : G 2 = rcosFn b (2 - τ) := by
    have := phase_tapZ (N := N) (rcosFn b) span τ hN (-2) (by omega) (by omega)
    rw [← rcosFn_even b (2 - τ), show -(2 - τ) = ((-2 : ℤ) : ℝ) + τ by push_cast; ring]
    simpa using this
  have hsmall : ∀ s, s ≠ 0 → s ≠ 1 → G s < 1 / 2 := fun s h0 h1 => (abs_lt.1 (phase_tapZ_small b span τ hN t0 t1 s h0 h1)).2
  rcases le_or_gt (2 * φ) osr with hle | hgt
  · have th : τ ≤ 1 / 2 := by
      rw [hτ, div_le_iff₀ hor]
      have : (2 : ℝ) * φ ≤ osr := by exact_mod_cast hle
      linarith
    have hd : phaseDist osr φ = φ := by rw [phaseDist]; omega
    have hm := rcosFn_main b τ hb0 hb1 t0 th
    have h0 := ha 0
    have ha01 : a = 0 ∨ a = 1 := by
      by_contra hne
      push Not at hne
      have := hsmall a hne.1 hne.2
      linarith
    rcases ha01 with rfl | rfl
    · left
      refine ⟨hle, ?_⟩
      rw [zero_sub, zero_add, gm1, g1, hd, ← hτ, sCurve]; ring
    · rcases lt_or_eq_of_le th with hlt | heq
      · have := rcosFn_near b τ hb0 hb1 t0 hlt
        linarith
      · right
        have ho2 : (osr : ℝ) = 2 * φ := by
          rw [hτ, div_eq_iff hor.ne'] at heq
          linarith
        refine ⟨by have : osr = 2 * φ := by exact_mod_cast ho2
                   omega, ?_⟩
        rw [sub_self, one_add_one_eq_two, g0, g2, hd, ← hτ, heq, sCurve]
        norm_num
  · right
    refine ⟨hgt.le, ?_⟩
    have hd : phaseDist osr φ = osr - φ := by rw [phaseDist]; omega
    have hσ : ((osr - φ : ℕ) : ℝ) / osr = 1 - τ := by
      rw [hτ, Nat.cast_sub hφ.le, sub_div, div_self hor.ne']
    have th : 1 / 2 < τ := by
      rw [hτ, lt_div_iff₀ hor]
      have : (osr : ℝ) < 2 * φ := by exact_mod_cast hgt
      linarith
    have hm := rcosFn_main b (1 - τ) hb0 hb1 (by linarith) (by linarith)
    have hn := rcosFn_near b (1 - τ) hb0 hb1 (by linarith) (by linarith)
    rw [sub_sub_cancel] at hn
    have h1 := ha 1
    have ha1 : a = 1 := by
      by_contra hne
      by_cases hz : a = 0
      · rw [hz] at h1; linarith
      · have := hsmall a hz hne
        linarith
    subst ha1
    rw [sub_self, one_add_one_eq_two, g0, g2, hd, hσ, sCurve, sub_sub_cancel]
    ring_nf

theorem phase_supp {N : ℕ} [NeZero N] (g : ℝ → ℝ) (span : ℕ) (τ : ℝ) (s : ZMod N)
    (hs : tapZ N (phaseTaps g span τ) span s ≠ 0) : ∃ i : ℤ, |i| ≤ span ∧ s = (i : ZMod N) := by
  have hl : (phaseTaps g span τ).length = 2 * span := by simp [phaseTaps]
  by_contra hne
  push Not at hne
  refine hs (tapZ_else _ _ _ fun k hk he => hne ((span : ℤ) - k) (by rw [abs_le]; omega) ?_)
  rw [← he]; push_cast; rfl

/-- the largest tap is the largest in magnitude -/
theorem phase_pos {N : ℕ} [NeZero N] (b : ℝ) (hb0 : 0 ≤ b) (hb1 : b ≤ 1) (span : ℕ) (hsp : 2 ≤ span) (τ : ℝ)
    (hN : 2 * span ≤ N) (h0 : 0 ≤ τ) (h1 : τ < 1) : ∃ m : ZMod N, 0 < tapZ N (phaseTaps (rcosFn b) span τ) span m ∧
      ∀ s, |tapZ N (phaseTaps (rcosFn b) span τ) span s| ≤ tapZ N (phaseTaps (rcosFn b) span τ) span m := by
  have hsmall := phase_tapZ_small b span τ hN h0 h1
  have g0 : tapZ N (phaseTaps (rcosFn b) span τ) span 0 = rcosFn b τ := by
    have := phase_tapZ (N := N) (rcosFn b) span τ hN 0 (by omega) (by omega)
    simpa using this
  have g1 : tapZ N (phaseTaps (rcosFn b) span τ) span 1 = rcosFn b (1 - τ) := by
    have := phase_tapZ (N := N) (rcosFn b) span τ hN (-1) (by omega) (by omega)
    rw [← rcosFn_even b (1 - τ), show -(1 - τ) = ((-1 : ℤ) : ℝ) + τ by push_cast; ring]
    simpa using this
  -- the smaller of the two central taps is not negative
  have nn : ∀ σ : ℝ, 0 ≤ σ → σ ≤ 1 / 2 → 0 ≤ rcosFn b (1 - σ) ∧ rcosFn b (1 - σ) ≤ rcosFn b σ := by
    intro σ s0 s1
    constructor
    · rcases s0.eq_or_lt with h | h
      · rw [← h, sub_zero, rcosFn_roll, mul_one, Real.sinc_of_ne_zero Real.pi_ne_zero, Real.sin_pi]; norm_num
      · exact (rcosFn_sides b σ hb0 hb1 h s1).2.2.1.le
    · rcases s1.eq_or_lt with h | h
      · rw [h]; norm_num
      · exact (rcosFn_near b σ hb0 hb1 s0 h).le
  rcases le_or_gt τ (1 / 2) with h | h
  · have hm := rcosFn_main b τ hb0 hb1 h0 h
    obtain ⟨n1, n2⟩ := nn τ h0 h
    refine ⟨0, by rw [g0]; linarith, fun s => ?_⟩
    by_cases s0 : s = 0
    · rw [s0, g0, abs_of_nonneg (by linarith)]
    by_cases s1 : s = 1
    · rw [s1, g0, g1, abs_of_nonneg n1]; exact n2
    · have := hsmall s s0 s1
      rw [g0]; linarith
  · have hm := rcosFn_main b (1 - τ) hb0 hb1 (by linarith) (by linarith)
    obtain ⟨n1, n2⟩ := nn (1 - τ) (by linarith) (by linarith)
    rw [sub_sub_cancel] at n1 n2
    refine ⟨1, by rw [g1]; linarith, fun s => ?_⟩
    by_cases s0 : s = 0
    · rw [s0, g0, g1, abs_of_nonneg n1]; exact n2
    by_cases s1 : s = 1
    · rw [s1, g1, abs_of_nonneg (by linarith)]
    · have := hsmall s s0 s1
      rw [g1]; linarith

theorem sCurve_zero (b : ℝ) : sCurve (rcosFn b) 0 = 0 := by rw [sCurve]; simp

theorem sCurve_pos (b σ : ℝ) (hb0 : 0 ≤ b) (hb1 : b ≤ 1) (h0 : 0 < σ) (h1 : σ ≤ 1 / 2) : 0 < sCurve (rcosFn b) σ := by
  obtain ⟨-, -, h2, h3⟩ := rcosFn_sides b σ hb0 hb1 h0 h1
  rw [sCurve]; linarith

/-- the loop walks to the centre and stops at the first phase whose error is below the tolerance -/
theorem loop_walk {N : ℕ} [NeZero N] (ref : ZMod N → ℝ) (A B : ℝ)
    (κ : ℝ) (hκ : |κ| ≤ 2 / 5) (h : ZMod N) (hlag : LagForm ref A B κ h) (hAB : B < A) (Φ : ZMod N)
    (q : ℕ) (hq : 0 < q) (tol : ℝ) (ht : 0 < tol) (refLen osr : ℕ) (hrl : q * N < refLen) (ho : 0 < osr)
    (mat : List (List ℝ)) (hml : mat.length = q * N + 1) (b : ℝ) (hb0 : 0 ≤ b) (hb1 : b ≤ 1) (span : ℕ) (hsp : 2 ≤ span)
    (hN : 2 * span ≤ N) (hh : ∀ i : ℤ, |i| ≤ 2 * span + 1 → (i : ZMod N) ≠ h ∧ (i : ZMod N) ≠ -h)
    (hs : ∀ φ < osr, ∀ t < mat.length, (mat.getD t []).getD φ 0
      = rxZ ref (tapZ N (phaseTaps (rcosFn b) span (φ / osr)) span) (t + Φ)) :
    ∀ (n φ : ℕ), φ < osr → phaseDist osr φ < n →
      ∃ φ', mmLoop tol ((List.range N).map (fun t : ℕ => ref (t : ZMod N))) refLen osr mat n φ = .ok (φ', true) ∧
        φ' < osr ∧ phaseDist osr φ' ≤ phaseDist osr φ ∧
        (A - B) / N * sCurve (rcosFn b) ((phaseDist osr φ' : ℕ) / osr) < tol ∧
        ∀ d : ℕ, phaseDist osr φ' < d → d ≤ phaseDist osr φ → tol ≤ (A - B) / N * sCurve (rcosFn b) (d / osr) := by
  intro n
  induction n with
  | zero => intro φ _ h; omega
  | succ n ih =>
    intro φ hφ hd
    have hor : (0 : ℝ) < osr := by exact_mod_cast ho
    have hNr : (0 : ℝ) < N := by exact_mod_cast (show 0 < N by omega)
    have hK : 0 < (A - B) / N := div_pos (by linarith) hNr
    have hτ0 : (0 : ℝ) ≤ (φ : ℝ) / osr := by positivity
    have hτ1 : (φ : ℝ) / osr < 1 := by rw [div_lt_one hor]; exact_mod_cast hφ
    obtain ⟨a, v, ha, -, h0, hp, hm, hloop⟩ := loop_step ref (tapZ N (phaseTaps (rcosFn b) span (φ / osr)) span) A B κ hκ
      h hlag hAB span hh (phase_supp (rcosFn b) span _) (phase_pos b hb0 hb1 span hsp _ (by omega) hτ0 hτ1) Φ q hq tol ht
      refLen osr hrl mat hml φ (hs φ hφ) n
    have hdir := phase_direction b hb0 hb1 span osr φ hsp (by omega) ho hφ a ha
    obtain ⟨S, hS⟩ : ∃ S, S = sCurve (rcosFn b) ((phaseDist osr φ : ℕ) / osr) := ⟨_, rfl⟩
    rw [← hS] at hdir
    have hdh : ((phaseDist osr φ : ℕ) : ℝ) / osr ≤ 1 / 2 := by
      rw [div_le_iff₀ hor]
      have : 2 * phaseDist osr φ ≤ osr := by rw [phaseDist]; omega
      have : (2 : ℝ) * (phaseDist osr φ : ℕ) ≤ osr := by exact_mod_cast this
      linarith
    have hS0 : 0 ≤ S ∧ (phaseDist osr φ = 0 → S = 0) := by
      rw [hS]
      constructor
      · rcases Nat.eq_zero_or_pos (phaseDist osr φ) with h | h
        · rw [h, Nat.cast_zero, zero_div, sCurve_zero]
        · exact (sCurve_pos b _ hb0 hb1 (by have : (0 : ℝ) < (phaseDist osr φ : ℕ) := by exact_mod_cast h
                                            positivity) hdh).le
      · intro h
        rw [h, Nat.cast_zero, zero_div, sCurve_zero]
    have hKS : 0 ≤ (A - B) / N * S := mul_nonneg hK.le hS0.1
    by_cases hstop : (A - B) / N * S < tol
    · have hv : v = 0 := by
        rw [h0]
        rcases hdir with ⟨-, e⟩ | ⟨-, e⟩ <;> rw [e]
        · rw [mul_neg, abs_neg, abs_of_nonneg hKS]; exact hstop
        · rw [abs_of_nonneg hKS]; exact hstop
      refine ⟨φ, ?_, hφ, le_rfl, by rw [← hS]; exact hstop, fun d h1 h2 => by omega⟩
      rw [hloop, if_pos hv, hv, add_zero, Int.emod_eq_of_lt (by omega) (by omega), Int.toNat_natCast]
    · push Not at hstop
      have hd0 : phaseDist osr φ ≠ 0 := by
        intro h
        rw [hS0.2 h, mul_zero] at hstop
        linarith
      obtain ⟨ψ, hψ, hψd, hnext⟩ : ∃ ψ < osr, phaseDist osr ψ + 1 = phaseDist osr φ ∧
          (v ≠ 0 ∧ (((φ : ℤ) + v) % (osr : ℤ)).toNat = ψ) := by
        rcases hdir with ⟨hle, e⟩ | ⟨hge, e⟩
        · have hv : v = -1 := by rw [hm, e, mul_neg]; linarith
          have hφ1 : 1 ≤ φ := by
            rcases Nat.eq_zero_or_pos φ with h | h
            · rw [h, phaseDist] at hd0; simp at hd0
            · exact h
          refine ⟨φ - 1, by omega, ?_, by rw [hv]; decide, ?_⟩
          · rw [phaseDist, phaseDist]; omega
          · rw [hv, Int.emod_eq_of_lt (by omega) (by omega)]; omega
        · have hv : v = 1 := by rw [hp, e]; linarith
          by_cases hlast : φ + 1 = osr
          · refine ⟨0, ho, ?_, by rw [hv]; decide, ?_⟩
            · rw [phaseDist, phaseDist]
              rw [phaseDist] at hd0
              omega
            · rw [hv, show (φ : ℤ) + 1 = osr by exact_mod_cast hlast, Int.emod_self]; rfl
          · refine ⟨φ + 1, by omega, ?_, by rw [hv]; decide, ?_⟩
            · rw [phaseDist, phaseDist]; omega
            · rw [hv, Int.emod_eq_of_lt (by omega) (by omega)]; omega
      obtain ⟨φ', e1, e2, e3, e4, e5⟩ := ih ψ hψ (by omega)
      refine ⟨φ', ?_, e2, by omega, e4, fun d h1 h2 => ?_⟩
      · rw [hloop, if_neg hnext.1, hnext.2, e1]
      · rcases Nat.lt_or_ge d (phaseDist osr φ) with h | h
        · exact e5 d h1 (by omega)
        · rw [show d = phaseDist osr φ by omega, ← hS]; exact hstop

theorem refZ_pam4_form (p : PrbsEnum) (fs bi pnPre pnPost : Bool) :
    ∃ (ga : ℝ) (x y : ZMod (2 ^ p.value - 1)), ga ^ 2 = unitScale .pam4 fs ^ 2 ∧ (x = 1 ∧ y = 0 ∨ x = 0 ∧ y = 1) ∧
      ∀ z, refZ p .pam4 fs bi pnPre false pnPost z
        = ga * (2 * uSeq p (onesSeed p) (2 * z + x) + uSeq p (onesSeed p) (2 * z + y)) := by
  set g : ℝ := (if pnPost then -1 else 1) * unitScale .pam4 fs with hgd
  set ep : ℝ := if pnPre then -1 else 1 with hep
  have hg2 : (g * ep) ^ 2 = unitScale .pam4 fs ^ 2 := by
    rw [hgd, hep]; cases pnPost <;> cases pnPre <;> simp
  set b := bitAt (getPolynomial p) (onesSeed p) with hb
  have u0 : ∀ z : ZMod (2 ^ p.value - 1), uSeq p (onesSeed p) (2 * z + 0) = 2 * (b (2 * z.val) : ℝ) - 1 := by
    intro z
    have := uSeq_two p z 0
    rwa [Nat.cast_zero] at this
  have u1 : ∀ z : ZMod (2 ^ p.value - 1), uSeq p (onesSeed p) (2 * z + 1) = 2 * (b (2 * z.val + 1) : ℝ) - 1 := by
    intro z
    have := uSeq_two p z 1
    rwa [Nat.cast_one] at this
  have val : ∀ z : ZMod (2 ^ p.value - 1), refZ p .pam4 fs bi pnPre false pnPost z
      = g * (2 * (2 * (flipBit pnPre (if bi then b (2 * z.val) else b (2 * z.val + 1)) : ℝ) - 1)
        + (2 * (flipBit pnPre (if bi then b (2 * z.val + 1) else b (2 * z.val)) : ℝ) - 1)) := fun z => rfl
  cases bi with
  | false =>
    refine ⟨g * ep, 1, 0, hg2, Or.inl ⟨rfl, rfl⟩, fun z => ?_⟩
    rw [val, u0, u1]
    simp only [Bool.false_eq_true, if_false]
    rw [flip_sign, flip_sign, ← hep]; ring
  | true =>
    refine ⟨g * ep, 0, 1, hg2, Or.inr ⟨rfl, rfl⟩, fun z => ?_⟩
    rw [val, u0, u1]
    simp only [if_true]
    rw [flip_sign, flip_sign, ← hep]; ring

theorem ref_lagForm (p : PrbsEnum) (fs bi pnPre gray pnPost : Bool) (c : Constellation) (hc : c ≠ .pam3) :
    ∃ A B κ : ℝ, A - B = levelVariance c fs * (((2 ^ p.value - 1 : ℕ) : ℝ) + 1) ∧ |κ| ≤ 2 / 5 ∧
      LagForm (refZ p c fs bi pnPre gray pnPost) A B κ
        (if c = .pam4 then ((echo p bi gray : ℕ) : ZMod (2 ^ p.value - 1)) else ((2 ^ (p.value - 1) - 1 : ℕ) : ZMod (2 ^ p.value - 1))) := by
  by_cases h4 : c = .pam4
  · subst h4
    have hs : |2 / 5 * echoSign pnPre gray| ≤ 2 / 5 := by
      rw [echoSign, abs_mul]; cases pnPre <;> cases gray <;> norm_num
    refine ⟨unitScale .pam4 fs ^ 2 * ((((2 ^ p.value - 1 : ℕ) : ℝ) + 1) * 5 - (5 + 4 * echoSign pnPre gray)),
      unitScale .pam4 fs ^ 2 * (-(5 + 4 * echoSign pnPre gray)), 2 / 5 * echoSign pnPre gray, ?_, hs, fun τ => ?_⟩
    · simp only [levelVariance]; ring
    · rw [refZ_four_corr, if_pos rfl]
      split_ifs <;> ring
  · obtain ⟨A, B, h1, h2⟩ := ref_lag p fs bi pnPre gray pnPost c hc
    refine ⟨A, B, 0, h1, by norm_num, fun τ => ?_⟩
    rw [h2 τ (fun h => absurd h h4)]
    split_ifs <;> ring

/-- the response is at least linear; how steep depends on the roll-off -/
theorem sCurve_ge (b σ m : ℝ) (hb0 : 0 ≤ b) (hb1 : b ≤ 1) (hm : b ≤ 1 / 2 ∧ m = 1 / 2 ∨ m = 1 / 5) (h0 : 0 < σ) (h1 : σ ≤ 1 / 2) :
    m * σ ≤ sCurve (rcosFn b) σ := by
  obtain ⟨e1, -, -, h3⟩ := rcosFn_sides b σ hb0 hb1 h0 h1
  have hp := Real.pi_pos
  have hs : 2 * σ ≤ Real.sin (Real.pi * σ) := by
    have := Real.mul_le_sin (x := Real.pi * σ) (by positivity) (by nlinarith)
    refine le_of_eq_of_le ?_ this
    field_simp
  have hd : 0 < Real.pi * (1 - σ) := mul_pos hp (by linarith)
  have hq : 2 * σ / Real.pi ≤ Real.sin (Real.pi * σ) / (Real.pi * (1 - σ)) := by
    rw [div_le_div_iff₀ hp hd]
    have : 0 ≤ σ * σ * Real.pi := by positivity
    have h4 := mul_le_mul_of_nonneg_right hs hp.le
    linarith
  have hx0 : 0 ≤ 2 * b * (1 - σ) := mul_nonneg (by linarith) (by linarith)
  have hbs : b * (1 - σ) ≤ b * 1 := mul_le_mul_of_nonneg_left (by linarith) hb0
  have hq0 : 0 ≤ 2 * σ / Real.pi := by positivity
  have key : m * σ ≤ rcosFn b (1 - σ) := by
    rw [← e1]
    rcases hm with ⟨hb, rfl⟩ | rfl
    · have hr := rollFn_anti (2 * b * (1 - σ)) 1 hx0 (by linarith) (by norm_num)
      rw [rollFn_one] at hr
      refine le_trans ?_ (mul_le_mul hq hr (by positivity) (le_trans hq0 hq))
      rw [show 2 * σ / Real.pi * (Real.pi / 4) = 1 / 2 * σ by field_simp; ring]
    · have hr := rollFn_ge (2 * b * (1 - σ)) hx0 (by linarith)
      refine le_trans ?_ (mul_le_mul hq hr (by norm_num) (le_trans hq0 hq))
      rw [div_mul_div_comm, le_div_iff₀ (by positivity)]
      have := Real.pi_lt_d2
      nlinarith
  rw [sCurve]; linarith

/-- and at most linear -/
theorem sCurve_le (b σ : ℝ) (hb0 : 0 ≤ b) (hb1 : b ≤ 1) (h0 : 0 < σ) (h1 : σ ≤ 1 / 2) :
    sCurve (rcosFn b) σ ≤ 8 / 3 * σ := by
  obtain ⟨e1, e2, -, -⟩ := rcosFn_sides b σ hb0 hb1 h0 h1
  have hp := Real.pi_pos
  have hs : Real.sin (Real.pi * σ) ≤ Real.pi * σ := Real.sin_le (by positivity)
  have hs0 : 0 ≤ Real.sin (Real.pi * σ) := Real.sin_nonneg_of_nonneg_of_le_pi (by positivity) (by nlinarith)
  have r1 : rollFn (2 * b * (1 - σ)) ≤ 1 := (abs_le.mp (rollFn_abs _)).2
  have r2 : rollFn (2 * b * (1 + σ)) ≤ 1 := (abs_le.mp (rollFn_abs _)).2
  have a1 : rcosFn b (1 - σ) ≤ σ / (1 - σ) := by
    rw [← e1]
    have : Real.sin (Real.pi * σ) / (Real.pi * (1 - σ)) ≤ σ / (1 - σ) := by
      rw [div_le_div_iff₀ (mul_pos hp (by linarith)) (by linarith)]
      have := mul_le_mul_of_nonneg_right hs (by linarith : (0:ℝ) ≤ 1 - σ)
      linarith
    have h0' : 0 ≤ Real.sin (Real.pi * σ) / (Real.pi * (1 - σ)) := div_nonneg hs0 (mul_nonneg hp.le (by linarith))
    exact le_trans (mul_le_of_le_one_right h0' r1) this
  have a2 : -rcosFn b (1 + σ) ≤ σ / (1 + σ) := by
    rw [e2, neg_neg]
    have : Real.sin (Real.pi * σ) / (Real.pi * (1 + σ)) ≤ σ / (1 + σ) := by
      rw [div_le_div_iff₀ (mul_pos hp (by linarith)) (by linarith)]
      have := mul_le_mul_of_nonneg_right hs (by linarith : (0:ℝ) ≤ 1 + σ)
      linarith
    have h0' : 0 ≤ Real.sin (Real.pi * σ) / (Real.pi * (1 + σ)) := div_nonneg hs0 (mul_nonneg hp.le (by linarith))
    exact le_trans (mul_le_of_le_one_right h0' r2) this
  have a3 : σ / (1 - σ) + σ / (1 + σ) ≤ 8 / 3 * σ := by
    rw [div_add_div _ _ (by linarith) (by linarith), div_le_iff₀ (mul_pos (by linarith) (by linarith))]
    have : 0 ≤ σ * (1 / 2 - σ) * (1 / 2 + σ) := mul_nonneg (mul_nonneg h0.le (by linarith)) (by linarith)
    nlinarith
  rw [sCurve]; linarith

end Verif
