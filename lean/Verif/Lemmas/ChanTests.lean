import Verif.Model.ChanTests
import Verif.Lemmas.PrbsData
import Verif.Lemmas.RoundedFilter
import Verif.Props.EstimPrbs
import Verif.Props.Filter

/-! Helper lemmas for the test of the channel estimation. -/

open Finset

namespace Verif
open Spec (unitScale flipBit txLevel periodic chanOut popVar IsLs periodAvg BestPhase)

/-! ### the pattern -/

theorem range_getD_tile {α : Type} (f : ℕ → α) (N k m : ℕ) (hN : 0 < N) (hper : ∀ t, f (t % N) = f t) (hm : m ≤ k * N) :
    (tile ((List.range N).map f) k).take m = (List.range m).map f := by
  refine List.ext_getElem? fun i => ?_
  rcases Nat.lt_or_ge i m with h | h
  · rw [List.getElem?_take, if_pos h, tile_getElem? _ _ _ (by simp; omega)]
    simp only [List.length_map, List.length_range]
    rw [List.getElem?_map, List.getElem?_range (Nat.mod_lt _ hN), List.getElem?_map, List.getElem?_range h]
    simp [hper]
  · rw [List.getElem?_eq_none (by simp; omega), List.getElem?_eq_none (by simpa using h)]

theorem genPattern_eq (p : PrbsEnum) (bits : List Int) (hd : csvData p = some bits) (c : Constellation) (hc : c ≠ .pam3)
    (reps cutoff : ℕ) :
    genPattern c bits reps cutoff = .ok ((List.range (reps * (2 ^ p.value - 1) - cutoff)).map
      (txLevel c false false false false false (bitAt (getPolynomial p) (onesSeed p)))) := by
  have hN : 0 < 2 ^ p.value - 1 := by have := period_ge p; omega
  have hb := csvData_eq p bits hd
  have hpat : (do
      let sym ← (if c = Constellation.pam4 then bin2symbol (tile bits 2) (2 ^ 2) {} else .ok bits : Py (List Int))
      mapping sym c false none false) = .ok ((List.range (2 ^ p.value - 1)).map
      (txLevel c false false false false false (bitAt (getPolynomial p) (onesSeed p)))) := by
    by_cases h4 : c = .pam4
    · subst h4
      have h := prbsReference_eq p .pam4 (by decide) false false false false false
      unfold prbsReference at h
      simp only [List.length_replicate] at h
      rw [prbsGenerator_supported p (onesSeed p) (by simp)] at h
      have ht : tile bits 2 = (List.range (2 * (2 ^ p.value - 1))).map (bitAt (getPolynomial p) (onesSeed p)) := by
        have := range_getD_tile (bitAt (getPolynomial p) (onesSeed p)) (2 ^ p.value - 1) 2 (2 * (2 ^ p.value - 1)) hN
          (fun t => bitAt_mod p (onesSeed p) (by simp) t) le_rfl
        rw [← this, hb, List.take_of_length_le (by rw [tile_length]; simp)]
      rw [if_pos rfl, ht]
      simp only [refReps, if_true, one_mul] at h
      exact h
    · rw [if_neg h4]
      show mapping bits c false none false = _
      have hbit := bitAt_mem (getPolynomial p) (onesSeed p)
      rw [mapping_valid]
      · rw [hb, List.map_map]
        congr 1
        refine List.map_congr_left fun t _ => ?_
        simp only [Function.comp_apply]
        cases c with
        | nrz => rcases hbit t with h | h <;> simp [txLevel, h, flipBit, intLevels] <;> norm_num
        | ook => rcases hbit t with h | h <;> simp [txLevel, h, flipBit, intLevels]
        | pam3 => exact absurd rfl hc
        | pam4 => exact absurd rfl h4
      · intro x hx
        rw [hb, List.mem_map] at hx
        obtain ⟨t, -, rfl⟩ := hx
        have : (2 : ℤ) ≤ (intLevels c).length := by cases c <;> decide
        rcases hbit t with h | h <;> rw [h] <;> constructor <;> omega
  unfold genPattern
  simp only [bind, Except.bind] at hpat ⊢
  generalize (if c = Constellation.pam4 then bin2symbol (tile bits 2) (2 ^ 2) {} else .ok bits : Py (List Int)) = f at hpat ⊢
  cases f with
  | error e => cases hpat
  | ok v =>
    simp only [] at hpat ⊢
    rw [hpat]
    show Except.ok _ = Except.ok _
    rw [tile_length, List.length_map, List.length_range,
      range_getD_tile _ _ _ _ hN (fun t => txLevel_mod p c false false false false false t) (Nat.sub_le _ _)]

/-- the filtered pattern, after the transient, is the response to the periodic symbols -/
theorem filtered_pattern (p : PrbsEnum) (c : Constellation) (h : List ℝ) (pre : ℕ) (hpos : 0 < h.length) (M : ℕ)
    (hM : 0 < M) :
    ∃ y z, awgnChannel ((List.range M).map (txLevel c false false false false false (bitAt (getPolynomial p) (onesSeed p)))) h
        (.vec [1]) none = .ok (y, z) ∧ y.length = M ∧ ∀ t, t + (h.length + 1) < M →
      (y.drop (h.length + 1)).getD t 0 = chanOut h pre
        (periodic (2 ^ p.value - 1) (txLevel c false false false false false (bitAt (getPolynomial p) (onesSeed p))))
        (t + ((h.length : ℤ) + 1 - pre)) := by
  obtain ⟨y, z, h1, h2, h3⟩ := C44_difference_equation h (.vec [1]) ((List.range M).map
    (txLevel c false false false false false (bitAt (getPolynomial p) (onesSeed p)))) hpos (by simp [Denom.coeffs])
    (by simp [Denom.coeffs]) (by simpa using hM)
  rw [List.length_map, List.length_range] at h2 h3
  refine ⟨y, z, h1, h2, fun t ht => ?_⟩
  have h4 := h3 (t + (h.length + 1)) ht
  unfold Spec.DiffEq at h4
  rw [show (Denom.vec [(1 : ℝ)]).coeffs = [1] from rfl, List.length_singleton, Ico_self, sum_empty, List.getD_cons_zero, one_mul,
    sub_zero, withPast_nat] at h4
  rw [drop_getD, Nat.add_comm (h.length + 1) t, h4, chanOut]
  refine sum_congr rfl fun k hk => ?_
  rw [mem_range] at hk
  congr 1
  rw [show ((t + (h.length + 1) : ℕ) : ℤ) - k = ((t + (h.length + 1) - k : ℕ) : ℤ) by omega, withPast_nat,
    map_range_getD _ _ _ _ (by omega), refZ_int, ← refZ_cast]
  congr 1
  rw [show (t : ℤ) + ((h.length : ℤ) + 1 - pre) + pre - k = ((t + (h.length + 1) - k : ℕ) : ℤ) by omega, Int.cast_natCast]

/-! ### where the lock finds the filtered reference -/

/-- the gain of the lock over another phase, two levels -/
theorem affine_gain {N : ℕ} [NeZero N] (u : ZMod N → ℝ) (hu : ∀ τ, ∑ z, u z * u (z + τ) = if τ = 0 then (N : ℝ) else -1)
    (h1 : ∑ z, u z = 1) (al be : ℝ) (h : ZMod N → ℝ) (s : ZMod N) :
    ∑ z, (al * u z + be) * ∑ r, h r * (al * u (z + r) + be)
      - ∑ z, (al * u (z + s) + be) * ∑ r, h r * (al * u (z + r) + be) = al ^ 2 * ((N : ℝ) + 1) * (h 0 - h s) := by
  have key : ∀ s, ∑ z, (al * u (z + s) + be) * ∑ r, h r * (al * u (z + r) + be)
      = al ^ 2 * ((N : ℝ) + 1) * h s + (2 * al * be + N * be ^ 2 - al ^ 2) * ∑ r, h r := by
    intro s
    rw [corr_filtered (fun z => al * u z + be) h s]
    have e : ∀ r, h r * ∑ z, (al * u z + be) * (al * u (z + (r - s)) + be)
        = al ^ 2 * ((N : ℝ) + 1) * (if r = s then h r else 0) + (2 * al * be + N * be ^ 2 - al ^ 2) * h r := by
      intro r
      rw [affine_corr u hu h1 al be]
      by_cases e : r = s
      · rw [if_pos (by rw [e, sub_self]), if_pos e]; ring
      · rw [if_neg (fun h => e (sub_eq_zero.1 h)), if_neg e]; ring
    rw [sum_congr rfl (fun r _ => e r), sum_add_distrib, ← mul_sum, ← mul_sum, sum_ite_eq', if_pos (mem_univ _)]
  have k0 := key 0
  simp only [add_zero] at k0
  rw [key s, k0]
  ring

/-- a window of one period and `E` more samples locks at the right phase, if the gain over a period exceeds what the
remaining samples can lose -/
theorem bestPhase_window {N : ℕ} [NeZero N] (ref h : ZMod N → ℝ) (φ : ℤ) (E : ℕ) (loss : ℝ)
    (x : ℤ → ℝ) (hx : ∀ t : ℤ, x t = ref (t : ZMod N)) (s : ℕ → ℝ)
    (hs : ∀ t < N + E, s t = ∑ r, h r * ref (t + φ + r))
    (hgain : ∀ d, d ≠ 0 →
      E * loss < ∑ z, ref z * ∑ r, h r * ref (z + r) - ∑ z, ref (z + d) * ∑ r, h r * ref (z + r))
    (hloss : ∀ z w, -loss ≤ (ref z - ref w) * ∑ r, h r * ref (z + r)) (ph : ℤ)
    (hb : BestPhase x s (N + E) ph) : (ph : ZMod N) = (φ : ZMod N) := by
  by_contra hne
  have h3 := hb φ
  rw [sum_range_add, sum_range_add] at h3
  have hfull : ∀ k : ℤ, ∑ i ∈ range N, x (i + k) * s i = ∑ z, ref (z + (k - φ)) * ∑ r, h r * ref (z + r) := by
    intro k
    have e : ∀ i ∈ range N, x (i + k) * s i
        = (fun z : ZMod N => ref (z + (k : ZMod N)) * ∑ r, h r * ref (z + φ + r)) (i : ZMod N) := by
      intro i hi
      rw [mem_range] at hi
      rw [hs i (by omega), hx]
      push_cast
      rfl
    have hz := sum_range_zmod (fun z : ZMod N => ref (z + (k : ZMod N)) * ∑ r, h r * ref (z + φ + r)) 1
    rw [one_mul, Nat.cast_one, one_mul] at hz
    rw [sum_congr rfl e, hz]
    rw [← Equiv.sum_comp (Equiv.addRight (-(φ : ZMod N)))]
    refine sum_congr rfl (fun z _ => ?_)
    show ref (z + -(φ : ZMod N) + (k : ZMod N)) * ∑ r, h r * ref (z + -(φ : ZMod N) + φ + r) = _
    rw [show z + -(φ : ZMod N) + (k : ZMod N) = z + (k - φ) by ring]
    simp only [neg_add_cancel_right]
  have hpart : -(E * loss) ≤ ∑ i ∈ range E, x (((N + i : ℕ) : ℤ) + φ) * s (N + i) - ∑ i ∈ range E, x (((N + i : ℕ) : ℤ) + ph) * s (N + i) := by
    rw [← sum_sub_distrib]
    have : -(E * loss) = ∑ _i ∈ range E, (-loss) := by rw [sum_const, card_range, nsmul_eq_mul]; ring
    rw [this]
    refine sum_le_sum fun i hi => ?_
    rw [mem_range] at hi
    rw [← sub_mul, hx, hx, hs (N + i) (by omega)]
    push_cast
    exact hloss _ _
  rw [hfull, hfull, sub_self] at h3
  simp only [add_zero] at h3
  have h4 := hgain ((ph : ZMod N) - φ) (sub_ne_zero.2 hne)
  linarith

/-- the four-level reference, short channels: no other tap above the main tap suffices -/
theorem twoTap_lock_short {N : ℕ} [NeZero N] (u : ZMod N → ℝ) (hu : ∀ τ, ∑ z, u z * u (z + τ) = if τ = 0 then (N : ℝ) else -1)
    (e : ZMod N) (he : 2 * e = 1) (ga si : ℝ) (hsi : si = 1 ∨ si = -1) (a b : ZMod N) (hga : ga ≠ 0) (h : ZMod N → ℝ)
    (h0 : 0 < h 0) (habs : ∀ s, |h s| ≤ h 0) (hlt : ∀ s, s ≠ 0 → h s < h 0)
    (hfar : ∀ s, h s ≠ 0 → h (s + e * (b - a)) = 0 ∧ h (s - e * (b - a)) = 0) (s : ZMod N) (hs : s ≠ 0) :
    ∑ z, twoTap u ga si a b (z + s) * ∑ r, h r * twoTap u ga si a b (z + r)
      < ∑ z, twoTap u ga si a b z * ∑ r, h r * twoTap u ga si a b (z + r) := by
  have k0 := twoTap_filtered u hu e he ga si hsi a b h 0
  simp only [add_zero] at k0
  rw [twoTap_filtered u hu e he ga si hsi a b h s, k0]
  have hN : (0 : ℝ) < N := by exact_mod_cast NeZero.pos N
  obtain ⟨f1, f2⟩ := hfar 0 h0.ne'
  rw [f1, f2]
  have key : 5 * h s + 2 * si * h (s + e * (b - a)) + 2 * si * h (s - e * (b - a)) < 5 * h 0 := by
    by_cases hz : h s = 0
    · rw [hz]
      have a1 := abs_le.1 (habs (s + e * (b - a)))
      have a2 := abs_le.1 (habs (s - e * (b - a)))
      rcases hsi with rfl | rfl <;> linarith [a1.1, a1.2, a2.1, a2.2]
    · obtain ⟨g1, g2⟩ := hfar s hz
      rw [g1, g2]
      have := hlt s hs
      linarith
  have hg : 0 < ga ^ 2 * ((N : ℝ) + 1) := by positivity
  have := mul_lt_mul_of_pos_left key hg
  linarith

theorem tapZ_bound {N : ℕ} [NeZero N] (h : List ℝ) (pre : ℕ) (hl : h.length ≤ N) (s : ZMod N) :
    tapZ N h pre s = 0 ∨ ∃ k < h.length, (pre : ZMod N) - k = s ∧ tapZ N h pre s = h.getD k 0 := by
  by_cases hex : ∃ k < h.length, (pre : ZMod N) - k = s
  · obtain ⟨k, hk, rfl⟩ := hex
    exact Or.inr ⟨k, hk, rfl, tapZ_at h pre hl k hk⟩
  · exact Or.inl (tapZ_else h pre s (by push Not at hex; exact hex))

/-- half a period apart, a short channel has no second tap -/
theorem tapZ_far (p : PrbsEnum) (h : List ℝ) (pre : ℕ) (hl : 2 * h.length ≤ 2 ^ p.value - 1) (s : ZMod (2 ^ p.value - 1))
    (hs : tapZ (2 ^ p.value - 1) h pre s ≠ 0) :
    tapZ (2 ^ p.value - 1) h pre (s + ((2 ^ (p.value - 1) : ℕ) : ZMod (2 ^ p.value - 1))) = 0 ∧
      tapZ (2 ^ p.value - 1) h pre (s - ((2 ^ (p.value - 1) : ℕ) : ZMod (2 ^ p.value - 1))) = 0 := by
  have hN := period_ge p
  have h2 : 2 ^ p.value = 2 * 2 ^ (p.value - 1) := by
    rw [← Nat.pow_succ']; congr 1; have := value_pos p; omega
  obtain ⟨k, hk, hks, -⟩ := (tapZ_bound h pre (by omega) s).resolve_left hs
  obtain ⟨e, he⟩ : ∃ e : ℕ, e = 2 ^ (p.value - 1) := ⟨_, rfl⟩
  rw [← he] at h2 ⊢
  have hcast : ∀ a b : ℕ, (a : ZMod (2 ^ p.value - 1)) = (b : ZMod (2 ^ p.value - 1)) → a < 2 ^ p.value - 1 → b < 2 ^ p.value - 1 → a = b := by
    intro a b hab ha hb
    rwa [ZMod.natCast_eq_natCast_iff', Nat.mod_eq_of_lt ha, Nat.mod_eq_of_lt hb] at hab
  have hN0 : ((2 ^ p.value - 1 : ℕ) : ZMod (2 ^ p.value - 1)) = 0 := ZMod.natCast_self _
  have hee : ((2 * e - 1 : ℕ) : ZMod (2 ^ p.value - 1)) = 0 := by rw [← h2]; exact hN0
  have hne : ∀ a b : ℕ, a < h.length → b < h.length → (a : ZMod (2 ^ p.value - 1)) ≠ (b : ZMod (2 ^ p.value - 1)) + (e : ZMod (2 ^ p.value - 1)) := by
    intro a b ha hb hab
    have h3 : (a : ZMod (2 ^ p.value - 1)) = ((b + e : ℕ) : ZMod (2 ^ p.value - 1)) := by rw [hab, Nat.cast_add]
    rcases Nat.lt_or_ge (b + e) (2 ^ p.value - 1) with q | q
    · have := hcast _ _ h3 (by omega) q
      omega
    · have h4 : ((b + e : ℕ) : ZMod (2 ^ p.value - 1)) = ((b + e - (2 ^ p.value - 1) : ℕ) : ZMod (2 ^ p.value - 1)) := by
        rw [Nat.cast_sub q, hN0, sub_zero]
      have := hcast _ _ (h3.trans h4) (by omega) (by omega)
      omega
  constructor
  · rcases tapZ_bound h pre (by omega) (s + (e : ZMod (2 ^ p.value - 1))) with q | ⟨j, hj, hjs, -⟩
    · exact q
    · refine absurd ?_ (hne k j hk hj)
      rw [← hks] at hjs
      linear_combination hjs
  · rcases tapZ_bound h pre (by omega) (s - (e : ZMod (2 ^ p.value - 1))) with q | ⟨j, hj, hjs, -⟩
    · exact q
    · refine absurd ?_ (hne j k hj hk)
      rw [← hks] at hjs
      linear_combination -hjs

/-! ### the estimate at any phase -/

/-- a least sum of squares along a line is orthogonal to the line -/
theorem min_orthogonal {ι : Type} (s : Finset ι) (a d : ι → ℝ) (h : ∀ t : ℝ, ∑ i ∈ s, (a i) ^ 2 ≤ ∑ i ∈ s, (a i + t * d i) ^ 2) :
    ∑ i ∈ s, a i * d i = 0 := by
  obtain ⟨A, hA⟩ : ∃ A, A = ∑ i ∈ s, a i * d i := ⟨_, rfl⟩
  obtain ⟨D, hD⟩ : ∃ D, D = ∑ i ∈ s, d i ^ 2 := ⟨_, rfl⟩
  have hD0 : 0 ≤ D := by rw [hD]; exact sum_nonneg fun i _ => sq_nonneg _
  have key : ∀ t : ℝ, 0 ≤ 2 * t * A + t ^ 2 * D := by
    intro t
    have h1 := h t
    have h2 : ∑ i ∈ s, (a i + t * d i) ^ 2 = ∑ i ∈ s, a i ^ 2 + 2 * t * A + t ^ 2 * D := by
      rw [hA, hD, mul_sum, mul_sum, ← sum_add_distrib, ← sum_add_distrib]
      exact sum_congr rfl fun i _ => by ring
    linarith
  rw [← hA]
  by_contra hne
  have h3 := key (-A / (D + 1))
  have h4 : 2 * (-A / (D + 1)) * A + (-A / (D + 1)) ^ 2 * D = -(A ^ 2 * (D + 2) / (D + 1) ^ 2) := by
    field_simp
    ring
  rw [h4] at h3
  have h5 : 0 < A ^ 2 * (D + 2) / (D + 1) ^ 2 := by positivity
  linarith

theorem filtered_corr {N : ℕ} [NeZero N] (u : ZMod N → ℝ) (hu : ∀ τ, ∑ z, u z * u (z + τ) = if τ = 0 then (N : ℝ) else -1)
    (h : ZMod N → ℝ) (s : ZMod N) : ∑ z, u (z + s) * ∑ r, h r * u (z + r) = ((N : ℝ) + 1) * h s - ∑ r, h r := by
  rw [corr_filtered u h s]
  have e : ∀ r, h r * ∑ z, u z * u (z + (r - s)) = ((N : ℝ) + 1) * (if r = s then h r else 0) - h r := by
    intro r
    rw [hu]
    by_cases e : r = s
    · rw [e, sub_self, if_pos rfl, if_pos rfl]; ring
    · rw [if_neg (sub_ne_zero.2 e), if_neg e]; ring
  rw [sum_congr rfl fun r _ => e r, sum_sub_distrib, ← mul_sum, sum_ite_eq' univ s h, if_pos (mem_univ _)]

/-- The least squares estimate against a two level PRBS placed at any phase `ph`, when the samples are the channel at phase
`φ`: the differences of its taps are those of the channel, shifted by the phase error. -/
theorem ls_difference {N : ℕ} [NeZero N] (u : ZMod N → ℝ) (hu : ∀ τ, ∑ z, u z * u (z + τ) = if τ = 0 then (N : ℝ) else -1)
    (x : ℤ → ℝ) (hx : ∀ t : ℤ, x t = u (t : ZMod N)) (est : List ℝ) (pre L : ℕ) (hel : est.length = L) (hL : L ≤ N)
    (tap : ZMod N → ℝ) (m : ℕ → ℝ) (φ : ZMod N) (ph : ℤ) (hm : ∀ t < N, m t = ∑ r, tap r * u (t + φ + r))
    (hmin : ∀ h' : List ℝ, h'.length = L →
      ∑ t ∈ range N, (chanOut est pre (fun s => x (s + ph)) t - m t) ^ 2
        ≤ ∑ t ∈ range N, (chanOut h' pre (fun s => x (s + ph)) t - m t) ^ 2) (j k : ℕ) (hj : j < L) (hk : k < L) :
    est.getD j 0 - est.getD k 0
      = tap ((pre : ZMod N) - j + (ph - φ)) - tap ((pre : ZMod N) - k + (ph - φ)) := by
  have hN : 0 < N := NeZero.pos N
  obtain ⟨v, hv⟩ : ∃ v : ℕ → ℝ, ∀ i, v i = (if i = j then 1 else 0) - (if i = k then 1 else 0) := ⟨_, fun _ => rfl⟩
  have hpert : ∀ (c : ℝ) (t : ℤ), chanOut ((List.range L).map fun i => est.getD i 0 + c * v i) pre (fun s => x (s + ph)) t
      = chanOut est pre (fun s => x (s + ph)) t
        + c * (u ((t : ZMod N) + ph + ((pre : ZMod N) - j)) - u ((t : ZMod N) + ph + ((pre : ZMod N) - k))) := by
    intro c t
    rw [chanOut, chanOut, List.length_map, List.length_range, hel]
    have e : ∀ i ∈ range L, ((List.range L).map fun i => est.getD i 0 + c * v i).getD i 0 * x (t + pre - i + ph)
        = est.getD i 0 * x (t + pre - i + ph)
          + c * ((if i = j then u ((t : ZMod N) + ph + ((pre : ZMod N) - i)) else 0)
            - (if i = k then u ((t : ZMod N) + ph + ((pre : ZMod N) - i)) else 0)) := by
      intro i hi
      rw [mem_range] at hi
      rw [map_range_getD _ _ _ _ hi, hv, hx]
      have : ((t + pre - i + ph : ℤ) : ZMod N) = (t : ZMod N) + ph + ((pre : ZMod N) - i) := by push_cast; ring
      rw [this]
      split_ifs <;> ring
    rw [sum_congr rfl e, sum_add_distrib, ← mul_sum, sum_sub_distrib, sum_ite_eq', sum_ite_eq', if_pos (mem_range.2 hj),
      if_pos (mem_range.2 hk)]
  obtain ⟨G, hG⟩ : ∃ G : ZMod N → ℝ, ∀ r, G r = tapZ N est pre r - tap (r + (ph - φ)) := ⟨_, fun _ => rfl⟩
  have hF : ∀ t < N, chanOut est pre (fun s => x (s + ph)) t - m t = ∑ r, G r * u ((t : ZMod N) + ph + r) := by
    intro t ht
    rw [chanOut_zmod est pre _ (fun z : ZMod N => u (z + (ph : ZMod N))) (fun t => by rw [hx]; push_cast; rfl), hm t ht]
    simp only [hG, sub_mul, sum_sub_distrib]
    congr 1
    · refine sum_congr rfl fun r _ => ?_
      congr 2
      push_cast
      ring
    · rw [← sum_shift (fun r => tap r * u (t + φ + r)) (ph - φ)]
      refine sum_congr rfl fun r _ => ?_
      congr 2
      ring
  have horth := min_orthogonal (range N) (fun t : ℕ => chanOut est pre (fun s => x (s + ph)) t - m t)
    (fun t : ℕ => u ((t : ZMod N) + ph + ((pre : ZMod N) - j)) - u ((t : ZMod N) + ph + ((pre : ZMod N) - k))) (by
    intro c
    have h1 := hmin ((List.range L).map fun i => est.getD i 0 + c * v i) (by simp)
    refine h1.trans (le_of_eq (sum_congr rfl fun t _ => ?_))
    rw [hpert]
    push_cast
    ring)
  have e : ∀ t ∈ range N, (chanOut est pre (fun s => x (s + ph)) t - m t)
      * (u ((t : ZMod N) + ph + ((pre : ZMod N) - j)) - u ((t : ZMod N) + ph + ((pre : ZMod N) - k)))
      = (fun z : ZMod N => u (z + ph + ((pre : ZMod N) - j)) * ∑ r, G r * u (z + ph + r)
        - u (z + ph + ((pre : ZMod N) - k)) * ∑ r, G r * u (z + ph + r)) (t : ZMod N) := by
    intro t ht
    rw [hF t (mem_range.1 ht)]
    ring
  rw [sum_congr rfl e] at horth
  have h1 := sum_range_zmod (N := N) (fun z : ZMod N => u (z + ph + ((pre : ZMod N) - j)) * ∑ r, G r * u (z + ph + r)
        - u (z + ph + ((pre : ZMod N) - k)) * ∑ r, G r * u (z + ph + r)) 1
  rw [one_mul, Nat.cast_one, one_mul] at h1
  rw [h1, sum_shift (fun z : ZMod N => u (z + ((pre : ZMod N) - j)) * ∑ r, G r * u (z + r)
        - u (z + ((pre : ZMod N) - k)) * ∑ r, G r * u (z + r)) (ph : ZMod N), sum_sub_distrib, filtered_corr u hu,
    filtered_corr u hu] at horth
  have hN' : (0 : ℝ) < (N : ℝ) + 1 := by positivity
  have h2 : G ((pre : ZMod N) - j) = G ((pre : ZMod N) - k) := by
    have : ((N : ℝ) + 1) * (G ((pre : ZMod N) - j) - G ((pre : ZMod N) - k)) = 0 := by linarith
    rcases mul_eq_zero.1 this with h | h
    · exact absurd h hN'.ne'
    · linarith
  rw [hG, hG, tapZ_at est pre (by omega) j (by omega), tapZ_at est pre (by omega) k (by omega)] at h2
  linarith

end Verif
