import Verif.Model.TestSignal
import Verif.Lemmas.EstimPrbs
import Verif.Lemmas.PrbsShift
import Verif.Lemmas.Ffe
import Verif.Lemmas.Polyphase
import Verif.Props.Slicer

/-! Lemmas for C109. -/

open Finset

set_option linter.unusedSectionVars false

namespace Verif

open Spec (withPast txLevel unitScale flipBit NearestFirst)

/-- bits per symbol -/
def bitsPer (c : Constellation) : ℕ := if c = .pam4 then 2 else 1

theorem bitsPer_pos (c : Constellation) : 0 < bitsPer c := by unfold bitsPer; split <;> omega

/-- closed form of the levels sent -/
theorem transmitBits_eq (c : Constellation) (hc : c ≠ .pam3) (fs bi pnPre gray pnPost : Bool) (bits : List Int)
    (hbin : ∀ x ∈ bits, x = 0 ∨ x = 1) :
    transmitBits c fs bi pnPre gray pnPost bits = .ok ((List.range (bits.length / bitsPer c)).map
      (txLevel c fs bi pnPre gray pnPost (fun i => bits.getD i 0))) := by
  obtain ⟨b, hbdef⟩ : ∃ b : ℕ → ℤ, b = fun i => bits.getD i 0 := ⟨_, rfl⟩
  rw [← hbdef]
  have hbit : ∀ t, b t = 0 ∨ b t = 1 := by
    intro t
    rw [hbdef]
    by_cases ht : t < bits.length
    · refine hbin _ ?_
      show bits.getD t 0 ∈ bits
      rw [show bits.getD t 0 = bits[t] by simp [List.getD_eq_getElem?_getD, ht]]
      exact List.getElem_mem ht
    · left
      show bits.getD t 0 = 0
      rw [List.getD_eq_getElem?_getD, List.getElem?_eq_none (by omega)]; rfl
  have hlist : ∀ n ≤ bits.length, bits.take n = (List.range n).map b := by
    intro n hn
    refine ext_getD 0 (by simp; omega) fun i hi => ?_
    rw [List.length_take] at hi
    rw [take_getD _ _ _ _ (by omega), map_range_getD b 0 _ _ (by omega), hbdef]
  have hall : bits = (List.range bits.length).map b := by
    have := hlist bits.length le_rfl
    rwa [List.take_length] at this
  have fb : ∀ t, flipBit pnPre (b t) = 0 ∨ flipBit pnPre (b t) = 1 := by
    intro t
    rcases hbit t with h | h <;> rw [h] <;> cases pnPre <;> decide
  have twoMap : ∀ c : Constellation, c = .nrz ∨ c = .ook →
      transmitBits c fs bi pnPre gray pnPost bits = .ok ((List.range (bits.length / bitsPer c)).map (txLevel c fs bi pnPre gray pnPost b)) := by
    intro c h
    have h2 : (intLevels c).length = 2 := by rcases h with rfl | rfl <;> rfl
    have h1 : bitsPer c = 1 := by rcases h with rfl | rfl <;> rfl
    have hg : ∀ l, codingGray l c = .ok l := by intro l; rcases h with rfl | rfl <;> rfl
    unfold transmitBits
    rw [h2, bin2symbol_two, h1, Nat.div_one]
    have e0 : (if pnPre then bits.map (fun x => 1 - x) else bits) = (List.range bits.length).map fun t => flipBit pnPre (b t) := by
      cases pnPre
      · simp only [Bool.false_eq_true, if_false, flipBit]; exact hall
      · simp only [if_true, flipBit]
        conv_lhs => rw [hall]
        rw [List.map_map]
        rfl
    show mapSymbols c fs gray pnPost (if pnPre then bits.map (fun x => 1 - x) else bits) = _
    rw [e0]
    have e : mapSymbols c fs gray pnPost ((List.range bits.length).map fun t => flipBit pnPre (b t))
        = mapping ((List.range bits.length).map fun t => flipBit pnPre (b t)) c fs none pnPost := by
      rw [mapSymbols, hg]
      simp
    rw [e, mapping_valid]
    · rw [List.map_map]
      congr 1
      apply List.map_congr_left
      intro t _
      rw [Function.comp_apply]
      rcases h with rfl | rfl <;> rcases fb t with h | h <;> simp [txLevel, h, intLevels] <;> norm_num
    · intro x hx
      obtain ⟨t, -, rfl⟩ := List.mem_map.1 hx
      rcases h with rfl | rfl <;> rcases fb t with h | h <;> rw [h] <;> decide
  cases c with
  | nrz => exact twoMap .nrz (Or.inl rfl)
  | ook => exact twoMap .ook (Or.inr rfl)
  | pam3 => exact absurd rfl hc
  | pam4 =>
    show _ = Except.ok ((List.range (bits.length / 2)).map _)
    obtain ⟨n, hn⟩ : ∃ n, n = bits.length / 2 := ⟨_, rfl⟩
    rw [← hn]
    set lo : ℕ → ℤ := fun t => flipBit pnPre (if bi then b (2 * t + 1) else b (2 * t)) with hlo
    set hi : ℕ → ℤ := fun t => flipBit pnPre (if bi then b (2 * t) else b (2 * t + 1)) with hhi
    have flo : ∀ t, lo t = 0 ∨ lo t = 1 := by
      intro t
      simp only [hlo]
      split
      · exact fb _
      · exact fb _
    have fhi : ∀ t, hi t = 0 ∨ hi t = 1 := by
      intro t
      simp only [hhi]
      split
      · exact fb _
      · exact fb _
    have hsym : bin2symbol bits (intLevels .pam4).length { bitOrderInv := bi, pnInv := pnPre }
        = .ok ((List.range n).map (fun t => lo t + 2 * hi t)) := by
      show bin2symbol _ (2 ^ 2) _ = _
      rw [bin2symbol_multi _ 2 (le_refl 2), show bits.length - bits.length % 2 = 2 * n by omega, hlist (2 * n) (by omega),
        rows_two_map, List.map_map]
      congr 1
      apply List.map_congr_left
      intro t _
      rw [Function.comp_apply]
      simp only [hlo, hhi]
      cases bi <;> cases pnPre <;> simp [txRow, Spec.leVal, flipBit]
    unfold transmitBits
    rw [hsym]
    show mapSymbols .pam4 fs gray pnPost _ = _
    have rng : ∀ t, 0 ≤ lo t + 2 * hi t ∧ lo t + 2 * hi t < 4 := by
      intro t
      rcases flo t with h | h <;> rcases fhi t with h' | h' <;> rw [h, h'] <;> decide
    have e : mapSymbols .pam4 fs gray pnPost ((List.range n).map (fun t => lo t + 2 * hi t))
        = mapping ((List.range n).map
            (fun t => (if gray then (lo t + hi t) % 2 else lo t) + 2 * hi t)) .pam4 fs none pnPost := by
      rw [mapSymbols]
      cases gray with
      | false => simp
      | true =>
        rw [if_pos rfl]
        have : codingGray ((List.range n).map (fun t => lo t + 2 * hi t)) .pam4
            = .ok ((List.range n).map (fun t => (lo t + hi t) % 2 + 2 * hi t)) := by
          show npTake ([0, 1, 3, 2] : List Int) _ = _
          rw [npTake_ok _ _ (fun x => ([0, 1, 3, 2] : List Int).getD x.toNat 0)]
          · rw [List.map_map]
            congr 1
            apply List.map_congr_left
            intro t _
            rw [Function.comp_apply]
            rcases flo t with h | h <;> rcases fhi t with h' | h' <;> rw [h, h'] <;> decide
          · intro x hx
            obtain ⟨t, -, rfl⟩ := List.mem_map.1 hx
            exact npGet_valid _ 0 _ (rng t).1 (rng t).2
        rw [this]
        simp
    rw [e, mapping_valid]
    · rw [List.map_map]
      congr 1
      apply List.map_congr_left
      intro t _
      rw [Function.comp_apply]
      have : txLevel .pam4 fs bi pnPre gray pnPost b t = (if pnPost then -1 else 1) * unitScale .pam4 fs
          * (2 * (2 * (hi t : ℝ) - 1) + (2 * (if gray then (lo t + hi t) % 2 else lo t : ℤ) - 1)) := rfl
      rw [this]
      congr 1
      rcases flo t with h | h <;> rcases fhi t with h' | h' <;> rw [h, h'] <;> cases gray <;> simp [intLevels] <;>
        norm_num
    · intro x hx
      obtain ⟨t, -, rfl⟩ := List.mem_map.1 hx
      show _ ∧ _ < (4 : ℤ)
      rcases flo t with h | h <;> rcases fhi t with h' | h' <;> rw [h, h'] <;> cases gray <;> decide

/-- output of a channel without feedback, from rest -/
theorem awgn_fir {F : Type*} [Field F] [DecidableEq F] (h x : List F) (hh : 0 < h.length) (hx : 0 < x.length) :
    ∃ y z, awgnChannel x h (.vec [1]) none = .ok (y, z) ∧ y.length = x.length ∧
      ∀ n : ℕ, n < x.length → y.getD n 0 = ∑ i ∈ range h.length, h.getD i 0 * withPast [] x (n - i) := by
  obtain ⟨y, z, e, hl, hy⟩ := C44_difference_equation h (.vec [(1 : F)]) x hh (by simp [Denom.coeffs])
    (by simp [Denom.coeffs]) hx
  refine ⟨y, z, e, hl, fun n hn => ?_⟩
  have := hy n hn
  rw [diffEq_iff _ _ (by simp [Denom.coeffs])] at this
  simpa [Denom.coeffs, withPast_nat] using this

/-- noise-free sample of the stream of levels `s` once the channel is filled -/
noncomputable def steady (h : List ℝ) (s : ℕ → ℝ) (i : ℕ) : ℝ := ∑ j ∈ range h.length, h.getD j 0 * s (i - j)

/-- the link in closed form -/
theorem decidedBits_eq (c : Constellation) (hc : c ≠ .pam3) (fs bi pnPre gray pnPost : Bool) (h : List ℝ) (hh : 0 < h.length)
    (bits : List Int) (hbin : ∀ x ∈ bits, x = 0 ∨ x = 1) (hlen : bitsPer c ≤ bits.length) :
    ∃ out, decidedBits c fs bi pnPre gray pnPost h bits = .ok ((List.range (bits.length / bitsPer c)).map
        (txLevel c fs bi pnPre gray pnPost (fun i => bits.getD i 0)), out) ∧ out.length = bits.length / bitsPer c ∧
      ∀ i, h.length - 1 ≤ i → i < bits.length / bitsPer c → ∃ o, out[i]? = some o ∧
        NearestFirst (getLevels c fs) (steady h (txLevel c fs bi pnPre gray pnPost (fun i => bits.getD i 0)) i) o := by
  obtain ⟨s, hs⟩ : ∃ s, s = txLevel c fs bi pnPre gray pnPost (fun i => bits.getD i 0) := ⟨_, rfl⟩
  rw [← hs]
  obtain ⟨n, hn⟩ : ∃ n, n = bits.length / bitsPer c := ⟨_, rfl⟩
  rw [← hn]
  have hn0 : 0 < n := by rw [hn]; exact Nat.div_pos hlen (bitsPer_pos c)
  obtain ⟨y, z, ey, hyl, hy⟩ := awgn_fir h ((List.range n).map s) hh (by simpa using hn0)
  rw [List.length_map, List.length_range] at hyl hy
  have hlv : getLevels c fs ≠ [] := by
    intro h0
    have := getLevels_length c fs
    rw [h0] at this
    cases c <;> cases this
  obtain ⟨out, eo, hol, ho⟩ := C20_slicer_vec y (getLevels c fs) hlv
  refine ⟨out, ?_, by rw [hol, hyl], fun i hi hin => ?_⟩
  · unfold decidedBits
    rw [transmitBits_eq c hc fs bi pnPre gray pnPost bits hbin, ← hs, ← hn]
    show ((awgnChannel ((List.range n).map s) h (.vec [1]) none).bind _) = _
    rw [ey]
    show ((slicer (.vec y) (some (getLevels c fs))).bind _) = _
    rw [eo]
    rfl
  · obtain ⟨o, h1, h2⟩ := ho i (y.getD i 0) (by rw [List.getD_eq_getElem?_getD, List.getElem?_eq_getElem (by omega)]; rfl)
    refine ⟨o, h1, ?_⟩
    rw [hy i hin] at h2
    convert h2 using 1
    unfold steady
    refine sum_congr rfl fun j hj => ?_
    rw [mem_range] at hj
    rw [show (i : ℤ) - j = ((i - j : ℕ) : ℤ) by omega, withPast_nat, map_range_getD s 0 _ _ (by omega)]

/-! ### the windows of a PRBS -/

/-- every word of at most `n` bits except the zero word is found within one period -/
theorem word_found (p : PrbsEnum) (seed : List Int) (hseed : seed.length = p.value) (hne : ∃ x ∈ seed, x % 2 = 1) (k : ℕ)
    (hk : k ≤ p.value) (w : ℕ → ℤ) (hbin : ∀ i, w i = 0 ∨ w i = 1) (hw : ∃ i < k, w i ≠ 0) (start : ℕ) :
    ∃ t < 2 ^ p.value - 1, ∀ i < k, bitAt (getPolynomial p) seed (start + t + i) = w i := by
  have h := window_card p seed ((List.range k).map w) hseed hne (by
    intro x hx
    obtain ⟨i, -, rfl⟩ := List.mem_map.1 hx
    exact hbin i) (by simpa using hk) start
  rw [if_neg (by
    intro h0
    obtain ⟨i, hi, h1⟩ := hw
    exact h1 (h0 _ (List.mem_map.2 ⟨i, List.mem_range.2 hi, rfl⟩))), Nat.sub_zero] at h
  have hpos : 0 < (2 : ℕ) ^ (p.value - ((List.range k).map w).length) := by positivity
  rw [← h, card_pos] at hpos
  obtain ⟨t, ht⟩ := hpos
  rw [mem_filter, mem_range] at ht
  refine ⟨t, ht.1, fun i hi => ?_⟩
  rw [ht.2 i (by simpa using hi), map_range_getD w 0 _ _ hi]

/-- the level of a symbol depends on its own bits -/
theorem txLevel_local (c : Constellation) (fs bi pnPre gray pnPost : Bool) (b b' : ℕ → ℤ) (t t' : ℕ)
    (h : ∀ k < bitsPer c, b (bitsPer c * t + k) = b' (bitsPer c * t' + k)) :
    txLevel c fs bi pnPre gray pnPost b t = txLevel c fs bi pnPre gray pnPost b' t' := by
  cases c with
  | nrz => have := h 0 (by decide); simp [bitsPer] at this; simp [txLevel, this]
  | ook => have := h 0 (by decide); simp [bitsPer] at this; simp [txLevel, this]
  | pam3 => rfl
  | pam4 =>
    have h0 := h 0 (by decide)
    have h1 := h 1 (by decide)
    simp [bitsPer] at h0 h1
    simp [txLevel, h0, h1]

/-- symbol times congruent to a bit position -/
theorem symbol_time (c : Constellation) (p : PrbsEnum) (T s : ℕ) :
    ∃ t, T ≤ t ∧ t < T + (2 ^ p.value - 1) ∧ ∃ a a', bitsPer c * t + a * (2 ^ p.value - 1) = s + a' * (2 ^ p.value - 1) := by
  have hv := value_pos p
  obtain ⟨N, hN⟩ : ∃ N, N = 2 ^ p.value - 1 := ⟨_, rfl⟩
  have hN0 : 0 < N := by rw [hN]; exact two_pow_sub_pos hv
  rw [← hN]
  obtain ⟨u, hu⟩ : ∃ u, ∃ q, bitsPer c * u = s + q * N := by
    unfold bitsPer
    split
    · refine ⟨s * 2 ^ (p.value - 1), s, ?_⟩
      obtain ⟨k, hk⟩ : ∃ k, p.value = k + 1 := ⟨p.value - 1, by omega⟩
      have h1 : 2 ^ p.value = N + 1 := by rw [hN]; exact (Nat.sub_add_cancel Nat.one_le_two_pow).symm
      rw [hk, pow_succ] at h1
      rw [hk, Nat.add_sub_cancel]
      calc 2 * (s * 2 ^ k) = s * (2 ^ k * 2) := by ring
        _ = s + s * N := by rw [h1]; ring
    · exact ⟨s, 0, by ring⟩
  obtain ⟨q, hq⟩ := hu
  obtain ⟨r, hr⟩ : ∃ r, r = (u + N * T - T) % N := ⟨_, rfl⟩
  have hle : T ≤ N * T := Nat.le_mul_of_pos_left _ hN0
  have hdm := Nat.mod_add_div (u + N * T - T) N
  rw [← hr] at hdm
  refine ⟨T + r, by omega, by have := Nat.mod_lt (u + N * T - T) hN0; omega, bitsPer c * ((u + N * T - T) / N), q + bitsPer c * T, ?_⟩
  calc bitsPer c * (T + r) + bitsPer c * ((u + N * T - T) / N) * N
      = bitsPer c * (T + (r + N * ((u + N * T - T) / N))) := by ring
    _ = bitsPer c * (u + N * T) := by rw [hdm]; congr 1; omega
    _ = s + (q + bitsPer c * T) * N := by rw [mul_add, hq]; ring

/-- every window of `m` levels is found within one period of the levels of a PRBS with more than `m` times the bits per
symbol cells; as many cells are enough if the window carries a one -/
theorem level_window (c : Constellation) (fs bi pnPre gray pnPost : Bool) (p : PrbsEnum) (seed : List Int)
    (hseed : seed.length = p.value) (hne : ∃ x ∈ seed, x % 2 = 1) (m : ℕ) (hm : 0 < m) (b' : ℕ → ℤ)
    (hb' : ∀ i, b' i = 0 ∨ b' i = 1) (i : ℕ) (hi : m - 1 ≤ i)
    (hk : bitsPer c * m < p.value ∨ (bitsPer c * m ≤ p.value ∧ ∃ k < bitsPer c * m, b' (bitsPer c * (i + 1 - m) + k) ≠ 0)) :
    ∃ t, m - 1 ≤ t ∧ t < m - 1 + (2 ^ p.value - 1) ∧ ∀ j < m,
      txLevel c fs bi pnPre gray pnPost (bitAt (getPolynomial p) seed) (t - j) = txLevel c fs bi pnPre gray pnPost b' (i - j) := by
  obtain ⟨w, hw⟩ : ∃ w : ℕ → ℤ, w = fun k => if k < bitsPer c * m then b' (bitsPer c * (i + 1 - m) + k) else 1 := ⟨_, rfl⟩
  have hwb : ∀ k, w k = 0 ∨ w k = 1 := by
    intro k; rw [hw]; beta_reduce; split
    · exact hb' _
    · right; rfl
  obtain ⟨s, -, hs⟩ : ∃ s < 2 ^ p.value - 1, ∀ k < bitsPer c * m, bitAt (getPolynomial p) seed (0 + s + k) = w k := by
    rcases hk with hk | ⟨hk, k, hk1, hk2⟩
    · obtain ⟨s, h1, h2⟩ := word_found p seed hseed hne (bitsPer c * m + 1) hk w hwb ⟨bitsPer c * m, by omega, by rw [hw]; simp⟩ 0
      exact ⟨s, h1, fun k hk => h2 k (by omega)⟩
    · exact word_found p seed hseed hne (bitsPer c * m) hk w hwb ⟨k, hk1, by rw [hw]; beta_reduce; rw [if_pos hk1]; exact hk2⟩ 0
  clear hne hk
  obtain ⟨t, h1, h2, a, a', h3⟩ := symbol_time c p 0 s
  obtain ⟨t', h4, h5, e, e', h6⟩ : ∃ t', m - 1 ≤ t' ∧ t' < m - 1 + (2 ^ p.value - 1) ∧
      ∃ e e', bitsPer c * (t' + 1 - m) + e * (2 ^ p.value - 1) = s + e' * (2 ^ p.value - 1) := by
    refine ⟨t + (m - 1), by omega, by omega, a, a', ?_⟩
    rw [show t + (m - 1) + 1 - m = t by omega]
    exact h3
  refine ⟨t', h4, h5, fun j hj => txLevel_local c fs bi pnPre gray pnPost _ _ _ _ fun k hk => ?_⟩
  have hb : 0 < bitsPer c := bitsPer_pos c
  have e1 : bitsPer c * (t' - j) + k = bitsPer c * (t' + 1 - m) + (bitsPer c * (m - 1 - j) + k) := by
    rw [show t' - j = (t' + 1 - m) + (m - 1 - j) by omega, mul_add]; ring
  have e2 : bitsPer c * (i - j) + k = bitsPer c * (i + 1 - m) + (bitsPer c * (m - 1 - j) + k) := by
    rw [show i - j = (i + 1 - m) + (m - 1 - j) by omega, mul_add]; ring
  have hlt : bitsPer c * (m - 1 - j) + k < bitsPer c * m := by
    calc bitsPer c * (m - 1 - j) + k < bitsPer c * (m - 1 - j) + bitsPer c := by omega
      _ = bitsPer c * (m - 1 - j + 1) := by ring
      _ ≤ bitsPer c * m := Nat.mul_le_mul_left _ (by omega)
  have h7 := hs _ hlt
  rw [hw] at h7
  beta_reduce at h7
  rw [if_pos hlt] at h7
  rw [e1, e2, ← h7, zero_add]
  have hper : ∀ q x, bitAt (getPolynomial p) seed (x + q * (2 ^ p.value - 1)) = bitAt (getPolynomial p) seed x := by
    intro q x
    rw [← bitAt_mod p seed hseed (x + q * (2 ^ p.value - 1)), Nat.add_mul_mod_self_right, bitAt_mod p seed hseed]
  rw [← hper e, ← hper e' (s + _)]
  congr 1
  omega

end Verif
