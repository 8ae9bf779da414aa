import Verif.Lemmas.TestSignal
import Verif.Props.Mapping

/-!
# C109 A PRBS as the test signal of a channel

Which channels are fully exercised by one period of a PRBS: if the channel has no more taps than the shift register has
cells (per bit of a symbol), correct decisions over one period imply correct decisions for all data, and the smallest and
largest noise-free samples are those over all data. With one tap more this is false.
-/

open Finset

namespace Verif

open Spec (txLevel NearestFirst unitScale)

/-- the bits of a generated list are those of the shift register -/
theorem generated_getD (p : PrbsEnum) (seed : List Int) (hseed : seed.length = p.value) (L : ℕ) (bits sd : List Int)
    (hg : prbsGenerator (getPolynomial p) seed L = .ok (bits, sd)) :
    bits.length = L ∧ (∀ x ∈ bits, x = 0 ∨ x = 1) ∧ ∀ i < L, bits.getD i 0 = bitAt (getPolynomial p) seed i := by
  rw [prbsGenerator_supported p seed hseed] at hg
  cases hg
  refine ⟨by simp, fun x hx => ?_, fun i hi => map_range_getD _ 0 _ _ hi⟩
  obtain ⟨t, -, rfl⟩ := List.mem_map.1 hx
  exact bitAt_mem _ _ t

theorem bits_getD (data : List Int) (h : ∀ x ∈ data, x = 0 ∨ x = 1) (i : ℕ) : data.getD i 0 = 0 ∨ data.getD i 0 = 1 := by
  by_cases hi : i < data.length
  · rw [show data.getD i 0 = data[i] by simp [List.getD_eq_getElem?_getD, hi]]
    exact h _ (List.getElem_mem hi)
  · left
    rw [List.getD_eq_getElem?_getD, List.getElem?_eq_none (by omega)]; rfl

/-- levels of a generated list -/
theorem generated_level (p : PrbsEnum) (seed : List Int) (hseed : seed.length = p.value) (L : ℕ) (bits sd : List Int)
    (hg : prbsGenerator (getPolynomial p) seed L = .ok (bits, sd)) (c : Constellation) (fs bi pnPre gray pnPost : Bool) (t : ℕ)
    (ht : t < L / bitsPer c) :
    txLevel c fs bi pnPre gray pnPost (fun i => bits.getD i 0) t = txLevel c fs bi pnPre gray pnPost (bitAt (getPolynomial p) seed) t := by
  refine txLevel_local c fs bi pnPre gray pnPost _ _ t t fun k hk => ?_
  refine (generated_getD p seed hseed L bits sd hg).2.2 _ ?_
  have h1 : bitsPer c * (t + 1) ≤ L := by
    calc bitsPer c * (t + 1) ≤ bitsPer c * (L / bitsPer c) := Nat.mul_le_mul_left _ ht
      _ ≤ L := Nat.mul_div_le L _
  rw [mul_add] at h1
  omega

theorem getElem?_map_range {α : Type} (f : ℕ → α) (n i : ℕ) (h : i < n) : ((List.range n).map f)[i]? = some (f i) := by
  rw [List.getElem?_map, List.getElem?_range h]; rfl

theorem steady_congr (h : List ℝ) (s s' : ℕ → ℝ) (i i' : ℕ) (hs : ∀ j < h.length, s (i - j) = s' (i' - j)) :
    steady h s i = steady h s' i' := by
  unfold steady
  exact sum_congr rfl fun j hj => by rw [hs j (mem_range.1 hj)]

/-- **C109.** A channel with `m` taps where `m` times the number of bits per symbol is less than the degree of the PRBS: if
all decisions of one period of the PRBS (after the first `m - 1` symbols) are the symbols sent `d` symbols before, the same
holds for any other data. -/
theorem C109_sufficient (c : Constellation) (hc : c ≠ .pam3) (fs bi pnPre gray pnPost : Bool) (p : PrbsEnum) (seed : List Int)
    (hseed : seed.length = p.value) (hne : ∃ x ∈ seed, x % 2 = 1) (h : List ℝ) (hh : 0 < h.length)
    (hk : bitsPer c * h.length < p.value) (d : ℕ) (hd : d < h.length) (L : ℕ)
    (hL : bitsPer c * (h.length - 1 + (2 ^ p.value - 1)) ≤ L) (bits sd : List Int)
    (hg : prbsGenerator (getPolynomial p) seed L = .ok (bits, sd)) (x out : List ℝ)
    (hx : decidedBits c fs bi pnPre gray pnPost h bits = .ok (x, out))
    (hok : ∀ i, h.length - 1 ≤ i → i < h.length - 1 + (2 ^ p.value - 1) → out[i]? = x[i - d]?)
    (data : List Int) (hbin : ∀ v ∈ data, v = 0 ∨ v = 1) (hlen : bitsPer c ≤ data.length) :
    ∃ x' out', decidedBits c fs bi pnPre gray pnPost h data = .ok (x', out') ∧ x'.length = data.length / bitsPer c ∧
      out'.length = x'.length ∧ ∀ i, h.length - 1 ≤ i → i < x'.length → out'[i]? = x'[i - d]? := by
  obtain ⟨hbl, hbb, -⟩ := generated_getD p seed hseed L bits sd hg
  have hN := period_ge p
  have hpos := bitsPer_pos c
  have hLs : h.length - 1 + (2 ^ p.value - 1) ≤ L / bitsPer c := by
    rw [Nat.le_div_iff_mul_le hpos, mul_comm]; exact hL
  have hLb : bitsPer c ≤ L := by
    refine le_trans ?_ hL
    exact Nat.le_mul_of_pos_right _ (by omega)
  obtain ⟨o1, e1, hl1, hn1⟩ := decidedBits_eq c hc fs bi pnPre gray pnPost h hh bits hbb (by omega)
  rw [hx] at e1
  cases e1
  obtain ⟨o2, e2, hl2, hn2⟩ := decidedBits_eq c hc fs bi pnPre gray pnPost h hh data hbin hlen
  refine ⟨_, o2, e2, by simp, by simpa using hl2, fun i hi hil => ?_⟩
  rw [List.length_map, List.length_range] at hil
  obtain ⟨t, ht1, ht2, ht3⟩ := level_window c fs bi pnPre gray pnPost p seed hseed hne h.length hh (fun i => data.getD i 0)
    (bits_getD data hbin) i hi (Or.inl hk)
  have hlev : ∀ j < h.length, txLevel c fs bi pnPre gray pnPost (fun i => bits.getD i 0) (t - j)
      = txLevel c fs bi pnPre gray pnPost (fun i => data.getD i 0) (i - j) := by
    intro j hj
    rw [generated_level p seed hseed L bits sd hg c fs bi pnPre gray pnPost (t - j) (by omega), ht3 j hj]
  obtain ⟨v, hv1, hv2⟩ := hn1 t ht1 (by rw [hbl]; omega)
  obtain ⟨v', hv1', hv2'⟩ := hn2 i hi hil
  rw [steady_congr h _ _ t i hlev] at hv2
  have hvv := nearestFirst_unique _ _ _ _ hv2' hv2
  have := hok t ht1 ht2
  rw [hv1, getElem?_map_range _ _ _ (by rw [hbl]; omega), hlev d hd] at this
  rw [hv1', hvv, this, getElem?_map_range _ _ _ (by omega)]

/-! ### two symmetric levels -/

theorem getLevels_nrz (fs : Bool) : getLevels .nrz fs = [-1, 1] := by
  cases fs
  · exact C19_levels_documented.1
  · obtain ⟨-, -, ⟨g, hg, e⟩, h⟩ := C19_levels .nrz true
    rw [C19_levels_documented.1] at e
    have h1 := h rfl
    rw [e] at h1 ⊢
    simp at h1
    have : g = 1 := by
      rcases h1 with h1 | h1
      · exact h1
      · linarith
    rw [this]; simp

/-- the decision between -1 and 1 -/
theorem nrz_decision (fs : Bool) (y o : ℝ) (h : NearestFirst (getLevels .nrz fs) y o) : o = if 0 < y then 1 else -1 := by
  rw [getLevels_nrz] at h
  refine nearestFirst_unique _ _ _ _ h ?_
  split_ifs with hy
  · refine ⟨1, by simp, rfl, fun l hl => ?_, fun j hj => ?_⟩
    · simp only [List.mem_cons, List.not_mem_nil, or_false] at hl
      rcases hl with rfl | rfl
      · rw [abs_le_iff_mul_self_le]; nlinarith
      · rfl
    · interval_cases j
      show |y - 1| < |y - -1|
      rw [← sq_lt_sq]; nlinarith
  · refine ⟨0, by simp, rfl, fun l hl => ?_, fun j hj => by omega⟩
    simp only [List.mem_cons, List.not_mem_nil, or_false] at hl
    rcases hl with rfl | rfl
    · rfl
    · rw [abs_le_iff_mul_self_le]; nlinarith

/-- the level that carries a one -/
noncomputable def oneLevel (pnPre pnPost : Bool) : ℝ := if pnPre = pnPost then 1 else -1

theorem oneLevel_sq (pnPre pnPost : Bool) : oneLevel pnPre pnPost * oneLevel pnPre pnPost = 1 := by
  unfold oneLevel; split_ifs <;> norm_num

theorem txLevel_nrz (fs bi pnPre gray pnPost : Bool) (b : ℕ → ℤ) (t : ℕ) :
    txLevel .nrz fs bi pnPre gray pnPost b t = oneLevel pnPre pnPost * (2 * (b t : ℝ) - 1) := by
  unfold txLevel unitScale oneLevel Spec.flipBit
  cases fs <;> cases pnPre <;> cases pnPost <;> simp <;> ring

/-- **C109.** NRZ: here as many taps as the shift register has cells are allowed, although the word of zeros does not occur in
the PRBS: its complement does. -/
theorem C109_sufficient_nrz (fs bi gray pn : Bool) (p : PrbsEnum) (seed : List Int)
    (hseed : seed.length = p.value) (hne : ∃ x ∈ seed, x % 2 = 1) (h : List ℝ) (hh : 0 < h.length)
    (hk : h.length ≤ p.value) (d : ℕ) (hd : d < h.length) (L : ℕ) (hL : h.length - 1 + (2 ^ p.value - 1) ≤ L)
    (bits sd : List Int) (hg : prbsGenerator (getPolynomial p) seed L = .ok (bits, sd)) (x out : List ℝ)
    (hx : decidedBits .nrz fs bi pn gray pn h bits = .ok (x, out))
    (hok : ∀ i, h.length - 1 ≤ i → i < h.length - 1 + (2 ^ p.value - 1) → out[i]? = x[i - d]?)
    (data : List Int) (hbin : ∀ v ∈ data, v = 0 ∨ v = 1) (hlen : 0 < data.length) :
    ∃ x' out', decidedBits .nrz fs bi pn gray pn h data = .ok (x', out') ∧ x'.length = data.length ∧
      out'.length = x'.length ∧ ∀ i, h.length - 1 ≤ i → i < x'.length → out'[i]? = x'[i - d]? := by
  obtain ⟨hbl, hbb, -⟩ := generated_getD p seed hseed L bits sd hg
  have hN := period_ge p
  have h1 : bitsPer .nrz = 1 := rfl
  obtain ⟨o1, e1, hl1, hn1⟩ := decidedBits_eq .nrz (by decide) fs bi pn gray pn h hh bits hbb (by rw [h1]; omega)
  rw [hx] at e1
  cases e1
  obtain ⟨o2, e2, hl2, hn2⟩ := decidedBits_eq .nrz (by decide) fs bi pn gray pn h hh data hbin (by rw [h1]; omega)
  simp only [h1, Nat.div_one] at hl1 hn1 hl2 hn2 hok e2
  refine ⟨_, o2, e2, by simp, by simpa using hl2, fun i hi hil => ?_⟩
  rw [List.length_map, List.length_range] at hil
  have hlev : ∀ t, t < L → txLevel .nrz fs bi pn gray pn (fun i => bits.getD i 0) t
      = txLevel .nrz fs bi pn gray pn (bitAt (getPolynomial p) seed) t := fun t ht =>
    generated_level p seed hseed L bits sd hg .nrz fs bi pn gray pn t (by rw [h1, Nat.div_one]; exact ht)
  -- the decision found in the period for a window
  have found : ∀ (b' : ℕ → ℤ) (i' : ℕ), (∀ t, t < L → txLevel .nrz fs bi pn gray pn (fun i => bits.getD i 0) t
      = txLevel .nrz fs bi pn gray pn (bitAt (getPolynomial p) seed) t) → (∃ t, h.length - 1 ≤ t ∧ t < h.length - 1 + (2 ^ p.value - 1) ∧
      ∀ j < h.length, txLevel .nrz fs bi pn gray pn (bitAt (getPolynomial p) seed) (t - j) = txLevel .nrz fs bi pn gray pn b' (i' - j)) →
      (if 0 < steady h (txLevel .nrz fs bi pn gray pn b') i' then 1 else -1) = txLevel .nrz fs bi pn gray pn b' (i' - d) := by
    rintro b' i' - ⟨t, ht1, ht2, ht3⟩
    have hw : ∀ j < h.length, txLevel .nrz fs bi pn gray pn (fun i => bits.getD i 0) (t - j)
        = txLevel .nrz fs bi pn gray pn b' (i' - j) := fun j hj => by rw [hlev _ (by omega), ht3 j hj]
    obtain ⟨v, hv1, hv2⟩ := hn1 t ht1 (by omega)
    rw [steady_congr h _ _ t i' hw] at hv2
    have := hok t ht1 ht2
    rw [hv1, getElem?_map_range _ _ _ (by omega), hw d hd] at this
    rw [← nrz_decision fs _ v hv2]
    exact Option.some.inj this
  obtain ⟨v', hv1', hv2'⟩ := hn2 i hi hil
  rw [hv1', getElem?_map_range _ _ _ (by omega), nrz_decision fs _ v' hv2']
  congr 1
  by_cases hz : ∃ k < h.length, data.getD (i + 1 - h.length + k) 0 ≠ 0
  · refine found (fun i => data.getD i 0) i hlev ?_
    exact level_window .nrz fs bi pn gray pn p seed hseed hne h.length hh (fun i => data.getD i 0) (bits_getD data hbin) i hi
      (Or.inr ⟨by rw [h1, one_mul]; exact hk, by simpa [h1] using hz⟩)
  · have hones := found (fun _ => 1) (h.length - 1) hlev (level_window .nrz fs bi pn gray pn p seed hseed hne h.length hh (fun _ => 1)
      (fun _ => Or.inr rfl) (h.length - 1) le_rfl (Or.inr ⟨by rw [h1, one_mul]; exact hk, 0, by rw [h1, one_mul]; exact hh, by norm_num⟩))
    have hzero : ∀ j < h.length, data.getD (i - j) 0 = 0 := by
      intro j hj
      by_contra hc
      exact hz ⟨h.length - 1 - j, by omega, by rwa [show i + 1 - h.length + (h.length - 1 - j) = i - j by omega]⟩
    have ho : oneLevel pn pn = 1 := if_pos rfl
    have hsum : steady h (txLevel .nrz fs bi pn gray pn (fun i => data.getD i 0)) i
        = -steady h (txLevel .nrz fs bi pn gray pn (fun _ => 1)) (h.length - 1) := by
      unfold steady
      rw [← sum_neg_distrib]
      refine sum_congr rfl fun j hj => ?_
      rw [txLevel_nrz, txLevel_nrz, hzero j (mem_range.1 hj), ho]
      push_cast; ring
    rw [txLevel_nrz, ho] at hones
    have hS : 0 < steady h (txLevel .nrz fs bi pn gray pn (fun _ => 1)) (h.length - 1) := by
      by_contra hc
      rw [if_neg hc] at hones
      norm_num at hones
    rw [hsum, if_neg (by linarith), txLevel_nrz, hzero d hd, ho]
    push_cast; ring

/-! ### peak distortion -/

/-- the channel output of a list of levels -/
theorem link_steady (fs bi pnPre gray pnPost : Bool) (h : List ℝ) (hh : 0 < h.length) (bits : List Int)
    (hbin : ∀ v ∈ bits, v = 0 ∨ v = 1) (hlen : 0 < bits.length) :
    ∃ x y z, transmitBits .nrz fs bi pnPre gray pnPost bits = .ok x ∧ awgnChannel x h (.vec [1]) none = .ok (y, z) ∧
      x.length = bits.length ∧ y.length = bits.length ∧
      (∀ i < bits.length, x.getD i 0 = txLevel .nrz fs bi pnPre gray pnPost (fun i => bits.getD i 0) i) ∧
      ∀ i, h.length - 1 ≤ i → i < bits.length → y.getD i 0 = steady h (txLevel .nrz fs bi pnPre gray pnPost (fun i => bits.getD i 0)) i := by
  have e := transmitBits_eq .nrz (by decide) fs bi pnPre gray pnPost bits hbin
  rw [show bitsPer .nrz = 1 from rfl, Nat.div_one] at e
  obtain ⟨s, hs⟩ : ∃ s, s = txLevel .nrz fs bi pnPre gray pnPost (fun i => bits.getD i 0) := ⟨_, rfl⟩
  rw [← hs] at e ⊢
  obtain ⟨y, z, ey, hyl, hy⟩ := awgn_fir h ((List.range bits.length).map s) hh (by simpa using hlen)
  rw [List.length_map, List.length_range] at hyl hy
  refine ⟨_, y, z, e, ey, by simp, hyl, fun i hi => map_range_getD s 0 _ _ hi, fun i hi hil => ?_⟩
  rw [hy i hil]
  unfold steady
  refine sum_congr rfl fun j hj => ?_
  rw [mem_range] at hj
  rw [show (i : ℤ) - j = ((i - j : ℕ) : ℤ) by omega, withPast_nat, map_range_getD s 0 _ _ (by omega)]

theorem level_pm (fs bi pnPre gray pnPost : Bool) (b : ℕ → ℤ) (hb : ∀ i, b i = 0 ∨ b i = 1) (t : ℕ) :
    txLevel .nrz fs bi pnPre gray pnPost b t = 1 ∨ txLevel .nrz fs bi pnPre gray pnPost b t = -1 := by
  rw [txLevel_nrz]
  unfold oneLevel
  rcases hb t with h | h <;> rw [h] <;> split_ifs <;> norm_num

/-- **C109.** Peak distortion: for all NRZ data the noise-free sample at a decision, taken in the direction of the symbol sent
`d` before, is at least `h_d` minus the sum of the magnitudes of the other taps, and no sample exceeds the sum of the
magnitudes of all taps. With no more taps than the register has cells both bounds are attained within one period of the
PRBS: the eye of the PRBS is exactly the worst-case eye. -/
theorem C109_peak_distortion (fs bi pnPre gray pnPost : Bool) (h : List ℝ) (d : ℕ) (hd : d < h.length) :
    (∀ data : List Int, (∀ v ∈ data, v = 0 ∨ v = 1) → 0 < data.length → ∃ x y z,
      transmitBits .nrz fs bi pnPre gray pnPost data = .ok x ∧ awgnChannel x h (.vec [1]) none = .ok (y, z) ∧
      ∀ i, h.length - 1 ≤ i → i < data.length →
        h.getD d 0 - ∑ j ∈ (range h.length).erase d, |h.getD j 0| ≤ y.getD i 0 * x.getD (i - d) 0 ∧
        |y.getD i 0| ≤ ∑ j ∈ range h.length, |h.getD j 0|) ∧
    ∀ (p : PrbsEnum) (seed : List Int), seed.length = p.value → (∃ v ∈ seed, v % 2 = 1) → h.length ≤ p.value →
      ∀ (L : ℕ) (bits sd : List Int), h.length - 1 + (2 ^ p.value - 1) ≤ L → prbsGenerator (getPolynomial p) seed L = .ok (bits, sd) →
      ∃ x y z, transmitBits .nrz fs bi pnPre gray pnPost bits = .ok x ∧ awgnChannel x h (.vec [1]) none = .ok (y, z) ∧
        (∃ i, h.length - 1 ≤ i ∧ i < h.length - 1 + (2 ^ p.value - 1) ∧
          y.getD i 0 * x.getD (i - d) 0 = h.getD d 0 - ∑ j ∈ (range h.length).erase d, |h.getD j 0|) ∧
        ∃ i, h.length - 1 ≤ i ∧ i < h.length - 1 + (2 ^ p.value - 1) ∧ |y.getD i 0| = ∑ j ∈ range h.length, |h.getD j 0| := by
  have hh : 0 < h.length := by omega
  have hsplit : ∀ f : ℕ → ℝ, ∑ j ∈ range h.length, f j = f d + ∑ j ∈ (range h.length).erase d, f j := fun f =>
    (add_sum_erase _ f (mem_range.2 hd)).symm
  constructor
  · intro data hbin hlen
    obtain ⟨x, y, z, e1, e2, -, -, hx, hy⟩ := link_steady fs bi pnPre gray pnPost h hh data hbin hlen
    refine ⟨x, y, z, e1, e2, fun i hi hil => ?_⟩
    rw [hy i hi hil, hx _ (by omega)]
    obtain ⟨s, hs⟩ : ∃ s, s = txLevel .nrz fs bi pnPre gray pnPost (fun i => data.getD i 0) := ⟨_, rfl⟩
    have hpm : ∀ t, s t = 1 ∨ s t = -1 := fun t => by rw [hs]; exact level_pm fs bi pnPre gray pnPost _ (bits_getD data hbin) t
    have habs : ∀ t, |s t| = 1 := fun t => by rcases hpm t with h | h <;> rw [h] <;> norm_num
    rw [← hs]
    constructor
    · unfold steady
      rw [sum_mul, hsplit]
      have hsd : s (i - d) * s (i - d) = 1 := by rcases hpm (i - d) with h | h <;> rw [h] <;> norm_num
      rw [mul_assoc, hsd, mul_one, sub_eq_add_neg, ← sum_neg_distrib]
      refine add_le_add le_rfl (sum_le_sum fun j _ => ?_)
      have : |h.getD j 0 * s (i - j) * s (i - d)| = |h.getD j 0| := by rw [abs_mul, abs_mul, habs, habs, mul_one, mul_one]
      rw [← this]
      exact neg_abs_le _
    · unfold steady
      refine (abs_sum_le_sum_abs _ _).trans (sum_le_sum fun j _ => ?_)
      rw [abs_mul, habs, mul_one]
  · intro p seed hseed hne hk L bits sd hL hg
    obtain ⟨hbl, hbb, -⟩ := generated_getD p seed hseed L bits sd hg
    have hN := period_ge p
    obtain ⟨x, y, z, e1, e2, -, -, hx, hy⟩ := link_steady fs bi pnPre gray pnPost h hh bits hbb (by omega)
    have found : ∀ (w : ℕ → ℤ), (∀ i, w i = 0 ∨ w i = 1) → (∃ j < h.length, w j ≠ 0) → ∃ t, h.length - 1 ≤ t ∧
        t < h.length - 1 + (2 ^ p.value - 1) ∧ y.getD t 0 = ∑ j ∈ range h.length, h.getD j 0 * (oneLevel pnPre pnPost * (2 * (w j : ℝ) - 1)) ∧
        x.getD (t - d) 0 = oneLevel pnPre pnPost * (2 * (w d : ℝ) - 1) := by
      rintro w hw ⟨j0, hj0, hj1⟩
      obtain ⟨t, ht1, ht2, ht3⟩ := level_window .nrz fs bi pnPre gray pnPost p seed hseed hne h.length hh (fun k => w (h.length - 1 - k))
        (fun k => hw _) (h.length - 1) le_rfl (Or.inr ⟨by rw [show bitsPer .nrz = 1 from rfl, one_mul]; exact hk,
          h.length - 1 - j0, by rw [show bitsPer .nrz = 1 from rfl, one_mul]; omega, by
            rw [show bitsPer .nrz = 1 from rfl, one_mul, Nat.sub_add_cancel hh, Nat.sub_self, zero_add,
              show h.length - 1 - (h.length - 1 - j0) = j0 by omega]
            exact hj1⟩)
      have hl : ∀ j < h.length, txLevel .nrz fs bi pnPre gray pnPost (fun i => bits.getD i 0) (t - j)
          = oneLevel pnPre pnPost * (2 * (w j : ℝ) - 1) := by
        intro j hj
        rw [generated_level p seed hseed L bits sd hg .nrz fs bi pnPre gray pnPost (t - j)
          (by rw [show bitsPer .nrz = 1 from rfl, Nat.div_one]; omega), ht3 j hj, txLevel_nrz,
          show h.length - 1 - (h.length - 1 - j) = j by omega]
      refine ⟨t, ht1, ht2, ?_, by rw [hx _ (by omega), hl d hd]⟩
      rw [hy t ht1 (by omega)]
      exact sum_congr rfl fun j hj => by rw [hl j (mem_range.1 hj)]
    refine ⟨x, y, z, e1, e2, ?_, ?_⟩
    · obtain ⟨t, ht1, ht2, ht3, ht4⟩ := found (fun j => if j = d then 1 else if 0 ≤ h.getD j 0 then 0 else 1)
        (fun i => by split_ifs <;> simp) ⟨d, hd, by simp⟩
      refine ⟨t, ht1, ht2, ?_⟩
      rw [ht3, ht4, hsplit, if_pos rfl, add_mul, sum_mul]
      have hsq := oneLevel_sq pnPre pnPost
      generalize oneLevel pnPre pnPost = u at hsq
      rw [sub_eq_add_neg (h.getD d 0), ← sum_neg_distrib]
      congr 1
      · push_cast; linear_combination h.getD d 0 * hsq
      · refine sum_congr rfl fun j hj => ?_
        rw [if_neg (ne_of_mem_erase hj)]
        split_ifs with h0
        · rw [abs_of_nonneg h0]; push_cast; linear_combination (-h.getD j 0) * hsq
        · rw [abs_of_neg (not_le.1 h0)]; push_cast; linear_combination (h.getD j 0) * hsq
    · by_cases hex : ∃ j < h.length, 0 ≤ h.getD j 0
      · obtain ⟨j0, hj0, hj1⟩ := hex
        obtain ⟨t, ht1, ht2, ht3, -⟩ := found (fun j => if 0 ≤ h.getD j 0 then 1 else 0)
          (fun i => by split_ifs <;> simp) ⟨j0, hj0, by rw [if_pos hj1]; simp⟩
        refine ⟨t, ht1, ht2, ?_⟩
        have : y.getD t 0 = oneLevel pnPre pnPost * ∑ j ∈ range h.length, |h.getD j 0| := by
          rw [ht3, mul_sum]
          refine sum_congr rfl fun j _ => ?_
          split_ifs with h0
          · rw [abs_of_nonneg h0]; push_cast; ring
          · rw [abs_of_neg (not_le.1 h0)]; push_cast; ring
        rw [this, abs_mul, abs_of_nonneg (sum_nonneg fun j _ => abs_nonneg _ : 0 ≤ ∑ j ∈ range h.length, |h.getD j 0|)]
        unfold oneLevel; split_ifs <;> norm_num
      · push Not at hex
        obtain ⟨t, ht1, ht2, ht3, -⟩ := found (fun _ => 1) (fun i => Or.inr rfl) ⟨0, hh, by norm_num⟩
        refine ⟨t, ht1, ht2, ?_⟩
        have : y.getD t 0 = -oneLevel pnPre pnPost * ∑ j ∈ range h.length, |h.getD j 0| := by
          rw [ht3, mul_sum]
          refine sum_congr rfl fun j hj => ?_
          rw [abs_of_neg (hex j (mem_range.1 hj))]; push_cast; ring
        rw [this, abs_mul, abs_of_nonneg (sum_nonneg fun j _ => abs_nonneg _ : 0 ≤ ∑ j ∈ range h.length, |h.getD j 0|)]
        unfold oneLevel; split_ifs <;> norm_num

/-- decisions of NRZ data from the noise-free samples -/
theorem decided_nrz (fs bi pnPre gray pnPost : Bool) (h : List ℝ) (hh : 0 < h.length) (bits : List Int)
    (hbin : ∀ v ∈ bits, v = 0 ∨ v = 1) (hlen : 0 < bits.length) :
    ∃ x out, decidedBits .nrz fs bi pnPre gray pnPost h bits = .ok (x, out) ∧ x.length = bits.length ∧ out.length = bits.length ∧
      (∀ i < bits.length, x[i]? = some (txLevel .nrz fs bi pnPre gray pnPost (fun i => bits.getD i 0) i)) ∧
      ∀ i, h.length - 1 ≤ i → i < bits.length → out[i]?
        = some (if 0 < steady h (txLevel .nrz fs bi pnPre gray pnPost (fun i => bits.getD i 0)) i then 1 else -1) := by
  obtain ⟨out, e, hl, hn⟩ := decidedBits_eq .nrz (by decide) fs bi pnPre gray pnPost h hh bits hbin
    (by rw [show bitsPer .nrz = 1 from rfl]; omega)
  rw [show bitsPer .nrz = 1 from rfl, Nat.div_one] at e hl hn
  refine ⟨_, out, e, by simp, hl, fun i hi => getElem?_map_range _ _ _ hi, fun i hi hil => ?_⟩
  obtain ⟨v, hv, hv2⟩ := hn i hi hil
  rw [hv, nrz_decision fs _ v hv2]

/-- **C109.** NRZ: with an open eye all decisions are right for all data, with a closed eye and no more taps than the
register has cells one period of the PRBS contains a wrong decision. -/
theorem C109_eye (fs bi pnPre gray pnPost : Bool) (h : List ℝ) (d : ℕ) (hd : d < h.length) :
    (∑ j ∈ (range h.length).erase d, |h.getD j 0| < h.getD d 0 →
      ∀ data : List Int, (∀ v ∈ data, v = 0 ∨ v = 1) → 0 < data.length →
        ∃ x out, decidedBits .nrz fs bi pnPre gray pnPost h data = .ok (x, out) ∧ x.length = data.length ∧ out.length = data.length ∧
          ∀ i, h.length - 1 ≤ i → i < data.length → out[i]? = x[i - d]?) ∧
    (h.getD d 0 < ∑ j ∈ (range h.length).erase d, |h.getD j 0| →
      ∀ (p : PrbsEnum) (seed : List Int), seed.length = p.value → (∃ v ∈ seed, v % 2 = 1) → h.length ≤ p.value →
      ∀ (L : ℕ) (bits sd : List Int), h.length - 1 + (2 ^ p.value - 1) ≤ L → prbsGenerator (getPolynomial p) seed L = .ok (bits, sd) →
        ∃ x out, decidedBits .nrz fs bi pnPre gray pnPost h bits = .ok (x, out) ∧
          ∃ i, h.length - 1 ≤ i ∧ i < h.length - 1 + (2 ^ p.value - 1) ∧ ∃ u v, out[i]? = some u ∧ x[i - d]? = some v ∧ u ≠ v) := by
  have hh : 0 < h.length := by omega
  obtain ⟨hlow, hatt⟩ := C109_peak_distortion fs bi pnPre gray pnPost h d hd
  constructor
  · intro hopen data hbin hlen
    obtain ⟨x, out, e, hxl, hol, hx, ho⟩ := decided_nrz fs bi pnPre gray pnPost h hh data hbin hlen
    refine ⟨x, out, e, hxl, hol, fun i hi hil => ?_⟩
    rw [ho i hi hil, hx _ (by omega)]
    obtain ⟨x1, y1, z1, f1, f2, -, -, fx, fy⟩ := link_steady fs bi pnPre gray pnPost h hh data hbin hlen
    obtain ⟨x2, y2, z2, g1, g2, g3⟩ := hlow data hbin hlen
    rw [f1] at g1; cases g1
    rw [f2] at g2; cases g2
    have := (g3 i hi hil).1
    rw [fy i hi hil, fx _ (by omega)] at this
    rcases level_pm fs bi pnPre gray pnPost _ (bits_getD data hbin) (i - d) with hs | hs
    · rw [hs] at this ⊢
      rw [if_pos (by linarith)]
    · rw [hs] at this ⊢
      rw [if_neg (by linarith)]
  · intro hclosed p seed hseed hne hk L bits sd hL hg
    obtain ⟨hbl, hbb, -⟩ := generated_getD p seed hseed L bits sd hg
    have hN := period_ge p
    obtain ⟨x, out, e, hxl, hol, hx, ho⟩ := decided_nrz fs bi pnPre gray pnPost h hh bits hbb (by omega)
    obtain ⟨x1, y1, z1, f1, f2, -, -, fx, fy⟩ := link_steady fs bi pnPre gray pnPost h hh bits hbb (by omega)
    obtain ⟨x2, y2, z2, g1, g2, ⟨i, hi1, hi2, hi3⟩, -⟩ := hatt p seed hseed hne hk L bits sd hL hg
    rw [f1] at g1; cases g1
    rw [f2] at g2; cases g2
    rw [fy i hi1 (by omega), fx _ (by omega)] at hi3
    refine ⟨x, out, e, i, hi1, hi2, _, _, ho i hi1 (by omega), hx _ (by omega), ?_⟩
    rcases level_pm fs bi pnPre gray pnPost _ (bits_getD bits hbb) (i - d) with hs | hs
    · rw [hs] at hi3 ⊢
      rw [if_neg (by linarith)]; norm_num
    · rw [hs] at hi3 ⊢
      rw [if_pos (by linarith)]; norm_num

/-- in a PRBS no bit is repeated more often than the register has cells -/
theorem run_le (p : PrbsEnum) (seed : List Int) (hseed : seed.length = p.value) (hne : ∃ x ∈ seed, x % 2 = 1) (start : ℕ) (v : ℤ) :
    ∃ k ≤ p.value, bitAt (getPolynomial p) seed (start + k) ≠ v := by
  by_contra hc
  push Not at hc
  have hv : v = 0 ∨ v = 1 := hc 0 (Nat.zero_le _) ▸ bitAt_mem _ _ _
  have hcard := window_card p seed (List.replicate p.value v) hseed hne
    (fun x hx => by rw [List.eq_of_mem_replicate hx]; exact hv) (by simp) start
  have hN := period_ge p
  have hval := value_pos p
  have hget : ∀ i < p.value, (List.replicate p.value v).getD i 0 = v := fun i hi => by
    rw [List.getD_eq_getElem?_getD, List.getElem?_replicate, if_pos hi]; rfl
  have hsub : ({0, 1} : Finset ℕ) ⊆ (range (2 ^ p.value - 1)).filter (fun t =>
      ∀ i < (List.replicate p.value v).length, bitAt (getPolynomial p) seed (start + t + i) = (List.replicate p.value v).getD i 0) := by
    intro t ht
    simp only [mem_insert, mem_singleton] at ht
    rw [mem_filter, mem_range]
    refine ⟨by omega, fun i hi => ?_⟩
    rw [List.length_replicate] at hi
    rw [hget i hi, add_assoc]
    exact hc _ (by omega)
  have h2 := card_le_card hsub
  rw [hcard, List.length_replicate, Nat.sub_self, pow_zero, card_pair (by norm_num)] at h2
  omega

/-- **C109, negative.** One tap more than the register has cells: for `h = [1, -a, ..., -a]` with `n` echoes of weight
`a = 1/(n - 1)` every decision on a PRBS of degree `n` of any length is right, and every decision on constant data (after
`n` bits) is wrong. -/
theorem C109_one_tap_more (fs bi pnPre gray pnPost : Bool) (p : PrbsEnum) (seed : List Int)
    (hseed : seed.length = p.value) (hne : ∃ x ∈ seed, x % 2 = 1) :
    (∀ (L : ℕ) (bits sd : List Int), 0 < L → prbsGenerator (getPolynomial p) seed L = .ok (bits, sd) →
      ∃ x out, decidedBits .nrz fs bi pnPre gray pnPost (1 :: List.replicate p.value (-1 / ((p.value : ℝ) - 1))) bits = .ok (x, out) ∧
        x.length = L ∧ out.length = L ∧ ∀ i, p.value ≤ i → i < L → out[i]? = x[i]?) ∧
    ∀ (v : ℤ) (K : ℕ), v = 0 ∨ v = 1 → 0 < K →
      ∃ x out, decidedBits .nrz fs bi pnPre gray pnPost (1 :: List.replicate p.value (-1 / ((p.value : ℝ) - 1))) (List.replicate K v)
          = .ok (x, out) ∧ x.length = K ∧ out.length = K ∧ ∀ i, p.value ≤ i → i < K → out[i]? ≠ x[i]? := by
  obtain ⟨n, hn⟩ : ∃ n, n = p.value := ⟨_, rfl⟩
  have hn7 : 7 ≤ n := by rw [hn]; cases p <;> decide
  have hnr : (7 : ℝ) ≤ n := by exact_mod_cast hn7
  have hn1 : (0 : ℝ) < (n : ℝ) - 1 := by linarith
  obtain ⟨h, hh⟩ : ∃ h, h = (1 : ℝ) :: List.replicate n (-1 / ((n : ℝ) - 1)) := ⟨_, rfl⟩
  rw [← hn, ← hh]
  have hl : h.length = n + 1 := by rw [hh]; simp
  have hst : ∀ (s : ℕ → ℝ) i, steady h s i = s i - (∑ j ∈ range n, s (i - (j + 1))) / ((n : ℝ) - 1) := by
    intro s i
    unfold steady
    rw [hl, sum_range_succ', hh]
    rw [List.getD_cons_zero, one_mul, Nat.sub_zero, sum_div, sub_eq_add_neg (s i), ← sum_neg_distrib, add_comm]
    congr 1
    refine sum_congr rfl fun j hj => ?_
    rw [List.getD_cons_succ, List.getD_eq_getElem?_getD, List.getElem?_replicate, if_pos (mem_range.1 hj)]
    simp only [Option.getD_some]
    ring
  constructor
  · intro L bits sd hL hg
    obtain ⟨hbl, hbb, hbg⟩ := generated_getD p seed hseed L bits sd hg
    obtain ⟨x, out, e, hxl, hol, hx, ho⟩ := decided_nrz fs bi pnPre gray pnPost h (by omega) bits hbb (by omega)
    refine ⟨x, out, e, by omega, by omega, fun i hi hil => ?_⟩
    rw [ho i (by omega) (by omega), hx i (by omega)]
    have hpm := level_pm fs bi pnPre gray pnPost _ (bits_getD bits hbb)
    obtain ⟨k, hk, hkne⟩ := run_le p seed hseed hne (i - n) (bits.getD i 0)
    rw [← hn] at hk
    have hki : k ≠ n := by
      rintro rfl
      rw [Nat.sub_add_cancel hi, ← hbg i (by omega)] at hkne
      exact hkne rfl
    -- one of the `n` symbols before differs from the present one
    have hdiff : txLevel .nrz fs bi pnPre gray pnPost (fun i => bits.getD i 0) (i - n + k)
        = -txLevel .nrz fs bi pnPre gray pnPost (fun i => bits.getD i 0) i := by
      rw [← hbg _ (by omega)] at hkne
      rw [txLevel_nrz, txLevel_nrz]
      rcases bits_getD bits hbb (i - n + k) with h1 | h1 <;> rcases bits_getD bits hbb i with h2 | h2
      · rw [h1, h2] at hkne; exact absurd rfl hkne
      · rw [h1, h2]; push_cast; ring
      · rw [h1, h2]; push_cast; ring
      · rw [h1, h2] at hkne; exact absurd rfl hkne
    obtain ⟨s, hs⟩ : ∃ s, s = txLevel .nrz fs bi pnPre gray pnPost (fun i => bits.getD i 0) := ⟨_, rfl⟩
    rw [← hs] at hpm hdiff ⊢
    have hle : ∀ u, u = 1 ∨ u = -1 → s i = u → (∑ j ∈ range n, s (i - (j + 1))) * u ≤ (n : ℝ) - 2 := by
      intro u hu hsu
      have hj : n - 1 - k ∈ range n := mem_range.2 (by omega)
      rw [sum_mul, ← add_sum_erase _ _ hj]
      have h1 : s (i - (n - 1 - k + 1)) * u = -1 := by
        rw [show i - (n - 1 - k + 1) = i - n + k by omega, hdiff, hsu]
        rcases hu with rfl | rfl <;> norm_num
      have h2 : ∑ j ∈ (range n).erase (n - 1 - k), s (i - (j + 1)) * u ≤ ∑ j ∈ (range n).erase (n - 1 - k), (1 : ℝ) := by
        refine sum_le_sum fun j _ => ?_
        rcases hpm (i - (j + 1)) with h | h <;> rcases hu with rfl | rfl <;> rw [h] <;> norm_num
      rw [sum_const, card_erase_of_mem hj, card_range, nsmul_eq_mul, mul_one, Nat.cast_sub (by omega)] at h2
      push_cast at h2
      linarith
    rw [hst]
    rcases hpm i with h | h
    · have := hle 1 (Or.inl rfl) h
      rw [h, if_pos]
      rw [sub_pos, div_lt_one hn1]; linarith
    · have := hle (-1) (Or.inr rfl) h
      rw [h, if_neg]
      rw [not_lt, sub_nonpos, le_div_iff₀ hn1]; linarith
  · intro v K hv hK
    obtain ⟨x, out, e, hxl, hol, hx, ho⟩ := decided_nrz fs bi pnPre gray pnPost h (by omega) (List.replicate K v)
      (fun x hx => by rw [List.eq_of_mem_replicate hx]; exact hv) (by simpa using hK)
    rw [List.length_replicate] at hxl hol hx ho
    refine ⟨x, out, e, hxl, hol, fun i hi hil => ?_⟩
    rw [ho i (by omega) hil, hx i hil]
    have hc : ∀ t ≤ i, txLevel .nrz fs bi pnPre gray pnPost (fun i => (List.replicate K v).getD i 0) t
        = oneLevel pnPre pnPost * (2 * (v : ℝ) - 1) := by
      intro t ht
      rw [txLevel_nrz, List.getD_eq_getElem?_getD, List.getElem?_replicate, if_pos (by omega)]; rfl
    have hu : oneLevel pnPre pnPost * (2 * (v : ℝ) - 1) = 1 ∨ oneLevel pnPre pnPost * (2 * (v : ℝ) - 1) = -1 := by
      unfold oneLevel
      rcases hv with rfl | rfl <;> split_ifs <;> norm_num
    rw [hst, hc i le_rfl, sum_congr rfl (fun j _ => hc (i - (j + 1)) (by omega)), sum_const, card_range, nsmul_eq_mul]
    rcases hu with hu | hu
    · rw [hu, if_neg]
      · norm_num
      · rw [not_lt, sub_nonpos, mul_one, le_div_iff₀ hn1]; linarith
    · rw [hu, if_pos]
      · norm_num
      · rw [sub_pos, div_lt_iff₀ hn1]; linarith

/-! ### four levels -/

/-- decision between four levels -/
theorem pam4_decision (fs : Bool) (y o : ℝ) (h : NearestFirst (getLevels .pam4 fs) y o) :
    o = unitScale .pam4 fs * (if y ≤ -2 * unitScale .pam4 fs then -3 else if y ≤ 0 then -1 else if y ≤ 2 * unitScale .pam4 fs then 1 else 3) := by
  have hg := unitScale_pos .pam4 fs
  refine nearestFirst_unique _ _ _ _ h ?_
  rw [getLevels_scale]
  obtain ⟨g, hgd⟩ : ∃ g, g = unitScale .pam4 fs := ⟨_, rfl⟩
  rw [← hgd] at hg ⊢
  rw [show (intLevels .pam4).map (fun (z : Int) => (z : ℝ) * g) = [-3 * g, -1 * g, 1 * g, 3 * g] by simp [intLevels]]
  have sq : ∀ a b : ℝ, |a| ≤ |b| ↔ a ^ 2 ≤ b ^ 2 := fun a b => sq_le_sq.symm
  have sq' : ∀ a b : ℝ, |a| < |b| ↔ a ^ 2 < b ^ 2 := fun a b => sq_lt_sq.symm
  split_ifs with h1 h2 h3
  · refine ⟨0, by simp, mul_comm _ _, fun l hl => ?_, fun j hj => by omega⟩
    simp only [List.mem_cons, List.not_mem_nil, or_false] at hl
    rcases hl with rfl | rfl | rfl | rfl <;> rw [sq] <;> nlinarith
  · refine ⟨1, by simp, mul_comm _ _, fun l hl => ?_, fun j hj => ?_⟩
    · simp only [List.mem_cons, List.not_mem_nil, or_false] at hl
      rcases hl with rfl | rfl | rfl | rfl <;> rw [sq] <;> nlinarith
    · interval_cases j
      show |y - g * -1| < |y - -3 * g|
      rw [sq']; nlinarith
  · refine ⟨2, by simp, mul_comm _ _, fun l hl => ?_, fun j hj => ?_⟩
    · simp only [List.mem_cons, List.not_mem_nil, or_false] at hl
      rcases hl with rfl | rfl | rfl | rfl <;> rw [sq] <;> nlinarith
    · interval_cases j
      · show |y - g * 1| < |y - -3 * g|
        rw [sq']; nlinarith
      · show |y - g * 1| < |y - -1 * g|
        rw [sq']; nlinarith
  · refine ⟨3, by simp, mul_comm _ _, fun l hl => ?_, fun j hj => ?_⟩
    · simp only [List.mem_cons, List.not_mem_nil, or_false] at hl
      rcases hl with rfl | rfl | rfl | rfl <;> rw [sq] <;> nlinarith
    · interval_cases j
      · show |y - g * 3| < |y - -3 * g|
        rw [sq']; nlinarith
      · show |y - g * 3| < |y - -1 * g|
        rw [sq']; nlinarith
      · show |y - g * 3| < |y - 1 * g|
        rw [sq']; nlinarith

/-- the level sent is one of four -/
theorem txLevel_pam4 (fs bi pnPre gray pnPost : Bool) (b : ℕ → ℤ) (hb : ∀ i, b i = 0 ∨ b i = 1) (t : ℕ) :
    ∃ v : ℝ, (v = -3 ∨ v = -1 ∨ v = 1 ∨ v = 3) ∧ txLevel .pam4 fs bi pnPre gray pnPost b t = unitScale .pam4 fs * v := by
  refine ⟨(if pnPost then -1 else 1) * (2 * (2 * ((Spec.flipBit pnPre (if bi then b (2 * t) else b (2 * t + 1)) : ℤ) : ℝ) - 1) +
    (2 * ((if gray then (Spec.flipBit pnPre (if bi then b (2 * t + 1) else b (2 * t)) + Spec.flipBit pnPre (if bi then b (2 * t) else b (2 * t + 1))) % 2
      else Spec.flipBit pnPre (if bi then b (2 * t + 1) else b (2 * t)) : ℤ) : ℝ) - 1)), ?_, ?_⟩
  · unfold Spec.flipBit
    rcases hb (2 * t) with h | h <;> rcases hb (2 * t + 1) with h' | h' <;> rw [h, h'] <;>
      cases bi <;> cases pnPre <;> cases gray <;> cases pnPost <;> norm_num
  · unfold txLevel
    dsimp only
    ring

/-- all sequences of the four levels can be sent -/
theorem pam4_bits (fs bi pnPre gray pnPost : Bool) (v : ℕ → ℝ) (hv : ∀ t, v t = -3 ∨ v t = -1 ∨ v t = 1 ∨ v t = 3) :
    ∃ b : ℕ → ℤ, (∀ i, b i = 0 ∨ b i = 1) ∧ ∀ t, txLevel .pam4 fs bi pnPre gray pnPost b t = unitScale .pam4 fs * v t := by
  have hex : ∀ t, ∃ a : ℤ × ℤ, (a.1 = 0 ∨ a.1 = 1) ∧ (a.2 = 0 ∨ a.2 = 1) ∧
      ∀ b : ℕ → ℤ, b (2 * t) = a.1 → b (2 * t + 1) = a.2 → txLevel .pam4 fs bi pnPre gray pnPost b t = unitScale .pam4 fs * v t := by
    intro t
    by_contra hc
    push Not at hc
    have e : ∀ a1 a2 : ℤ, (a1 = 0 ∨ a1 = 1) → (a2 = 0 ∨ a2 = 1) →
        (if pnPost then -1 else 1) * (2 * (2 * ((Spec.flipBit pnPre (if bi then a1 else a2) : ℤ) : ℝ) - 1) +
          (2 * ((if gray then (Spec.flipBit pnPre (if bi then a2 else a1) + Spec.flipBit pnPre (if bi then a1 else a2)) % 2
            else Spec.flipBit pnPre (if bi then a2 else a1) : ℤ) : ℝ) - 1)) ≠ v t := by
      intro a1 a2 h1 h2 he
      obtain ⟨b, hb1, hb2, hb3⟩ := hc (a1, a2) h1 h2
      refine hb3 ?_
      rw [← he]
      unfold txLevel
      dsimp only at hb1 hb2 ⊢
      rw [hb1, hb2]
      ring
    have e00 := e 0 0 (Or.inl rfl) (Or.inl rfl)
    have e01 := e 0 1 (Or.inl rfl) (Or.inr rfl)
    have e10 := e 1 0 (Or.inr rfl) (Or.inl rfl)
    have e11 := e 1 1 (Or.inr rfl) (Or.inr rfl)
    clear hc e
    rcases hv t with h | h | h | h <;> rw [h] at e00 e01 e10 e11 <;> unfold Spec.flipBit at e00 e01 e10 e11 <;>
      cases bi <;> cases pnPre <;> cases gray <;> cases pnPost <;>
        first | (apply e00; norm_num; done) | (apply e01; norm_num; done) | (apply e10; norm_num; done) | (apply e11; norm_num)
  choose a ha1 ha2 ha3 using hex
  refine ⟨fun i => if i % 2 = 0 then (a (i / 2)).1 else (a (i / 2)).2, fun i => ?_, fun t => ha3 t _ ?_ ?_⟩
  · dsimp only
    split_ifs
    · exact ha1 _
    · exact ha2 _
  · rw [if_pos (by omega), show 2 * t / 2 = t by omega]
  · rw [if_neg (by omega), show (2 * t + 1) / 2 = t by omega]

/-- **C109.** Four levels (in their own scale, that is for a receiver whose gain is right): the eyes are open, and all data
decided right, if three times the sum of the magnitudes of the interfering taps is less than `2 - h_d` and less than
`3 h_d - 2`; if it is greater than one of the two, one period of a PRBS of degree more than twice the number of taps
contains a wrong decision. -/
theorem C109_pam4_eye (fs bi pnPre gray pnPost : Bool) (h : List ℝ) (d : ℕ) (hd : d < h.length) :
    (3 * ∑ j ∈ (range h.length).erase d, |h.getD j 0| < 2 - h.getD d 0 →
      3 * ∑ j ∈ (range h.length).erase d, |h.getD j 0| < 3 * h.getD d 0 - 2 →
      ∀ data : List Int, (∀ v ∈ data, v = 0 ∨ v = 1) → 2 ≤ data.length →
        ∃ x out, decidedBits .pam4 fs bi pnPre gray pnPost h data = .ok (x, out) ∧ x.length = data.length / 2 ∧
          out.length = data.length / 2 ∧ ∀ i, h.length - 1 ≤ i → i < data.length / 2 → out[i]? = x[i - d]?) ∧
    ((2 - h.getD d 0 < 3 * ∑ j ∈ (range h.length).erase d, |h.getD j 0| ∨
      3 * h.getD d 0 - 2 < 3 * ∑ j ∈ (range h.length).erase d, |h.getD j 0|) →
      ∀ (p : PrbsEnum) (seed : List Int), seed.length = p.value → (∃ v ∈ seed, v % 2 = 1) → 2 * h.length < p.value →
      ∀ (L : ℕ) (bits sd : List Int), 2 * (h.length - 1 + (2 ^ p.value - 1)) ≤ L →
        prbsGenerator (getPolynomial p) seed L = .ok (bits, sd) →
        ∃ x out, decidedBits .pam4 fs bi pnPre gray pnPost h bits = .ok (x, out) ∧
          ∃ i, h.length - 1 ≤ i ∧ i < h.length - 1 + (2 ^ p.value - 1) ∧ ∃ u v, out[i]? = some u ∧ x[i - d]? = some v ∧ u ≠ v) := by
  have hh : 0 < h.length := by omega
  have hg := unitScale_pos .pam4 fs
  have h2 : bitsPer .pam4 = 2 := rfl
  have hsplit : ∀ f : ℕ → ℝ, ∑ j ∈ range h.length, f j = f d + ∑ j ∈ (range h.length).erase d, f j := fun f =>
    (add_sum_erase _ f (mem_range.2 hd)).symm
  obtain ⟨S, hS⟩ : ∃ S, S = ∑ j ∈ (range h.length).erase d, |h.getD j 0| := ⟨_, rfl⟩
  rw [← hS]
  have hS0 : 0 ≤ S := hS ▸ sum_nonneg fun j _ => abs_nonneg _
  constructor
  · intro hin hout data hbin hlen
    obtain ⟨out, e, hol, hn⟩ := decidedBits_eq .pam4 (by decide) fs bi pnPre gray pnPost h hh data hbin hlen
    rw [h2] at e hol hn
    refine ⟨_, out, e, by simp, hol, fun i hi hil => ?_⟩
    rw [getElem?_map_range _ _ _ (by omega)]
    obtain ⟨o, ho, hno⟩ := hn i hi hil
    rw [ho, pam4_decision fs _ o hno]
    obtain ⟨s, hs⟩ : ∃ s, s = txLevel .pam4 fs bi pnPre gray pnPost (fun i => data.getD i 0) := ⟨_, rfl⟩
    have hs4 : ∀ t, ∃ v : ℝ, (v = -3 ∨ v = -1 ∨ v = 1 ∨ v = 3) ∧ s t = unitScale .pam4 fs * v := fun t => by
      rw [hs]; exact txLevel_pam4 fs bi pnPre gray pnPost _ (bits_getD data hbin) t
    rw [← hs]
    obtain ⟨g, hgd⟩ : ∃ g, g = unitScale .pam4 fs := ⟨_, rfl⟩
    rw [← hgd] at hg hs4 ⊢
    have hb3 : ∀ t, |s t| ≤ 3 * g := by
      intro t
      obtain ⟨v, hv, e⟩ := hs4 t
      rw [e, abs_mul, abs_of_pos hg, mul_comm]
      refine mul_le_mul_of_nonneg_right ?_ hg.le
      rcases hv with rfl | rfl | rfl | rfl <;> norm_num [abs_of_neg, abs_of_pos]
    have hisi : |steady h s i - h.getD d 0 * s (i - d)| ≤ 3 * g * S := by
      unfold steady
      rw [hsplit, add_sub_cancel_left]
      refine (abs_sum_le_sum_abs _ _).trans ?_
      rw [hS, mul_sum]
      refine sum_le_sum fun j _ => ?_
      rw [abs_mul, mul_comm]
      exact mul_le_mul_of_nonneg_right (hb3 _) (abs_nonneg _)
    obtain ⟨v, hv, e⟩ := hs4 (i - d)
    rw [e] at hisi ⊢
    rw [abs_le] at hisi
    obtain ⟨lo, hi'⟩ := hisi
    congr 2
    have k1 : 3 * g * S < g * (2 - h.getD d 0) := by nlinarith
    have k2 : 3 * g * S < g * (3 * h.getD d 0 - 2) := by nlinarith
    have k3 : 0 ≤ 3 * g * S := by positivity
    generalize 3 * g * S = E at lo hi' k1 k2 k3
    generalize h.getD d 0 = a at lo hi' k1 k2
    generalize steady h s i = y at lo hi'
    rcases hv with rfl | rfl | rfl | rfl
    · rw [if_pos (by nlinarith)]
    · rw [if_neg (by nlinarith), if_pos (by nlinarith)]
    · rw [if_neg (by nlinarith), if_neg (by nlinarith), if_pos (by nlinarith)]
    · rw [if_neg (by nlinarith), if_neg (by nlinarith), if_neg (by nlinarith)]
  · intro hclosed p seed hseed hne hk L bits sd hL hgen
    obtain ⟨hbl, hbb, -⟩ := generated_getD p seed hseed L bits sd hgen
    have hN := period_ge p
    obtain ⟨out, e, hol, hn⟩ := decidedBits_eq .pam4 (by decide) fs bi pnPre gray pnPost h hh bits hbb (by rw [h2]; omega)
    rw [h2] at e hol hn
    refine ⟨_, out, e, ?_⟩
    -- the worst data: amplitude `q` at `d`, all interference of amplitude three and of the same sign
    have found : ∀ q r : ℝ, (q = 1 ∨ q = 3) → (r = 3 ∨ r = -3) → ∃ t, h.length - 1 ≤ t ∧ t < h.length - 1 + (2 ^ p.value - 1) ∧
        txLevel .pam4 fs bi pnPre gray pnPost (fun i => bits.getD i 0) (t - d) = unitScale .pam4 fs * q ∧
        steady h (txLevel .pam4 fs bi pnPre gray pnPost (fun i => bits.getD i 0)) t = unitScale .pam4 fs * (h.getD d 0 * q + r * S) := by
      intro q r hq hr
      obtain ⟨b, hb, hbv⟩ := pam4_bits fs bi pnPre gray pnPost
        (fun k => if h.length - 1 - k = d then q else if 0 ≤ h.getD (h.length - 1 - k) 0 then r else -r)
        (fun t => by
          rcases hq with rfl | rfl <;> rcases hr with rfl | rfl <;> split_ifs <;> norm_num)
      obtain ⟨t, ht1, ht2, ht3⟩ := level_window .pam4 fs bi pnPre gray pnPost p seed hseed hne h.length hh b hb (h.length - 1) le_rfl
        (Or.inl (by rw [h2]; exact hk))
      have hl : ∀ j < h.length, txLevel .pam4 fs bi pnPre gray pnPost (fun i => bits.getD i 0) (t - j)
          = unitScale .pam4 fs * (if j = d then q else if 0 ≤ h.getD j 0 then r else -r) := by
        intro j hj
        rw [generated_level p seed hseed L bits sd hgen .pam4 fs bi pnPre gray pnPost (t - j) (by rw [h2]; omega), ht3 j hj, hbv,
          show h.length - 1 - (h.length - 1 - j) = j by omega]
      refine ⟨t, ht1, ht2, by rw [hl d hd, if_pos rfl], ?_⟩
      unfold steady
      rw [sum_congr rfl fun j hj => by rw [hl j (mem_range.1 hj)], hsplit, if_pos rfl, hS, mul_add, mul_sum, mul_sum]
      congr 1
      · ring
      · refine sum_congr rfl fun j hj => ?_
        rw [if_neg (ne_of_mem_erase hj)]
        split_ifs with h0
        · rw [abs_of_nonneg h0]; ring
        · rw [abs_of_neg (not_le.1 h0)]; ring
    obtain ⟨g, hgd⟩ : ∃ g, g = unitScale .pam4 fs := ⟨_, rfl⟩
    rcases hclosed with hc | hc
    · obtain ⟨t, ht1, ht2, ht3, ht4⟩ := found 1 3 (Or.inl rfl) (Or.inl rfl)
      obtain ⟨o, ho, hno⟩ := hn t ht1 (by omega)
      refine ⟨t, ht1, ht2, o, _, ho, getElem?_map_range _ _ _ (by omega), ?_⟩
      rw [pam4_decision fs _ o hno, ht3, ht4, ← hgd]
      rw [← hgd] at hg
      intro he
      have := mul_left_cancel₀ hg.ne' he
      have hbig : 2 * g < g * (h.getD d 0 * 1 + 3 * S) := by nlinarith
      rw [if_neg (by nlinarith), if_neg (by nlinarith), if_neg (by nlinarith)] at this
      norm_num at this
    · obtain ⟨t, ht1, ht2, ht3, ht4⟩ := found 3 (-3) (Or.inr rfl) (Or.inr rfl)
      obtain ⟨o, ho, hno⟩ := hn t ht1 (by omega)
      refine ⟨t, ht1, ht2, o, _, ho, getElem?_map_range _ _ _ (by omega), ?_⟩
      rw [pam4_decision fs _ o hno, ht3, ht4, ← hgd]
      rw [← hgd] at hg
      intro he
      have := mul_left_cancel₀ hg.ne' he
      have hsm : g * (h.getD d 0 * 3 + -3 * S) ≤ 2 * g := by nlinarith
      split_ifs at this <;> norm_num at this

/-! ### concrete cases -/

/-- an open eye with three taps -/
example : ∑ j ∈ (range ([1/4, 1, -1/2] : List ℝ).length).erase 1, |([1/4, 1, -1/2] : List ℝ).getD j 0|
    < ([1/4, 1, -1/2] : List ℝ).getD 1 0 := by
  rw [show (range ([1/4, 1, -1/2] : List ℝ).length).erase 1 = {0, 2} from by decide, sum_pair (by norm_num)]
  norm_num [abs_of_neg, abs_of_pos]

/-- the premises of `C109_sufficient_nrz` hold for that channel and one period of PRBS7 -/
example : ∃ bits sd x out, prbsGenerator (getPolynomial .prbs7) [1, 0, 0, 0, 0, 0, 0] 129 = .ok (bits, sd) ∧
    decidedBits .nrz false false false false false [1/4, 1, -1/2] bits = .ok (x, out) ∧
    ∀ i, 2 ≤ i → i < 2 + (2 ^ 7 - 1) → out[i]? = x[i - 1]? := by
  have hg := prbsGenerator_supported .prbs7 [1, 0, 0, 0, 0, 0, 0] rfl 129
  obtain ⟨hl, hb, -⟩ := generated_getD .prbs7 [1, 0, 0, 0, 0, 0, 0] rfl 129 _ _ hg
  obtain ⟨x, out, e, -, -, h⟩ := (C109_eye false false false false false [1/4, 1, -1/2] 1 (by norm_num)).1 (by
    rw [show (range ([1/4, 1, -1/2] : List ℝ).length).erase 1 = {0, 2} from by decide, sum_pair (by norm_num)]
    norm_num [abs_of_neg, abs_of_pos]) _ hb (by rw [hl]; norm_num)
  exact ⟨_, _, x, out, hg, e, fun i h1 h2 => h i h1 (by rw [hl]; omega)⟩

/-- hence no data are decided wrong -/
example (data : List Int) (hbin : ∀ v ∈ data, v = 0 ∨ v = 1) (hlen : 0 < data.length) :
    ∃ x' out', decidedBits .nrz false false false false false [1/4, 1, -1/2] data = .ok (x', out') ∧ x'.length = data.length ∧
      out'.length = x'.length ∧ ∀ i, 2 ≤ i → i < x'.length → out'[i]? = x'[i - 1]? := by
  have hg := prbsGenerator_supported .prbs7 [1, 0, 0, 0, 0, 0, 0] rfl 129
  obtain ⟨hl, hb, -⟩ := generated_getD .prbs7 [1, 0, 0, 0, 0, 0, 0] rfl 129 _ _ hg
  obtain ⟨x, out, e, -, -, h⟩ := (C109_eye false false false false false [1/4, 1, -1/2] 1 (by norm_num)).1 (by
    rw [show (range ([1/4, 1, -1/2] : List ℝ).length).erase 1 = {0, 2} from by decide, sum_pair (by norm_num)]
    norm_num [abs_of_neg, abs_of_pos]) _ hb (by rw [hl]; norm_num)
  exact C109_sufficient_nrz false false false false .prbs7 [1, 0, 0, 0, 0, 0, 0] rfl ⟨1, by simp, rfl⟩ [1/4, 1, -1/2] (by norm_num)
    (by decide) 1 (by norm_num) 129 (by decide) _ _ hg x out e
    (fun i h1 h2 => h i h1 (by rw [hl]; exact h2)) data hbin hlen

/-- seven echoes of 1/6 on PRBS7: the constant data are decided wrong -/
example := C109_one_tap_more false false false false false .prbs7 [1, 0, 0, 0, 0, 0, 0] rfl ⟨1, by simp, rfl⟩

/-- four levels: the premises of `C109_sufficient` hold for a channel with one echo and a period of PRBS7 -/
example : ∃ bits sd x out, prbsGenerator (getPolynomial .prbs7) [1, 0, 0, 0, 0, 0, 0] 256 = .ok (bits, sd) ∧
    decidedBits .pam4 true false false true false [1, -1/4] bits = .ok (x, out) ∧
    bitsPer .pam4 * 2 < PrbsEnum.prbs7.value ∧ bitsPer .pam4 * (2 - 1 + (2 ^ 7 - 1)) ≤ 256 ∧
    ∀ i, 1 ≤ i → i < 1 + (2 ^ 7 - 1) → out[i]? = x[i - 0]? := by
  have hg := prbsGenerator_supported .prbs7 [1, 0, 0, 0, 0, 0, 0] rfl 256
  obtain ⟨hl, hb, -⟩ := generated_getD .prbs7 [1, 0, 0, 0, 0, 0, 0] rfl 256 _ _ hg
  have hs : ∑ j ∈ (range ([1, -1/4] : List ℝ).length).erase 0, |([1, -1/4] : List ℝ).getD j 0| = 1 / 4 := by
    rw [show (range ([1, -1/4] : List ℝ).length).erase 0 = {1} from by decide, sum_singleton]
    norm_num [abs_of_neg]
  obtain ⟨x, out, e, -, -, h⟩ := (C109_pam4_eye true false false true false [1, -1/4] 0 (by norm_num)).1
    (by rw [hs]; norm_num) (by rw [hs]; norm_num) _ hb (by rw [hl]; norm_num)
  exact ⟨_, _, x, out, hg, e, by decide, by decide, fun i h1 h2 => h i h1 (by rw [hl]; omega)⟩

/-- with an echo of 2/5 the eye is closed: the period contains a wrong decision -/
example : 3 * (1 : ℝ) - 2 < 3 * |(-2/5 : ℝ)| := by rw [abs_of_neg (by norm_num)]; norm_num

end Verif
