import Verif.Lemmas.Mismatch
import Verif.Props.EstimPrbs
import Verif.Props.Slicer
import Verif.Props.Mapping

/-! Property theorems C105 (every second bit of a PRBS; two-level signals against the four-level reference). -/

open Finset

namespace Verif

open Spec

/-! ### every second bit -/

/-- **C105**, decimation. For every supported type and non-zero seed, every second bit of the sequence is the sequence
itself at some delay, and the bits in between are the sequence at a delay larger by `2^(n-1)`, half a period. The two bits
of every four-level symbol hence are two bits of one and the same sequence. -/
theorem C105_decimation (p : PrbsEnum) (seed : List Int) (hseed : seed.length = p.value) (hne : ∃ x ∈ seed, x % 2 = 1) :
    ∃ τ, τ < 2 ^ p.value - 1 ∧ ∀ (L : ℕ) seq sd, prbsGenerator (getPolynomial p) seed L = .ok (seq, sd) →
      (∀ t x y, seq[2 * t]? = some x → seq[t + τ]? = some y → x = y) ∧
      ∀ t x y, seq[2 * t + 1]? = some x → seq[t + τ + 2 ^ (p.value - 1)]? = some y → x = y := by
  obtain ⟨τ, hτ, h⟩ := decimate p seed hseed hne
  have h' := decimate_odd p seed hseed τ h
  refine ⟨τ, hτ, fun L seq sd hg => ?_⟩
  rw [prbsGenerator_supported p seed hseed] at hg
  cases hg
  constructor
  · intro t x y hx hy
    rw [map_range_getElem?] at hx hy
    split_ifs at hx hy
    rw [← Option.some.inj hx, ← Option.some.inj hy]
    exact h t
  · intro t x y hx hy
    rw [map_range_getElem?] at hx hy
    split_ifs at hx hy
    rw [← Option.some.inj hx, ← Option.some.inj hy]
    exact h' t

/-- PRBS7 from the seed of ones: the delay is 63, so that the second bits are at delay 127, the period. -/
example : ∃ seq sd, prbsGenerator (getPolynomial .prbs7) (List.replicate 7 1) 254 = .ok (seq, sd) ∧
    (∀ t < 127, seq[2 * t]? = seq[t + 63]?) ∧ ∀ t < 127, seq[2 * t + 1]? = seq[t + 127]? := by
  refine ⟨_, _, rfl, ?_, ?_⟩ <;> decide +kernel

/-- the transmitted levels as values on the residues of time modulo the period -/
theorem level_refZ (p : PrbsEnum) (c : Constellation) (fs bi pnPre gray pnPost : Bool) (b : ℕ → ℤ)
    (hb : Spec.LfsrStream (getPolynomial p) (List.replicate p.value 1) b) (t : ℤ) :
    periodic (2 ^ p.value - 1) (txLevel c fs bi pnPre gray pnPost b) t
      = refZ p c fs bi pnPre gray pnPost (t : ZMod (2 ^ p.value - 1)) := by
  rw [lfsrStream_unique hb (lfsrStream_bitAt _ _ (by rw [poly_length]; simp))]
  exact refZ_int p c _ _ _ _ _ t

/-- **C105**, sums of bits. For every supported type and seed, the sum of two successive bits is the sequence at the delay
`sumShift`. The second bit of a Gray coded four-level symbol hence is a bit of the sequence, too. -/
theorem C105_sum (p : PrbsEnum) (seed : List Int) (hseed : seed.length = p.value) (L : ℕ) (seq sd : List Int)
    (hg : prbsGenerator (getPolynomial p) seed L = .ok (seq, sd)) (t : ℕ) (x y z : Int)
    (hx : seq[t]? = some x) (hy : seq[t + 1]? = some y) (hz : seq[t + sumShift p]? = some z) : z = (x + y) % 2 := by
  rw [prbsGenerator_supported p seed hseed] at hg
  cases hg
  rw [map_range_getElem?] at hx hy hz
  split_ifs at hx hy hz
  rw [← Option.some.inj hx, ← Option.some.inj hy, ← Option.some.inj hz]
  exact bit_sumShift p seed hseed t

/-- PRBS7 from the seed of ones: a bit is the sum of the bits seven and six places before it. -/
example : ∃ seq sd, prbsGenerator (getPolynomial .prbs7) (List.replicate 7 1) 200 = .ok (seq, sd) ∧
    (∀ t < 193, seq.getD (t + 7) 0 = (seq.getD t 0 + seq.getD (t + 1) 0) % 2) ∧ 1 ∈ seq.drop 7 := by
  refine ⟨_, _, rfl, ?_, ?_⟩ <;> decide +kernel

/-- **C105**, four levels. The four-level pattern of every supported type is the two-level pattern of the same generator
through a filter of two taps in the ratio two to one, the distance of the echo apart: half a period without Gray coding. With
Gray coding and inverted bits the smaller tap is negative. -/
theorem C105_four_levels (p : PrbsEnum) (fs bi pnPre gray pnPost : Bool) (b : ℕ → ℤ)
    (hb : Spec.LfsrStream (getPolynomial p) (List.replicate p.value 1) b) :
    let x := periodic (2 ^ p.value - 1) (txLevel .nrz false false false false false b)
    let a := periodic (2 ^ p.value - 1) (txLevel .pam4 fs bi pnPre gray pnPost b)
    ∃ (g : ℝ) (α β : ℤ), (g = unitScale .pam4 fs ∨ g = -unitScale .pam4 fs) ∧ (α - β = echo p bi gray ∨ β - α = echo p bi gray) ∧
      ∀ t, a t = g * (2 * x (t + α) + echoSign pnPre gray * x (t + β)) := by
  intro x a
  obtain ⟨ga, α, β, hga, hab, h⟩ := refZ_pam4_shift p fs bi pnPre gray pnPost
  obtain ⟨s, hs, hx⟩ := refZ_nrz_form p false false false false false
  have hu : ∀ t : ℤ, x t = uSeq p (onesSeed p) (t : ZMod (2 ^ p.value - 1)) := by
    intro t
    have h1 : x t = refZ p .nrz false false false false false (t : ZMod (2 ^ p.value - 1)) := level_refZ p .nrz _ _ _ _ _ b hb t
    rw [h1, refZ, uSeq]
    simp [txLevel, unitScale, flipBit]
  have hg : ga = unitScale .pam4 fs ∨ ga = -unitScale .pam4 fs := sq_eq_sq_iff_eq_or_eq_neg.1 hga
  have ha : ∀ t : ℤ, a t = ga * (2 * uSeq p (onesSeed p) (t + α) + echoSign pnPre gray * uSeq p (onesSeed p) (t + β)) := fun t => by
    rw [← h]; exact level_refZ p .pam4 _ _ _ _ _ b hb t
  have hv : ∀ γ : ZMod (2 ^ p.value - 1), (((γ.val : ℤ)) : ZMod (2 ^ p.value - 1)) = γ := fun γ => by
    rw [Int.cast_natCast, ZMod.natCast_zmod_val]
  rcases hab with hab | hab
  · refine ⟨ga, (β.val : ℤ) + echo p bi gray, β.val, hg, Or.inl (by ring), fun t => ?_⟩
    rw [ha, hu, hu]
    have e : ((t + ((β.val : ℤ) + echo p bi gray) : ℤ) : ZMod (2 ^ p.value - 1)) = t + α := by
      rw [Int.cast_add, Int.cast_add, hv, Int.cast_natCast, ← hab]; ring
    rw [e, Int.cast_add, hv]
  · refine ⟨ga, α.val, (α.val : ℤ) + echo p bi gray, hg, Or.inr (by ring), fun t => ?_⟩
    rw [ha, hu, hu]
    have e : ((t + ((α.val : ℤ) + echo p bi gray) : ℤ) : ZMod (2 ^ p.value - 1)) = t + β := by
      rw [Int.cast_add, Int.cast_add, hv, Int.cast_natCast, ← hab]; ring
    rw [e, Int.cast_add, hv]

/-- **C105**, autocorrelation. Over one period the four-level pattern correlates with itself like the two-level pattern,
except for two echoes of two fifths of the peak, at the distance `echo` before and after it. -/
theorem C105_autocorrelation (p : PrbsEnum) (fs bi pnPre gray pnPost : Bool) (b : ℕ → ℤ)
    (hb : Spec.LfsrStream (getPolynomial p) (List.replicate p.value 1) b) (τ : ℤ) :
    let a := periodic (2 ^ p.value - 1) (txLevel .pam4 fs bi pnPre gray pnPost b)
    ∑ t ∈ range (2 ^ p.value - 1), a t * a (t + τ)
      = unitScale .pam4 fs ^ 2 * (2 ^ p.value * (5 * (if ((2 ^ p.value - 1 : ℕ) : ℤ) ∣ τ then 1 else 0)
          + 2 * echoSign pnPre gray * (if ((2 ^ p.value - 1 : ℕ) : ℤ) ∣ τ - echo p bi gray then 1 else 0)
          + 2 * echoSign pnPre gray * (if ((2 ^ p.value - 1 : ℕ) : ℤ) ∣ τ + echo p bi gray then 1 else 0))
        - (5 + 4 * echoSign pnPre gray)) := by
  intro a
  have ha : ∀ t : ℤ, a t = refZ p .pam4 fs bi pnPre gray pnPost (t : ZMod (2 ^ p.value - 1)) := fun t =>
    level_refZ p .pam4 _ _ _ _ _ b hb t
  have hN : ((2 ^ p.value - 1 : ℕ) : ℝ) + 1 = 2 ^ p.value := by
    rw [Nat.cast_sub Nat.one_le_two_pow]; push_cast; ring
  have hc := refZ_four_corr p fs bi pnPre gray pnPost (τ : ZMod (2 ^ p.value - 1))
  obtain ⟨F, hF⟩ : ∃ F : ZMod (2 ^ p.value - 1) → ℝ, F = fun z => refZ p .pam4 fs bi pnPre gray pnPost z
      * refZ p .pam4 fs bi pnPre gray pnPost (z + τ) := ⟨_, rfl⟩
  have e1 : ∀ t ∈ range (2 ^ p.value - 1), a t * a (t + τ) = F (t : ZMod (2 ^ p.value - 1)) := by
    intro t _
    rw [hF, ha, ha, Int.cast_add, Int.cast_natCast]
  rw [sum_congr rfl e1, zmod_sum_cast, hF, hc, hN]
  have d0 : (τ : ZMod (2 ^ p.value - 1)) = 0 ↔ ((2 ^ p.value - 1 : ℕ) : ℤ) ∣ τ := ZMod.intCast_zmod_eq_zero_iff_dvd _ _
  have dm : (τ : ZMod (2 ^ p.value - 1)) = (echo p bi gray : ZMod (2 ^ p.value - 1)) ↔ ((2 ^ p.value - 1 : ℕ) : ℤ) ∣ τ - echo p bi gray := by
    rw [← ZMod.intCast_zmod_eq_zero_iff_dvd, Int.cast_sub, Int.cast_natCast, sub_eq_zero]
  have dp : (τ : ZMod (2 ^ p.value - 1)) = -(echo p bi gray : ZMod (2 ^ p.value - 1)) ↔ ((2 ^ p.value - 1 : ℕ) : ℤ) ∣ τ + echo p bi gray := by
    rw [← ZMod.intCast_zmod_eq_zero_iff_dvd, Int.cast_add, Int.cast_natCast, eq_neg_iff_add_eq_zero]
  simp only [d0, dm, dp]

/-- Where the echoes are. Without Gray coding half a period away; with Gray coding and the default bit order as close as 3
symbols for PRBS7. -/
example : (fun p => echo p false false) .prbs7 = 63 ∧ echo .prbs7 false true = 3 ∧ echo .prbs15 false true = 7 ∧ echo .prbs13 false true = 3643
    ∧ echo .prbs31 true true = 1073610752 := by decide +kernel

/-! ### a two-level signal against the four-level reference

`test/example_scripts/example_runs.py` sends PRBS13 as NRZ (`tx_example`, lines 8-38) and receives it with the reference
and the decision levels of PAM4 (`rx_example`, `rx_example2`, `rx_genie_checker`, lines 112-417). -/

/-- **C105**, mismatch. The two-level pattern passes through any FIR channel `h` and any equalizer with feed forward taps
`f` and feedback taps `d` (fed with the true symbols), at any phases. As long as channel and feed forward filter together
are shorter than half a period, and so is the feedback filter, the squared error against the four-level symbols over `R`
consecutive symbols is at least about the energy of the smaller of the two bits: one fifth of the energy of the symbols. -/
theorem C105_mismatch (p : PrbsEnum) (fs' bi' pnPre' gray' pnPost' fs bi pnPre gray pnPost : Bool) (b : ℕ → ℤ)
    (hb : Spec.LfsrStream (getPolynomial p) (List.replicate p.value 1) b) (f d h : List ℝ) (pre hpre : ℕ) (φ ph t0 : ℤ) (R : ℕ)
    (hR : R ≤ 2 ^ p.value - 1) (hW : f.length + h.length ≤ echo p bi gray + 1) (hD : d.length < echo p bi gray) :
    let x := periodic (2 ^ p.value - 1) (txLevel .nrz fs' bi' pnPre' gray' pnPost' b)
    let a := periodic (2 ^ p.value - 1) (txLevel .pam4 fs bi pnPre gray pnPost b)
    ((2 : ℝ) ^ p.value - ((2 ^ p.value - 1 - R : ℕ) + 1) * ((f.length + h.length - 1 : ℕ) + 2 * (d.length + 1))) * unitScale .pam4 fs ^ 2
      ≤ ∑ i ∈ range R, (eqAt f d pre (fun t => chanOut h hpre x (t + φ)) (fun t => a (t + ph)) (t0 + i) - a (t0 + i + ph)) ^ 2 := by
  intro x a
  obtain ⟨ga, α, β, hga, hab, hpam⟩ := refZ_pam4_shift p fs bi pnPre gray pnPost
  obtain ⟨s, hs, hnrz⟩ := refZ_nrz_form p fs' bi' pnPre' gray' pnPost'
  have hh := echo_half p bi gray
  have h127 := period_ge p
  have hN : ((2 ^ p.value - 1 : ℕ) : ℝ) + 1 = 2 ^ p.value := by
    rw [Nat.cast_sub Nat.one_le_two_pow]; push_cast; ring
  have hx : ∀ t : ℤ, x t = s * uSeq p (onesSeed p) (t : ZMod (2 ^ p.value - 1)) := fun t => by
    rw [← hnrz]; exact level_refZ p .nrz _ _ _ _ _ b hb t
  have ha : ∀ t : ℤ, a t = ga * (2 * uSeq p (onesSeed p) ((t : ZMod (2 ^ p.value - 1)) + α)
      + echoSign pnPre gray * uSeq p (onesSeed p) ((t : ZMod (2 ^ p.value - 1)) + β)) := fun t => by
    rw [← hpam]; exact level_refZ p .pam4 _ _ _ _ _ b hb t
  have hout := eqAt_cascade (uSeq p (onesSeed p)) s ga (echoSign pnPre gray) α β x a hx ha f d h pre hpre φ ph
  set κ : ZMod (2 ^ p.value - 1) := (pre : ZMod (2 ^ p.value - 1)) + φ + hpre with hκ
  have hab' := hab.shift (ph : ZMod (2 ^ p.value - 1))
  obtain ⟨F, hF⟩ : ∃ F : ZMod (2 ^ p.value - 1) → ℝ, F = fun z => (∑ r, cascZ _ f h s κ r * uSeq p (onesSeed p) (z + r)
      - ∑ k ∈ range (d.length + 1), fbTaps 1 d k * (ga * (2 * uSeq p (onesSeed p) (z - k + (α + ph))
        + echoSign pnPre gray * uSeq p (onesSeed p) (z - k + (β + ph))))) ^ 2 := ⟨_, rfl⟩
  have hinj : Set.InjOn (fun i : ℕ => ((t0 + i : ℤ) : ZMod (2 ^ p.value - 1))) (range R : Finset ℕ) := by
    intro i hi j hj e
    rw [Finset.mem_coe, mem_range] at hi hj
    simp only [Int.cast_add, Int.cast_natCast, add_right_inj] at e
    exact natCast_inj_lt (by omega) (by omega) e
  have hen := mismatch_energy (uSeq p (onesSeed p)) (uSeq_corr p (onesSeed p) (by simp) (onesSeed_ne p)) (uSeq_sq p (onesSeed p))
    (cascZ _ f h s κ) (winZ _ κ (f.length + h.length - 1)) (cascZ_zero f h s κ) (fbTaps 1 d) rfl d.length ga (echoSign pnPre gray) (echoSign_cases _ _) (α + ph) (β + ph)
    (farApart p bi gray _ _ hab' _ hD) (winZ_echo p bi gray _ _ κ hab' _ (by omega)) ((range R).image fun i : ℕ => ((t0 + i : ℤ) : ZMod (2 ^ p.value - 1)))
  have e : ∑ i ∈ range R, (eqAt f d pre (fun t => chanOut h hpre x (t + φ)) (fun t => a (t + ph)) (t0 + i) - a (t0 + i + ph)) ^ 2
      = ∑ i ∈ range R, F ((t0 + i : ℤ) : ZMod (2 ^ p.value - 1)) := by
    refine sum_congr rfl fun i _ => ?_
    have := hout (t0 + i) 1
    rw [one_mul] at this
    rw [this, hF]
  rw [e, ← sum_image (f := F) hinj, hF]
  refine le_trans ?_ hen
  have hcard : ((range R).image fun i : ℕ => ((t0 + i : ℤ) : ZMod (2 ^ p.value - 1)))ᶜ.card = 2 ^ p.value - 1 - R := by
    rw [card_compl, ZMod.card, card_image_of_injOn hinj, card_range]
  rw [hcard, hN, hga]
  refine mul_le_mul_of_nonneg_right ?_ (sq_nonneg _)
  have hw : ((winZ (2 ^ p.value - 1) κ (f.length + h.length - 1)).card : ℝ) ≤ ((f.length + h.length - 1 : ℕ) : ℝ) := by
    exact_mod_cast winZ_card _ κ _
  have := mul_le_mul_of_nonneg_left hw (show (0 : ℝ) ≤ ((2 ^ p.value - 1 - R : ℕ) : ℝ) + 1 by positivity)
  linarith

/-- The bound cannot be raised to more than the energy of the smaller bit: one tap, `±2` levels, at the right phase reads the
larger bit, and what is missing is the smaller one. -/
theorem C105_mismatch_attained (p : PrbsEnum) (fs bi pnPre gray pnPost : Bool) (b : ℕ → ℤ)
    (hb : Spec.LfsrStream (getPolynomial p) (List.replicate p.value 1) b) (t0 : ℤ) (R : ℕ) :
    let x := periodic (2 ^ p.value - 1) (txLevel .nrz false false false false false b)
    let a := periodic (2 ^ p.value - 1) (txLevel .pam4 fs bi pnPre gray pnPost b)
    ∃ (g : ℝ) (φ : ℤ), ∑ i ∈ range R, (eqAt [g] [] 0 (fun t => chanOut [1] 0 x (t + φ)) a (t0 + i) - a (t0 + i)) ^ 2
      = R * unitScale .pam4 fs ^ 2 := by
  intro x a
  obtain ⟨g, α, β, hg, -, h⟩ := C105_four_levels p fs bi pnPre gray pnPost b hb
  refine ⟨2 * g, α, ?_⟩
  have hsi : echoSign pnPre gray ^ 2 = 1 := by rcases echoSign_cases pnPre gray with h | h <;> rw [h] <;> norm_num
  have hx : ∀ t, x t ^ 2 = 1 := by
    intro t
    have : x t = uSeq p (onesSeed p) (t : ZMod (2 ^ p.value - 1)) := by
      have h1 : x t = refZ p .nrz false false false false false (t : ZMod (2 ^ p.value - 1)) := level_refZ p .nrz _ _ _ _ _ b hb t
      rw [h1, refZ, uSeq]
      simp [txLevel, unitScale, flipBit]
    rw [this, sq, uSeq_sq]
  have hg2 : g ^ 2 = unitScale .pam4 fs ^ 2 := sq_eq_sq_iff_eq_or_eq_neg.2 hg
  have e : ∀ i ∈ range R, (eqAt [2 * g] [] 0 (fun t => chanOut [1] 0 x (t + α)) a (t0 + i) - a (t0 + i)) ^ 2 = unitScale .pam4 fs ^ 2 := by
    intro i _
    have h2 : a (t0 + i) = g * (2 * x (t0 + i + α) + echoSign pnPre gray * x (t0 + i + β)) := h _
    have h3 : eqAt [2 * g] [] 0 (fun t => chanOut [1] 0 x (t + α)) a (t0 + i) = 2 * g * x (t0 + i + α) := by
      simp [eqAt, chanOut]
    rw [h2, h3, show 2 * g * x (t0 + i + α) - g * (2 * x (t0 + i + α) + echoSign pnPre gray * x (t0 + i + β)) = -(g * (echoSign pnPre gray * x (t0 + i + β))) by ring,
      neg_sq, mul_pow, mul_pow, hx, hsi, mul_one, mul_one, hg2]
  rw [sum_congr rfl e, sum_const, card_range, nsmul_eq_mul]

/-- **C105**, symbol errors. The same link, decided with the four levels: however channel and taps are chosen, among the
decisions over one period there are wrong ones, at least one in about twice the number of taps of channel and equalizer. -/
theorem C105_errors (p : PrbsEnum) (fs' bi' pnPre' gray' pnPost' fs bi pnPre gray pnPost : Bool) (b : ℕ → ℤ)
    (hb : Spec.LfsrStream (getPolynomial p) (List.replicate p.value 1) b) (f d h : List ℝ) (pre hpre : ℕ) (φ ph : ℤ)
    (hW : f.length + h.length ≤ echo p bi gray + 1) (hD : d.length < echo p bi gray) (out : List ℝ) :
    let x := periodic (2 ^ p.value - 1) (txLevel .nrz fs' bi' pnPre' gray' pnPost' b)
    let a := periodic (2 ^ p.value - 1) (txLevel .pam4 fs bi pnPre gray pnPost b)
    slicer (.vec ((List.range (2 ^ p.value - 1)).map fun t : ℕ =>
        eqAt f d pre (fun t => chanOut h hpre x (t + φ)) (fun t => a (t + ph)) t)) (some (getLevels .pam4 fs)) = .ok (.vec out) →
    2 ^ p.value ≤ 2 * (f.length + h.length - 1 + 2 * (d.length + 1))
      * (((range (2 ^ p.value - 1)).filter fun t : ℕ => out[t]? ≠ some (a (t + ph))).card + 1) := by
  intro x a hsl
  obtain ⟨ga, α, β, hga, hab, hpam⟩ := refZ_pam4_shift p fs bi pnPre gray pnPost
  obtain ⟨s, hs, hnrz⟩ := refZ_nrz_form p fs' bi' pnPre' gray' pnPost'
  have hh := echo_half p bi gray
  have h127 := period_ge p
  have hN : ((2 ^ p.value - 1 : ℕ) : ℝ) + 1 = 2 ^ p.value := by
    rw [Nat.cast_sub Nat.one_le_two_pow]; push_cast; ring
  have hx : ∀ t : ℤ, x t = s * uSeq p (onesSeed p) (t : ZMod (2 ^ p.value - 1)) := fun t => by
    rw [← hnrz]; exact level_refZ p .nrz _ _ _ _ _ b hb t
  have ha : ∀ t : ℤ, a t = ga * (2 * uSeq p (onesSeed p) ((t : ZMod (2 ^ p.value - 1)) + α)
      + echoSign pnPre gray * uSeq p (onesSeed p) ((t : ZMod (2 ^ p.value - 1)) + β)) := fun t => by
    rw [← hpam]; exact level_refZ p .pam4 _ _ _ _ _ b hb t
  have hout := eqAt_cascade (uSeq p (onesSeed p)) s ga (echoSign pnPre gray) α β x a hx ha f d h pre hpre φ ph
  set κ : ZMod (2 ^ p.value - 1) := (pre : ZMod (2 ^ p.value - 1)) + φ + hpre with hκ
  have hab' := hab.shift (ph : ZMod (2 ^ p.value - 1))
  have hus := unitScale_pos .pam4 fs
  have hga0 : ga ≠ 0 := by
    rintro rfl
    have : (0 : ℝ) ^ 2 = 0 := by norm_num
    rw [this] at hga
    have := pow_pos hus 2
    linarith
  have hlv : getLevels .pam4 fs = [-3 * unitScale .pam4 fs, -1 * unitScale .pam4 fs, 1 * unitScale .pam4 fs, 3 * unitScale .pam4 fs] := by
    rw [getLevels_scale]; simp [intLevels]
  have hlne : getLevels .pam4 fs ≠ [] := by rw [hlv]; simp
  have hmem : ∀ v w : ℝ, (v = 1 ∨ v = -1) → (w = 1 ∨ w = -1) → ga * (2 * v + w) ∈ getLevels .pam4 fs := by
    intro v w hv hw
    rw [hlv]
    rcases sq_eq_sq_iff_eq_or_eq_neg.1 hga with hg | hg <;> rcases hv with rfl | rfl <;> rcases hw with rfl | rfl <;> rw [hg] <;>
      simp only [List.mem_cons, List.not_mem_nil, or_false]
    · exact Or.inr (Or.inr (Or.inr (by ring)))
    · exact Or.inr (Or.inr (Or.inl (by ring)))
    · exact Or.inr (Or.inl (by ring))
    · exact Or.inl (by ring)
    · exact Or.inl (by ring)
    · exact Or.inr (Or.inl (by ring))
    · exact Or.inr (Or.inr (Or.inl (by ring)))
    · exact Or.inr (Or.inr (Or.inr (by ring)))
  obtain ⟨y, hy⟩ : ∃ y : ZMod (2 ^ p.value - 1) → ℝ, y = fun z => ∑ r, cascZ _ f h s κ r * uSeq p (onesSeed p) (z + r)
      - ∑ k ∈ range (d.length + 1), fbTaps 0 d k * (ga * (2 * uSeq p (onesSeed p) (z - k + (α + ph))
        + echoSign pnPre gray * uSeq p (onesSeed p) (z - k + (β + ph)))) := ⟨_, rfl⟩
  have hyt : ∀ t : ℕ, eqAt f d pre (fun t => chanOut h hpre x (t + φ)) (fun t => a (t + ph)) t = y (t : ZMod (2 ^ p.value - 1)) := by
    intro t
    have := hout t 0
    rw [zero_mul, sub_zero, Int.cast_natCast] at this
    rw [this, hy]
  have hoe : out = (List.range (2 ^ p.value - 1)).map fun t : ℕ => sliceOne (getLevels .pam4 fs) (y (t : ZMod (2 ^ p.value - 1))) := by
    have : slicer (.vec ((List.range (2 ^ p.value - 1)).map fun t : ℕ =>
        eqAt f d pre (fun t => chanOut h hpre x (t + φ)) (fun t => a (t + ph)) t)) (some (getLevels .pam4 fs))
        = .ok (.vec ((List.range (2 ^ p.value - 1)).map fun t : ℕ => sliceOne (getLevels .pam4 fs) (y (t : ZMod (2 ^ p.value - 1))))) := by
      simp only [slicer, Option.getD_some, List.length_eq_zero_iff, hlne, if_false, List.map_map]
      congr 2
      apply List.map_congr_left
      intro t _
      simp only [Function.comp]
      rw [hyt]
    rw [this] at hsl
    cases hsl
    rfl
  obtain ⟨B, hB⟩ : ∃ B : Finset (ZMod (2 ^ p.value - 1)), B = ((range (2 ^ p.value - 1)).filter fun t : ℕ => out[t]? ≠ some (a (t + ph))).image
      fun t : ℕ => (t : ZMod (2 ^ p.value - 1)) := ⟨_, rfl⟩
  have hbc : B.card ≤ ((range (2 ^ p.value - 1)).filter fun t : ℕ => out[t]? ≠ some (a (t + ph))).card := by
    rw [hB]; exact card_image_le
  have herr := mismatch_errors (uSeq p (onesSeed p)) (uSeq_corr p (onesSeed p) (by simp) (onesSeed_ne p))
    (uSeq_sum p (onesSeed p) (by simp) (onesSeed_ne p)) (uSeq_sq p (onesSeed p))
    (cascZ _ f h s κ) (winZ _ κ (f.length + h.length - 1)) (cascZ_zero f h s κ) (fbTaps 0 d) rfl d.length ga (echoSign pnPre gray) hga0 (echoSign_cases _ _) (α + ph) (β + ph)
    (farApart p bi gray _ _ hab' _ hD) (winZ_echo p bi gray _ _ κ hab' _ (by omega)) y (fun z => by rw [hy]) (sliceOne (getLevels .pam4 fs))
    (fun x v w hv hw => sliceOne_le _ hlne x _ (hmem v w hv hw)) B (by
      intro z hz
      by_contra hne
      apply hz
      rw [hB, mem_image]
      refine ⟨z.val, mem_filter.2 ⟨mem_range.2 (ZMod.val_lt z), ?_⟩, ZMod.natCast_zmod_val z⟩
      rw [hoe, map_range_getElem?, if_pos (ZMod.val_lt z), ZMod.natCast_zmod_val, ha]
      intro e
      have e := Option.some.inj e
      apply hne
      rw [e, Int.cast_add, Int.cast_natCast, ZMod.natCast_zmod_val, add_assoc, add_assoc, add_comm (ph : ZMod (2 ^ p.value - 1)) α,
        add_comm (ph : ZMod (2 ^ p.value - 1)) β])
  rw [hN] at herr
  have hw : ((winZ (2 ^ p.value - 1) κ (f.length + h.length - 1)).card : ℝ) ≤ ((f.length + h.length - 1 : ℕ) : ℝ) := by
    exact_mod_cast winZ_card _ κ _
  have hbc' : (B.card : ℝ) ≤ ((((range (2 ^ p.value - 1)).filter fun t : ℕ => out[t]? ≠ some (a (t + ph))).card : ℕ) : ℝ) := by exact_mod_cast hbc
  have hfin : (2 : ℝ) ^ p.value ≤ 2 * (((f.length + h.length - 1 : ℕ) : ℝ) + 2 * (d.length + 1))
      * (((((range (2 ^ p.value - 1)).filter fun t : ℕ => out[t]? ≠ some (a (t + ph))).card : ℕ) : ℝ) + 1) := by
    refine herr.trans (mul_le_mul (by linarith) (by linarith) (by positivity) (by positivity))
  exact_mod_cast hfin

/-- The receiver of `rx_example2` (32 feed forward taps, one feedback tap, PRBS13) behind a channel of 20 taps: among the
8191 decisions of a period at least 74 are wrong, without any noise. -/
example (fs bi pnPre gray pnPost : Bool) (b : ℕ → ℤ) (hb : Spec.LfsrStream (getPolynomial .prbs13) (List.replicate 13 1) b)
    (f d h : List ℝ) (hf : f.length = 32) (hd : d.length = 1) (hh : h.length = 20) (pre hpre : ℕ) (φ ph : ℤ) (out : List ℝ)
    (hs : slicer (.vec ((List.range 8191).map fun t : ℕ => eqAt f d pre
        (fun t => chanOut h hpre (periodic 8191 (txLevel .nrz true false false false false b)) (t + φ))
        (fun t => periodic 8191 (txLevel .pam4 fs bi pnPre gray pnPost b) (t + ph)) t)) (some (getLevels .pam4 fs)) = .ok (.vec out)) :
    74 ≤ ((range 8191).filter fun t : ℕ => out[t]? ≠ some (periodic 8191 (txLevel .pam4 fs bi pnPre gray pnPost b) (t + ph))).card := by
  have h := C105_errors .prbs13 true false false false false fs bi pnPre gray pnPost b hb f d h pre hpre φ ph
    (by rw [hf, hh]; cases bi <;> cases gray <;> decide) (by rw [hd]; cases bi <;> cases gray <;> decide) out hs
  rw [hf, hd, hh] at h
  have e : PrbsEnum.prbs13.value = 13 := rfl
  rw [e] at h
  simp only [ne_eq] at h ⊢
  norm_num at h
  omega

/-! ### the reported error -/

theorem eqOutput_smul {K : Type} [Field K] (c : K) (f d : List K) (s a : ℕ → K) (n : ℕ) :
    eqOutput (f.map (c * ·)) (d.map (c * ·)) s a n = c * eqOutput f d s a n := by
  have h : ∀ (l : List K) (k : ℕ), (l.map (c * ·)).getD k 0 = c * l.getD k 0 := by
    intro l k
    rw [List.getD_eq_getElem?_getD, List.getD_eq_getElem?_getD, List.getElem?_map]
    cases l[k]? with
    | none => simp
    | some y => simp
  rw [eqOutput, eqOutput, List.length_map, List.length_map, mul_sub, mul_sum, mul_sum]
  congr 1
  · exact sum_congr rfl fun k _ => by rw [h, mul_assoc]
  · exact sum_congr rfl fun k _ => by rw [h, mul_assoc]

/-- **C58**, reported error. With a least squares solver the mean squares of error and equalizer output, whose ratio is the
reported error, add up to the mean square of the fitted symbols: the report divides by the power of the output, which is
smaller than that of the symbols by the error itself. -/
theorem C58_energy {K : Type} [Field K] [LinearOrder K] [IsStrictOrderedRing K] (ls : Solver K) (reference signal : List K)
    (post pre dfe R : ℕ) (reg : Reg) (lam : K) (hl : reference.length = signal.length) (hc : dfe + post + pre + 1 ≤ signal.length)
    (hR : R + (max post dfe + pre + 1) = signal.length) (hls : IsLs (solveWith ls reg lam) (post + pre + 1 + dfe)) :
    ∃ r, equalizationEstimation ls reference signal post pre dfe false reg lam = .ok r ∧
      r.mse.1 + r.mse.2 = (∑ i ∈ range R, reference.getD (dfe + i) 0 ^ 2) / R := by
  obtain ⟨r, hr, hfl, hdl, hmin⟩ := C58_optimal_mirrored ls reference signal post pre dfe R reg lam hl hc hR hls
  obtain ⟨A, b, hA, hb, hrow, hres, hret⟩ := C58_system ls reference signal post pre dfe R reg lam hl hc hR
  obtain ⟨x, hx, hxl, -⟩ := hls A b (by rw [hA, hb]) hrow
  have hsolve : ∃ e, eqSolve ls reg lam A b = .ok (x, e) := by
    rw [solveWith] at hx
    cases h : eqSolve ls reg lam A b with
    | error e => rw [h] at hx; cases hx
    | ok r => rw [h] at hx; cases hx; exact ⟨_, rfl⟩
  obtain ⟨e, he⟩ := hsolve
  obtain ⟨r', hr', -, -, -, -, hm1, hm2⟩ := hret x e he hxl
  rw [hr] at hr'
  cases hr'
  refine ⟨r, hr, ?_⟩
  rw [hm1, hm2, ← add_div]
  congr 1
  set v : ℕ → K := fun i => eqOutput r.ffe (r.dfe.getD []) (mirrored signal) (fun t => reference.getD t 0) (dfe + i) with hv
  set a : ℕ → K := fun i => reference.getD (dfe + i) 0 with hadef
  have hvar : ∀ c : K, ∑ i ∈ range R, (v i - a i) ^ 2 ≤ ∑ i ∈ range R, (c * v i - a i) ^ 2 := by
    intro c
    have := hmin (r.ffe.map (c * ·)) ((r.dfe.getD []).map (c * ·)) (by rw [List.length_map, hfl]) (by rw [List.length_map, hdl])
    simp only [eqOutput_smul] at this
    exact this
  obtain ⟨V, hV⟩ : ∃ V, V = ∑ i ∈ range R, v i ^ 2 := ⟨_, rfl⟩
  obtain ⟨C, hC⟩ : ∃ C, C = ∑ i ∈ range R, v i * a i := ⟨_, rfl⟩
  obtain ⟨P, hP⟩ : ∃ P, P = ∑ i ∈ range R, a i ^ 2 := ⟨_, rfl⟩
  have hexp : ∀ c : K, ∑ i ∈ range R, (c * v i - a i) ^ 2 = c ^ 2 * V - 2 * c * C + P := by
    intro c
    rw [hV, hC, hP, mul_sum, mul_sum, ← sum_sub_distrib, ← sum_add_distrib]
    exact sum_congr rfl fun i _ => by ring
  have h1 : ∑ i ∈ range R, (v i - a i) ^ 2 = V - 2 * C + P := by
    have := hexp 1
    simp only [one_mul, one_pow, mul_one] at this
    exact this
  have hVC : V = C := by
    have hV0 : 0 ≤ V := by rw [hV]; exact sum_nonneg fun _ _ => sq_nonneg _
    rcases hV0.eq_or_lt with h0 | h0
    · have hz : ∀ i ∈ range R, v i = 0 := by
        intro i hi
        rw [hV] at h0
        exact (pow_eq_zero_iff two_ne_zero).1 ((sum_eq_zero_iff_of_nonneg fun _ _ => sq_nonneg _).1 h0.symm i hi)
      rw [← h0, hC]
      exact (sum_eq_zero fun i hi => by rw [hz i hi, zero_mul]).symm
    · have h2 := hvar (C / V)
      rw [h1, hexp] at h2
      have h3 : (C / V) ^ 2 * V - 2 * (C / V) * C + P = P - C ^ 2 / V := by field_simp; ring
      rw [h3] at h2
      have h4 : C ^ 2 / V * V = C ^ 2 := by field_simp
      have h5 : (V - C) ^ 2 ≤ 0 := by nlinarith
      have h6 := le_antisymm h5 (sq_nonneg _)
      exact sub_eq_zero.1 ((pow_eq_zero_iff two_ne_zero).1 h6)
  show ∑ i ∈ range R, (v i - a i) ^ 2 + ∑ i ∈ range R, v i ^ 2 = ∑ i ∈ range R, a i ^ 2
  rw [h1, ← hV, ← hP, hVC]
  ring

/-- **C105**, the estimated equalizer. `equalization_estimation_prbs` with the four-level reference on a noiseless capture of
the two-level pattern behind an FIR channel `h`: whatever the channel and the phase, the mean square of the error is at least
`K / R` of the squared level unit, and the reported ratio of error to output is at least `K / (5 N - 4 - K)`, where
`K = N + 1 - (F + 1) (F + L - 1 + 2 (dfe + 1))` for `F` feed forward and `L` channel taps. For a long period this is about
one quarter, -6 dB. -/
theorem C105_estimated (ls : Solver ℝ) (p : PrbsEnum) (fs' bi' pnPre' gray' pnPost' fs bi pnPre gray pnPost : Bool) (reg : Reg) (lam : ℝ)
    (b : ℕ → ℤ) (hb : Spec.LfsrStream (getPolynomial p) (List.replicate p.value 1) b) (post pre dfe R : ℕ)
    (hd : dfe ≤ post) (hd1 : dfe ≤ 1) (hR : R + (post + pre + 1) = 2 ^ p.value - 1)
    (h : List ℝ) (hpre : ℕ) (hW : post + pre + 1 + h.length ≤ echo p bi gray + 1) (φ : ℤ)
    (signal : List ℝ) (hlen : 2 ^ p.value - 1 ≤ signal.length)
    (hs : ∀ t < signal.length, signal.getD t 0
      = chanOut h hpre (periodic (2 ^ p.value - 1) (txLevel .nrz fs' bi' pnPre' gray' pnPost' b)) (t + φ))
    (hls : IsLs (solveWith ls reg lam) (post + pre + 1 + dfe)) :
    let K : ℝ := 2 ^ p.value - ((post + pre + 1 : ℕ) + 1) * ((post + pre + h.length : ℕ) + 2 * (dfe + 1))
    ∃ r : EqEst ℝ, equalizationEstimationPrbs ls p signal .pam4 post pre dfe false reg lam fs bi pnPre gray pnPost = .ok r ∧
      K * unitScale .pam4 fs ^ 2 ≤ R * r.mse.1 ∧
      K * r.mse.2 ≤ (5 * 2 ^ p.value - (5 + 4 * echoSign pnPre gray) - K) * r.mse.1 := by
  intro K
  have hh := echo_half p bi gray
  have h127 := period_ge p
  have hmx : max post dfe = post := max_eq_left hd
  obtain ⟨x, hxd⟩ : ∃ x, x = periodic (2 ^ p.value - 1) (txLevel .nrz fs' bi' pnPre' gray' pnPost' b) := ⟨_, rfl⟩
  obtain ⟨a, had⟩ : ∃ a, a = periodic (2 ^ p.value - 1) (txLevel .pam4 fs bi pnPre gray pnPost b) := ⟨_, rfl⟩
  rw [← hxd] at hs
  obtain ⟨ph, -, h2⟩ := C69_system ls p .pam4 (by decide) fs bi pnPre gray pnPost false reg lam b hb post pre dfe
    (by omega) signal hlen
  rw [hmx, ← had] at h2
  obtain ⟨m, hmd⟩ : ∃ m, m = periodAvg (2 ^ p.value - 1) (signal.length / (2 ^ p.value - 1)) (fun t => signal.getD t 0) := ⟨_, rfl⟩
  rw [← hmd] at h2
  obtain ⟨rf, hrf⟩ : ∃ rf, rf = (List.range (2 ^ p.value - 1)).map (fun n : ℕ => a ((n + post : ℕ) + ph)) := ⟨_, rfl⟩
  obtain ⟨sg, hsg⟩ : ∃ sg, sg = (List.range (2 ^ p.value - 1)).map m := ⟨_, rfl⟩
  rw [← hrf, ← hsg] at h2
  have hrl : rf.length = 2 ^ p.value - 1 := by rw [hrf]; simp
  have hsl : sg.length = 2 ^ p.value - 1 := by rw [hsg]; simp
  obtain ⟨r, hr, hen⟩ := C58_energy ls rf sg post pre dfe R reg lam (by omega) (by omega) (by omega) hls
  obtain ⟨r0, hr0, hfl, hdl, -⟩ := C58_optimal_mirrored ls rf sg post pre dfe R reg lam (by omega) (by omega) (by omega) hls
  rw [hr] at hr0
  cases hr0
  obtain ⟨A, b', hA, hb', hrow, hres, hret⟩ := C58_system ls rf sg post pre dfe R reg lam (by omega) (by omega) (by omega)
  obtain ⟨w, hw, hwl, -⟩ := hls A b' (by rw [hA, hb']) hrow
  have hsolve : ∃ e, eqSolve ls reg lam A b' = .ok (w, e) := by
    rw [solveWith] at hw
    cases h : eqSolve ls reg lam A b' with
    | error e => rw [h] at hw; cases hw
    | ok r => rw [h] at hw; cases hw; exact ⟨_, rfl⟩
  obtain ⟨e, he⟩ := hsolve
  obtain ⟨r', hr', -, -, -, -, hm1, hm2⟩ := hret w e he hwl
  rw [hr] at hr'
  cases hr'
  have hxa : ∀ t : ℤ, x t = refZ p .nrz fs' bi' pnPre' gray' pnPost' (t : ZMod (2 ^ p.value - 1)) := by
    intro t; rw [hxd]; exact level_refZ p .nrz _ _ _ _ _ b hb t
  have hper : ∀ (t k : ℤ), chanOut h hpre x (t + k * (2 ^ p.value - 1 : ℕ)) = chanOut h hpre x t := by
    intro t k
    rw [chanOut_zmod h hpre x _ hxa, chanOut_zmod h hpre x _ hxa]
    refine sum_congr rfl fun z _ => ?_
    rw [Int.cast_add, Int.cast_mul, Int.cast_natCast, ZMod.natCast_self, mul_zero, add_zero]
  have hms := periodic_avg (by omega) (chanOut h hpre x) hper φ signal hlen hs
  rw [← hmd] at hms
  have hout : ∀ i ∈ range R, eqOutput r.ffe (r.dfe.getD []) (mirrored sg) (fun t => rf.getD t 0) (dfe + i)
      = eqAt r.ffe (r.dfe.getD []) pre (fun t => chanOut h hpre x (t + φ)) (fun t => a (t + ph)) ((post + dfe : ℕ) + i) := by
    intro i hi
    rw [mem_range] at hi
    have h1 : eqOutput r.ffe (r.dfe.getD []) (mirrored sg) (fun t => rf.getD t 0) (dfe + i)
        = eqOutput r.ffe (r.dfe.getD []) (fun t => sg.getD t 0) (fun t => rf.getD t 0) (dfe + i) := by
      refine eqOutput_congr _ _ _ _ _ _ fun t ht => ?_
      rw [mirrored, if_pos (by omega)]
    rw [h1, hrf, hsg, eqOutput_eqAt r.ffe (r.dfe.getD []) (2 ^ p.value - 1) post pre dfe i hfl hdl (by omega) m (fun t => a (t + ph))]
    have h3 : periodic (2 ^ p.value - 1) m = fun t => chanOut h hpre x (t + φ) := funext hms
    rw [h3]
    congr 1
  have htgt : ∀ i ∈ range R, rf.getD (dfe + i) 0 = a ((post + dfe : ℕ) + i + ph) := by
    intro i hi
    rw [mem_range] at hi
    rw [hrf, map_range_getD _ _ _ _ (by omega)]
    congr 1
    push_cast
    ring
  have hmis := C105_mismatch p fs' bi' pnPre' gray' pnPost' fs bi pnPre gray pnPost b hb r.ffe (r.dfe.getD []) h pre hpre φ ph
    ((post + dfe : ℕ) : ℤ) R (by omega) (by rw [hfl]; omega) (by rw [hdl]; have := echo_three p bi gray; omega)
  simp only at hmis
  rw [← hxd, ← had, hfl, hdl, show 2 ^ p.value - 1 - R = post + pre + 1 by omega,
    show post + pre + 1 + h.length - 1 = post + pre + h.length by omega] at hmis
  have hR0 : (0 : ℝ) < R := by
    have : 0 < R := by omega
    exact_mod_cast this
  have hE : (R : ℝ) * r.mse.1 = ∑ i ∈ range R, (eqAt r.ffe (r.dfe.getD []) pre (fun t => chanOut h hpre x (t + φ)) (fun t => a (t + ph))
      ((post + dfe : ℕ) + i) - a ((post + dfe : ℕ) + i + ph)) ^ 2 := by
    rw [hm1, mul_div_cancel₀ _ hR0.ne']
    exact sum_congr rfl fun i hi => by rw [hout i hi, htgt i hi]
  have hK : K * unitScale .pam4 fs ^ 2 ≤ R * r.mse.1 := by rw [hE]; exact hmis
  -- the energy of the symbols
  have hsum : (R : ℝ) * (r.mse.1 + r.mse.2) ≤ (5 * 2 ^ p.value - (5 + 4 * echoSign pnPre gray)) * unitScale .pam4 fs ^ 2 := by
    rw [hen, mul_div_cancel₀ _ hR0.ne', sum_congr rfl fun i hi => by rw [htgt i hi]]
    have hau := C105_autocorrelation p fs bi pnPre gray pnPost b hb 0
    simp only [add_zero] at hau
    rw [← had, if_pos (dvd_zero _), if_neg, if_neg] at hau
    · have hle : ∑ i ∈ range R, a ((post + dfe : ℕ) + i + ph) ^ 2 ≤ ∑ t ∈ range (2 ^ p.value - 1), a t * a t := by
        have haz : ∀ t : ℤ, a t = refZ p .pam4 fs bi pnPre gray pnPost (t : ZMod (2 ^ p.value - 1)) := by
          intro t; rw [had]; exact level_refZ p .pam4 _ _ _ _ _ b hb t
        have hinj : Set.InjOn (fun i : ℕ => (((post + dfe : ℕ) + i + ph : ℤ) : ZMod (2 ^ p.value - 1))) (range R : Finset ℕ) := by
          intro i hi j hj e
          rw [Finset.mem_coe, mem_range] at hi hj
          simp only [Int.cast_add, Int.cast_natCast, add_right_inj, add_left_inj] at e
          exact natCast_inj_lt (by omega) (by omega) e
        have e1 : ∑ t ∈ range (2 ^ p.value - 1), a t * a t = ∑ z, refZ p .pam4 fs bi pnPre gray pnPost z ^ 2 := by
          rw [← zmod_sum_cast]
          exact sum_congr rfl fun t _ => by rw [haz, sq, Int.cast_natCast]
        rw [e1, sum_congr rfl fun i _ => by rw [haz], ← sum_image (f := fun z => refZ p .pam4 fs bi pnPre gray pnPost z ^ 2) hinj]
        exact sum_le_sum_of_subset_of_nonneg (subset_univ _) fun _ _ _ => sq_nonneg _
      refine hle.trans (le_of_eq ?_)
      rw [hau]; ring
    · rw [zero_add]
      intro hdv
      have := Int.le_of_dvd (by omega) hdv
      omega
    · rw [zero_sub, dvd_neg]
      intro hdv
      have := Int.le_of_dvd (by omega) hdv
      omega
  refine ⟨r, by rw [h2]; exact hr, hK, ?_⟩
  have hm10 : 0 ≤ r.mse.1 := by rw [hm1]; exact div_nonneg (sum_nonneg fun _ _ => sq_nonneg _) hR0.le
  have hm20 : 0 ≤ r.mse.2 := by rw [hm2]; exact div_nonneg (sum_nonneg fun _ _ => sq_nonneg _) hR0.le
  have hpow : (128 : ℝ) ≤ 2 ^ p.value := by
    have : 128 ≤ 2 ^ p.value := by omega
    exact_mod_cast this
  have hsi : echoSign pnPre gray ≤ 1 := by rcases echoSign_cases pnPre gray with h | h <;> rw [h] <;> norm_num
  have hus := unitScale_pos .pam4 fs
  have hu2 : 0 < unitScale .pam4 fs ^ 2 := by positivity
  -- `K (E + O) ≤ K (5 N - 4) u² / R ≤ (5 N - 4) E`
  have main : K * (r.mse.1 + r.mse.2) ≤ (5 * 2 ^ p.value - (5 + 4 * echoSign pnPre gray)) * r.mse.1 := by
    rcases le_total K 0 with hk | hk
    · exact (mul_nonpos_of_nonpos_of_nonneg hk (by linarith)).trans (mul_nonneg (by linarith) hm10)
    · have h6 := mul_le_mul_of_nonneg_left hsum hk
      have h7 := mul_le_mul_of_nonneg_left hK (show (0 : ℝ) ≤ 5 * 2 ^ p.value - (5 + 4 * echoSign pnPre gray) by linarith)
      have h8 : R * (K * (r.mse.1 + r.mse.2)) ≤ R * ((5 * 2 ^ p.value - (5 + 4 * echoSign pnPre gray)) * r.mse.1) := by linarith
      exact le_of_mul_le_mul_left h8 hR0
  linarith

/-- The settings of `rx_example2` for a channel of 20 taps: the reported error is not below 6377/34574, which is -7.4 dB; there is
a least squares solver, and the capture of 9191 samples exists. -/
example (b : ℕ → ℤ) (hb : Spec.LfsrStream (getPolynomial .prbs13) (List.replicate 13 1) b) (h : List ℝ) (hh : h.length = 20) (φ : ℤ) :
    ∃ ls : Solver ℝ, ∃ r, equalizationEstimationPrbs ls .prbs13 ((List.range 9191).map fun t : ℕ =>
        chanOut h 0 (periodic 8191 (txLevel .nrz true false false false false b)) (t + φ)) .pam4 27 4 1 false .none 0 true false false
        false false = .ok r ∧ 6377 * r.mse.2 ≤ 34574 * r.mse.1 := by
  obtain ⟨ls, hls⟩ := C58_solver (K := ℝ) 33
  refine ⟨ls, ?_⟩
  have e : PrbsEnum.prbs13.value = 13 := rfl
  obtain ⟨r, h1, -, h3⟩ := C105_estimated ls .prbs13 true false false false false true false false false false .none 0 b hb 27 4 1 8159
    (by decide) (by decide) (by decide) h 0 (by rw [hh]; decide) φ ((List.range 9191).map fun t : ℕ =>
        chanOut h 0 (periodic 8191 (txLevel .nrz true false false false false b)) (t + φ)) (by rw [List.length_map, List.length_range]; decide)
    (fun t ht => by rw [List.length_map, List.length_range] at ht; rw [map_range_getD _ _ _ _ ht]; rfl) hls
  refine ⟨r, h1, ?_⟩
  rw [hh, e] at h3
  norm_num [echoSign] at h3
  linarith

end Verif
