import Verif.Model.ChannelScripts
import Verif.Props.Delay
import Verif.Props.Pulse
import Verif.Props.Eye

/-!
# C110 The arrays of the channel scripts

test/example_scripts/channel_reconstruction.py cannot complete on the data it loads: the segment of the original channel is
one sample longer than the interpolated ones. The branch `pulse_show` of `channel_example` plots pairs of arrays of
different lengths. The eye diagrams fit their axes.
-/

open Finset

namespace Verif

theorem scripts_ok_bind {α β : Type} (a : α) (f : α → Py β) : ((Except.ok a : Py α) >>= f) = f a := rfl

theorem npSub_eq {K : Type*} [Sub K] (a b : List K) (h : a.length = b.length) : npSub a b = .ok (List.zipWith (· - ·) a b) := by
  unfold npSub; rw [if_pos h]

theorem npSub_error {K : Type*} [Sub K] (a b : List K) (h : a.length ≠ b.length) (ha : a.length ≠ 1) (hb : b.length ≠ 1) :
    npSub a b = .error .valueError := by
  unfold npSub
  rw [if_neg h]
  split
  · simp at ha
  · simp at hb
  · rfl

theorem sincCoeffs_length (n : ℕ) (a : ℝ) : (sincCoeffs n a true).length = n + 1 := by
  unfold sincCoeffs getIndices arangeZ
  split <;> simp <;> omega

theorem rcosCoeffs_length (n : ℕ) (a beta : ℝ) : (rcosCoeffs n a true beta).length = n + 1 := by
  unfold rcosCoeffs getIndices arangeZ
  split <;> simp <;> omega

/-- **C110.** The raised cosine coefficients of the script (roll-off 1/2, delays that are fractions of a symbol) are finite. -/
theorem C110_rcos_finite (n k osr : ℕ) (h0 : 0 < k) (hk : k < osr) :
    ∀ c ∈ rcosCoeffs n ((k : ℝ) / osr) true (1 / 2), c ≠ none := by
  intro c hc
  unfold rcosCoeffs at hc
  obtain ⟨i, -, rfl⟩ := List.mem_map.1 hc
  have ho : (0 : ℝ) < osr := by exact_mod_cast (by omega : 0 < osr)
  dsimp only
  rw [if_neg]
  · exact Option.some_ne_none _
  · intro h
    have h1 : ((i : ℝ) - k / osr) = 1 ∨ ((i : ℝ) - k / osr) = -1 := by
      have : ((i : ℝ) - k / osr - 1) * ((i : ℝ) - k / osr + 1) = 0 := by linear_combination -h
      rcases mul_eq_zero.1 this with h | h
      · left; linarith
      · right; linarith
    have h2 : ((k : ℝ) / osr) * osr = k := div_mul_cancel₀ _ ho.ne'
    have h3 : ∃ z : ℤ, (k : ℝ) / osr = z := by
      rcases h1 with h1 | h1
      · exact ⟨i - 1, by push_cast; linarith⟩
      · exact ⟨i + 1, by push_cast; linarith⟩
    obtain ⟨z, hz⟩ := h3
    rw [hz] at h2
    have h4 : z * (osr : ℤ) = k := by exact_mod_cast h2
    rcases le_or_gt z 0 with hz0 | hz0
    · nlinarith
    · nlinarith

/-- what the script computes before the comparison -/
theorem reconstruction_run (beta : ℝ) (channel ui sampled : List ℝ) (osr : ℕ) (ho : 0 < osr) (hs : 16 ≤ sampled.length)
    (hui : ui.length = channel.length) :
    ∃ lag sinc rcos, lag.length = (sampled.length - 16) * osr ∧ sinc.length = (sampled.length - 16) * osr ∧
      rcos.length = (sampled.length - 16) * osr ∧
      (∃ x2 x1, digitalOversample (fun a => getDdCoeffs "lagrange" 16 a true) sampled osr 16 = .ok (lag, x2, x1)) ∧
      channelReconstruction 16 beta channel ui sampled osr = (do
        let s ← errorPowers (reconstructionSegment channel 16 osr) sinc
        let l ← errorPowers (reconstructionSegment channel 16 osr) lag
        let r ← errorPowers (reconstructionSegment channel 16 osr) rcos
        return [s, l, r]) := by
  obtain ⟨lag, x2, x1, e1, l1, -, l2, -, l3⟩ := digitalOversample_eq (fun a => getDdCoeffs "lagrange" 16 a true)
    (fun a => match getDdCoeffs "lagrange" 16 a true with | .ok c => c | .error _ => []) sampled osr 16
    (fun k h0 h1 => by
      obtain ⟨c, e, hl, -⟩ := C52_reproduces_partial wrap64 16 (Or.inr ⟨rfl, by norm_num⟩) (by norm_num) ((k : ℝ) / osr) true
      have e' : getDdCoeffs "lagrange" 16 ((k : ℝ) / osr) true = .ok c := by
        unfold getDdCoeffs; rw [if_neg (by decide), if_pos rfl]; exact e
      simp only [e']
      exact ⟨trivial, hl⟩) ho (by omega) hs
  obtain ⟨sinc, y2, y1, e2, m1, -⟩ := C53_samples (fun a => getDdCoeffs "sinc" 16 a true) sampled osr 16
    (fun k _ _ => ⟨_, rfl, sincCoeffs_length _ _⟩) ho (by omega) hs
  obtain ⟨rcos, z2, z1, e3, n1, -⟩ := C53_samples (rcosFilled 16 beta) sampled osr 16
    (fun k _ _ => ⟨_, rfl, by rw [List.length_map]; exact rcosCoeffs_length _ _ _⟩) ho (by omega) hs
  refine ⟨lag, sinc, rcos, l1, m1, n1, ⟨x2, x1, e1⟩, ?_⟩
  unfold channelReconstruction
  have p1 : pltPlot (ui.map (fun u => u - ((16 / 2 : ℕ) : ℝ))) channel = .ok () := if_pos (by rw [List.length_map, hui])
  have p2 : pltPlot x2 sinc = .ok () := if_pos (by rw [l2, l1, m1])
  have p3 : pltPlot x2 lag = .ok () := if_pos l2
  have p4 : pltPlot x2 rcos = .ok () := if_pos (by rw [l2, l1, n1])
  have p5 : pltPlot x1 ((sampled.drop (16 / 2)).take (sampled.length - 16 / 2 - (16 / 2 - 1))) = .ok () := by
    refine if_pos ?_
    rw [l3, List.length_map, List.length_range, List.length_take, List.length_drop]
    omega
  simp only [e1, e2, e3, p1, p2, p3, p4, p5, scripts_ok_bind]

theorem segment_length (channel : List ℝ) (osr : ℕ) (ho : 0 < osr) (hl : 15 * osr ≤ channel.length) :
    (reconstructionSegment channel 16 osr).length = channel.length + 1 - 15 * osr := by
  unfold reconstructionSegment
  rw [List.length_take, List.length_drop]
  norm_num
  omega

/-- **C110, negative.** The data are a channel with `osr` samples per symbol and its samples at all symbols (the last one at
the end of the channel: 6368 = 199 * 32 samples and 200 symbols). The segment of the channel taken for the comparison has
one sample more than the interpolated channels, so that the script raises ValueError whatever the values are. -/
theorem C110_negative_reconstruction (beta : ℝ) (channel ui sampled : List ℝ) (osr : ℕ) (ho : 2 ≤ osr) (hs : 17 ≤ sampled.length)
    (hui : ui.length = channel.length) (hch : channel.length = (sampled.length - 1) * osr) :
    channelReconstruction 16 beta channel ui sampled osr = .error .valueError := by
  obtain ⟨lag, sinc, rcos, h1, h2, h3, -, e⟩ := reconstruction_run beta channel ui sampled osr (by omega) (by omega) hui
  obtain ⟨m, hm⟩ : ∃ m, sampled.length = m + 17 := ⟨sampled.length - 17, by omega⟩
  have hl : channel.length = m * osr + 16 * osr := by rw [hch, hm, show m + 17 - 1 = m + 16 by omega, add_mul]
  have hseg := segment_length channel osr (by omega) (by omega)
  have h2' : sinc.length = m * osr + osr := by rw [h2, hm, show m + 17 - 16 = m + 1 by omega, add_mul, one_mul]
  rw [e]
  have : errorPowers (reconstructionSegment channel 16 osr) sinc = .error .valueError := by
    unfold errorPowers
    rw [npSub_error _ _ (by omega) (by omega) (by omega)]
    rfl
  rw [this]
  rfl

/-- **C110.** The script completes, for other data, exactly when the channel is one sample shorter. -/
theorem C110_reconstruction_completes (beta : ℝ) (channel ui sampled : List ℝ) (osr : ℕ) (ho : 2 ≤ osr) (hs : 17 ≤ sampled.length)
    (hui : ui.length = channel.length) (hch : 15 * osr + 1 ≤ channel.length) :
    (∃ r, channelReconstruction 16 beta channel ui sampled osr = .ok r) ↔ channel.length + 1 = (sampled.length - 1) * osr := by
  obtain ⟨lag, sinc, rcos, h1, h2, h3, -, e⟩ := reconstruction_run beta channel ui sampled osr (by omega) (by omega) hui
  obtain ⟨m, hm⟩ : ∃ m, sampled.length = m + 17 := ⟨sampled.length - 17, by omega⟩
  have hseg := segment_length channel osr (by omega) (by omega)
  have hlen : (sampled.length - 16) * osr = m * osr + osr := by rw [hm, show m + 17 - 16 = m + 1 by omega, add_mul, one_mul]
  have hlen' : (sampled.length - 1) * osr = m * osr + 16 * osr := by rw [hm, show m + 17 - 1 = m + 16 by omega, add_mul]
  rw [hlen] at h1 h2 h3
  rw [e, hlen']
  constructor
  · rintro ⟨r, hr⟩
    by_contra hne
    have : errorPowers (reconstructionSegment channel 16 osr) sinc = .error .valueError := by
      unfold errorPowers
      rw [npSub_error _ _ (by omega) (by omega) (by omega)]
      rfl
    rw [this] at hr
    cases hr
  · intro h
    have hok : ∀ u : List ℝ, u.length = m * osr + osr → errorPowers (reconstructionSegment channel 16 osr) u
        = .ok (meanSquareOf (List.zipWith (· - ·) (reconstructionSegment channel 16 osr) u),
          meanSquareOf (reconstructionSegment channel 16 osr)) := by
      intro u hu
      unfold errorPowers
      rw [npSub_eq _ _ (by omega)]
      rfl
    rw [hok _ h1, hok _ h2, hok _ h3]
    exact ⟨_, rfl⟩

/-- **C110.** What the comparison is meant to show: with the surplus sample left out, the interpolated channels agree with
the channel at all symbols, and the Lagrange interpolation agrees everywhere if the channel is a polynomial of degree at
most 16. -/
theorem C110_reconstruction_partial (channel sampled : List ℝ) (osr : ℕ) (ho : 0 < osr) (hs : 17 ≤ sampled.length)
    (hch : channel.length = (sampled.length - 1) * osr)
    (hsm : ∀ k < sampled.length - 1, sampled.getD k 0 = channel.getD (k * osr) 0) :
    (∀ method, method = "sinc" ∨ method = "lagrange" → ∃ t x2 x1,
      digitalOversample (fun a => getDdCoeffs method 16 a true) sampled osr 16 = .ok (t, x2, x1) ∧
      t.length + 1 = (reconstructionSegment channel 16 osr).length ∧
      ∀ r < sampled.length - 16, t.getD (r * osr) 0 = (reconstructionSegment channel 16 osr).getD (r * osr) 0) ∧
    ∀ f : Polynomial ℝ, f.natDegree ≤ 16 → (∀ n < channel.length, channel.getD n 0 = f.eval ((n : ℝ) / osr)) →
      sampled.getD (sampled.length - 1) 0 = f.eval ((sampled.length - 1 : ℕ) : ℝ) →
      ∃ t x2 x1, digitalOversample (fun a => getDdCoeffs "lagrange" 16 a true) sampled osr 16 = .ok (t, x2, x1) ∧
        t = (reconstructionSegment channel 16 osr).dropLast := by
  obtain ⟨m, hm⟩ : ∃ m, sampled.length = m + 17 := ⟨sampled.length - 17, by omega⟩
  have hl : channel.length = m * osr + 16 * osr := by rw [hch, hm, show m + 17 - 1 = m + 16 by omega, add_mul]
  have hseg := segment_length channel osr ho (by omega)
  have hlen : (sampled.length - 16) * osr = m * osr + osr := by rw [hm, show m + 17 - 16 = m + 1 by omega, add_mul, one_mul]
  have hget : ∀ n, n < m * osr + osr + 1 → (reconstructionSegment channel 16 osr).getD n 0 = channel.getD (8 * osr + n) 0 := by
    intro n hn
    unfold reconstructionSegment
    rw [take_getD 0 _ _ _ (by norm_num; omega), drop_getD]
  have hcoef : ∀ method, method = "sinc" ∨ method = "lagrange" → ∀ k : ℕ, 0 < k → k < osr →
      ∃ c, getDdCoeffs method 16 ((k : ℝ) / osr) true = .ok c ∧ c.length = 16 + 1 := by
    rintro method (rfl | rfl) k h0 hk
    · exact ⟨_, rfl, sincCoeffs_length _ _⟩
    · obtain ⟨c, e, hl, -⟩ := C52_reproduces_partial wrap64 16 (Or.inr ⟨rfl, by norm_num⟩) (by norm_num) ((k : ℝ) / osr) true
      exact ⟨c, by unfold getDdCoeffs; rw [if_neg (by decide), if_pos rfl]; exact e, hl⟩
  constructor
  · intro method hmeth
    obtain ⟨t, x2, x1, e, h1, h2, -⟩ := C53_samples (fun a => getDdCoeffs method 16 a true) sampled osr 16 (hcoef method hmeth) ho
      (by omega) (by omega)
    refine ⟨t, x2, x1, e, by rw [h1, hlen, hseg, hl]; omega, fun r hr => ?_⟩
    have hro : r * osr ≤ m * osr := Nat.mul_le_mul_right _ (by omega)
    rw [h2 r hr, hget _ (by omega), show 16 / 2 = 8 from rfl, hsm _ (by omega), add_mul]
  · intro f hf hfc hlast
    obtain ⟨t, x2, x1, e, h1, h2⟩ := C53_polynomial_partial wrap64 osr 16 (Or.inr ⟨rfl, by norm_num⟩) (by norm_num) ho sampled (by omega) f hf
      (fun k hk => by
        rcases Nat.lt_or_ge k (sampled.length - 1) with h | h
        · rw [hsm k h, hfc _ (by
            rw [hch]; exact Nat.mul_lt_mul_of_pos_right h ho)]
          congr 1
          push_cast
          rw [mul_div_assoc, div_self (by exact_mod_cast ho.ne'), mul_one]
        · rw [show k = sampled.length - 1 by omega]; exact hlast)
    refine ⟨t, x2, x1, e, ?_⟩
    refine ext_getD 0 (by rw [List.length_dropLast, h1, hlen, hseg, hl]; omega) fun n hn => ?_
    have hn' : n < m * osr + osr := by rw [h1, hlen] at hn; exact hn
    have hd : (reconstructionSegment channel 16 osr).dropLast.getD n 0 = (reconstructionSegment channel 16 osr).getD n 0 := by
      rw [List.dropLast_eq_take, take_getD 0 _ _ _ (by rw [hseg, hl]; omega)]
    rw [hd, hget n (by omega), hfc _ (by omega)]
    have hdm := Nat.div_add_mod n osr
    have hr : n / osr < sampled.length - 16 := by
      rw [Nat.div_lt_iff_lt_mul ho, hlen]; exact hn'
    have hk := Nat.mod_lt n ho
    have := h2 (n / osr) (n % osr) hr hk
    rw [mul_comm, hdm] at this
    rw [this]
    congr 1
    have hne : (osr : ℝ) ≠ 0 := by exact_mod_cast ho.ne'
    have hc : (n : ℝ) = osr * ((n / osr : ℕ) : ℝ) + ((n % osr : ℕ) : ℝ) := by exact_mod_cast hdm.symm
    push_cast
    rw [hc]
    field_simp
    ring

/-- **C110, negative.** The branch `pulse_show` of `channel_example` (osr 32, span 8, roll-off 0.9) raises ValueError for
every pattern: the signal has a multiple of 32 samples, the memory plotted with it 511. -/
theorem C110_negative_pulse_show (pattern : List ℝ) (hp : 0 < pattern.length) :
    pulseShow pattern 32 8 (9 / 10) = .error .valueError := by
  have hok : ∀ (name : String) (β : ℝ), (name = "rect" ∨ name = "sinc" ∨ ((name = "rcos" ∨ name = "rrc") ∧ β ≠ 0)) →
      ∃ s, pulseShape pattern 32 8 name β none = .ok s := by
    intro name β hn
    obtain ⟨ys, zo, -, h2, -⟩ := C50_chunks 32 8 name β (by norm_num) (by norm_num) hn none (by simp) [pattern] (by simp)
      (by simpa using hp)
    rw [List.flatten_singleton] at h2
    exact ⟨_, h2⟩
  obtain ⟨y, z, e1, hy, hz, -⟩ := C50_superposition pattern 32 8 "rect" (1 / 2) Spec.rectFn (Or.inl ⟨rfl, rfl⟩) (by norm_num)
    (by norm_num) hp
  obtain ⟨s2, e2⟩ := hok "sinc" (1 / 2) (Or.inr (Or.inl rfl))
  obtain ⟨s3, e3⟩ := hok "rcos" (9 / 10) (Or.inr (Or.inr ⟨Or.inl rfl, by norm_num⟩))
  obtain ⟨s4, e4⟩ := hok "rrc" (9 / 10) (Or.inr (Or.inr ⟨Or.inr rfl, by norm_num⟩))
  unfold pulseShow
  rw [e1, e2, e3, e4]
  simp only [scripts_ok_bind]
  have : pltPlotPair ((List.range y.length).map (fun k : ℕ => (k : ℝ) / (32 : ℕ))) y z = .error .valueError := by
    unfold pltPlotPair
    rw [if_pos]
    rw [hy, hz]
    omega
  rw [this]
  rfl

/-- **C110.** The eye diagrams of the script fit their axes: for every signal of whole symbols at osr 32 the diagram at osr
128 with 1024 amplitudes is accepted by `contourf` over 256 times. -/
theorem C110_eye_plot (x : List ℝ) (fs : ℝ) (hd : x.length % 32 = 0) (hx : x ≠ []) (hfs : 0 < fs) :
    eyePlot x 32 128 fs 1024 = .ok () := by
  have hxl : 0 < x.length := List.length_pos_of_ne_nil hx
  obtain ⟨t, x2, x1, ht, hl, -⟩ := C53_samples (fun a => getDdCoeffs "sinc" 32 a true) x 4 32
    (fun k _ _ => ⟨_, rfl, sincCoeffs_length _ _⟩) (by norm_num) hxl (by omega)
  obtain ⟨cols, hc, hcl, h⟩ := eyeColumns_eq t 128 1024 fs (by norm_num) (by omega) (by norm_num) hfs
  have e1 : eyeDiagram x 32 128 fs 1024 false
      = .ok ((cols ++ cols).map (fun c => c.map (eyeEntry false)), linspace (-1 * fs) fs 1024) := by
    unfold eyeDiagram eyeSignal
    rw [if_pos (by norm_num), if_neg (by norm_num), show 128 / 32 = 4 from rfl, ht]
    show ((eyeColumns t 128 1024 fs).bind _) = _
    rw [hc]; rfl
  have hlin : ∀ lo hi : ℝ, ∀ n, n ≠ 1 → (linspace lo hi n).length = n := by
    intro lo hi n hn
    unfold linspace; rw [if_neg hn]; simp
  unfold eyePlot
  rw [e1, scripts_ok_bind]
  unfold pltContourf
  rw [if_pos]
  refine ⟨by rw [hlin _ _ _ (by norm_num), List.length_map, List.length_append, hcl], fun c hc => ?_⟩
  dsimp only at hc ⊢
  rw [hlin _ _ _ (by norm_num)]
  obtain ⟨c', hc', rfl⟩ := List.mem_map.1 hc
  rw [List.length_map]
  have : c' ∈ cols := by simpa using hc'
  obtain ⟨ii, hi, rfl⟩ := List.getElem_of_mem this
  have := (h ii (by omega)).1
  rwa [show cols.getD ii [] = cols[ii] by simp [List.getD_eq_getElem?_getD, hi]] at this

/-! ### concrete cases -/

/-- data of the size of the file: 200 symbols, 32 samples per symbol -/
example (channel ui sampled : List ℝ) (h1 : channel.length = 6368) (h2 : ui.length = 6368) (h3 : sampled.length = 200) :
    channelReconstruction 16 (1 / 2) channel ui sampled 32 = .error .valueError :=
  C110_negative_reconstruction _ _ _ _ _ (by norm_num) (by omega) (by omega) (by rw [h1, h3])

/-- with the last sample of the channel left out the script would complete -/
example : ∃ r, channelReconstruction 16 (1 / 2) (List.replicate 6367 1) (List.replicate 6367 0) (List.replicate 200 1) 32 = .ok r :=
  (C110_reconstruction_completes _ _ _ _ _ (by norm_num) (by rw [List.length_replicate]; norm_num)
    (by rw [List.length_replicate, List.length_replicate]) (by rw [List.length_replicate]; norm_num)).2
    (by rw [List.length_replicate, List.length_replicate])

/-- a quadratic channel of 20 symbols: the Lagrange interpolation is exact -/
example : ∃ t x2 x1, digitalOversample (fun a => getDdCoeffs "lagrange" 16 a true)
      ((List.range 20).map fun k : ℕ => (k : ℝ) ^ 2) 4 16 = .ok (t, x2, x1) ∧
    t = (reconstructionSegment ((List.range 76).map fun n : ℕ => ((n : ℝ) / 4) ^ 2) 16 4).dropLast := by
  refine (C110_reconstruction_partial _ _ 4 (by norm_num) (by simp) (by simp) ?_).2 (Polynomial.X ^ 2) (by simp) ?_ ?_
  · intro k hk
    rw [List.length_map, List.length_range] at hk
    rw [map_range_getD _ 0 _ _ (by omega), map_range_getD _ 0 _ _ (by omega)]
    push_cast
    rw [mul_div_assoc, div_self (by norm_num), mul_one]
  · intro n hn
    rw [List.length_map, List.length_range] at hn
    rw [map_range_getD _ 0 _ _ hn]
    simp
  · rw [List.length_map, List.length_range, map_range_getD _ 0 _ _ (by norm_num)]
    simp

example : pulseShow [1, -1, 3] 32 8 (9 / 10) = .error .valueError := C110_negative_pulse_show _ (by simp)

example : eyePlot (List.replicate 320 1) 32 128 3 1024 = .ok () :=
  C110_eye_plot _ _ (by rw [List.length_replicate]) (List.ne_nil_of_length_pos (by rw [List.length_replicate]; norm_num)) (by norm_num)

end Verif
