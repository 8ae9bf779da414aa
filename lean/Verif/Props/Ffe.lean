import Verif.Lemmas.Ffe
import Verif.Props.Filter
import Mathlib.Algebra.Order.Ring.Rat

/-! Property theorems C46-C49 (feed-forward and decision-feedback equalizer). -/

set_option linter.unusedSectionVars false

open Finset

namespace Verif

open Spec (withPast NearestFirst decisionsBefore fedBack IsEqualizer)

variable {K : Type} [Field K] [LinearOrder K] [IsStrictOrderedRing K]

/-! ### C46 -/

/-- **C46.** Without DFE taps and with at least two FFE taps the output is the convolution
`y[n] = Σ_i ffe[i] x[n-i]`, the samples before the first one being zero or the given memory without its
oldest entry (the memory is stored oldest first). -/
theorem C46_convolution (x ffe : List K) (levels : Option (List K)) (osr : ℕ) (phase : ℤ) (zi ziD : Option (List K))
    (hL : 2 ≤ ffe.length) (hz : ∀ z, zi = some z → z.length = ffe.length) (hx : 0 < x.length) :
    ∃ y zo, ffeDfe x ffe none levels osr phase zi ziD = .ok (.ffe y zo) ∧ y.length = x.length ∧
      (∀ n : ℕ, n < x.length → y.getD n 0
        = ∑ i ∈ range ffe.length, ffe.getD i 0 * withPast ((zi.getD []).drop 1).reverse x (n - i)) ∧
      zo = x.drop (x.length - ffe.length) := by
  obtain ⟨z, hz', hp⟩ : ∃ z, initFfe ffe zi = .ok z ∧ withPast z.reverse x = withPast ((zi.getD []).drop 1).reverse x := by
    cases zi with
    | none =>
      refine ⟨_, by simp only [initFfe]; rw [if_neg (by omega)], ?_⟩
      rw [List.reverse_replicate]
      funext t
      exact withPast_zeros _ _ _
    | some z => exact ⟨z.drop 1, by simp only [initFfe]; rw [if_pos (hz z rfl)], rfl⟩
  have hzl := initFfe_length ffe z _ (by omega) hz'
  refine ⟨_, _, ffeDfe_ffe x ffe levels osr phase zi ziD z hz' hL hx, convValid_length _ _ _ hzl, ?_, rfl⟩
  intro n hn
  rw [convValid_getD _ _ _ hzl n hn, hp]

example : ffeDfe (K := ℚ) [1, 2, 3] [1, 1/2, 1/4] none none 1 0 (some [9, 4, 8]) none
    = .ok (.ffe [6, 9/2, 17/4] [1, 2, 3]) := by decide +kernel

/-- **C46.** With a single FFE tap the output is the scaled input, without memory. -/
theorem C46_single_tap (x : List K) (f : K) (levels : Option (List K)) (osr : ℕ) (phase : ℤ) (zi ziD : Option (List K)) :
    ffeDfe x [f] none levels osr phase zi ziD = .ok (.plain (x.map (· * f))) := rfl

/-- **C46** (partial: chunks at least as long as the filter, see `C46_negative_short_chunk`). Processing in
chunks with the returned memory gives the output pieces and the final memory of processing at once. -/
theorem C46_chunks_partial (ffe : List K) (levels : Option (List K)) (osr : ℕ) (phase : ℤ) (zi : Option (List K))
    (hL : 2 ≤ ffe.length) (hz : ∀ z, zi = some z → z.length = ffe.length) (cs : List (List K)) (hne : cs ≠ [])
    (hcs : ∀ c ∈ cs, ffe.length ≤ c.length) :
    ∃ ys y zo, ffeDfeChunks ffe none levels osr phase (zi, none) cs = .ok (ys, (some zo, none)) ∧
      ffeDfe cs.flatten ffe none levels osr phase zi none = .ok (.ffe y zo) ∧
      ys.map List.length = cs.map List.length ∧ ys.flatten = y := by
  have hV : MemOk ffe none (zi, none) := by
    refine ⟨?_, by simp⟩
    cases zi with
    | none => exact ⟨_, by simp only [initFfe]; rw [if_neg (by omega)]⟩
    | some z => exact ⟨_, by simp only [initFfe]; rw [if_pos (hz z rfl)]⟩
  obtain ⟨ys, r, e1, e2, e3, e4⟩ := chunks_of_two ffe none levels osr phase (fun c => ffe.length ≤ c.length)
    (MemOk ffe none) (fun x y hx hy => by rw [List.length_append]; omega)
    (fun m x hm hx => by
      obtain ⟨⟨z, hz⟩, -⟩ := hm
      refine ⟨_, ffeDfe_ffe x ffe levels osr phase m.1 m.2 z hz hL (by omega), ⟨?_, by simp⟩, ?_⟩
      · refine ⟨(lastN ffe.length x).drop 1, ?_⟩
        show initFfe ffe (some (lastN ffe.length x)) = _
        simp only [initFfe]
        rw [if_pos (by simp only [lastN, List.length_drop]; omega)]
      · exact convValid_length _ _ _ (initFfe_length ffe z _ (by omega) hz))
    (fun m x y r s hm hx hy er es => ffe_two ffe levels osr phase hL m x y r s hm hx hy er es)
    cs hne hcs (zi, none) hV
  obtain ⟨⟨z, hz'⟩, -⟩ := hV
  have hx : 0 < cs.flatten.length := by
    cases cs with
    | nil => exact absurd rfl hne
    | cons c cs => have := hcs c (by simp); rw [List.flatten_cons, List.length_append]; omega
  rw [ffeDfe_ffe cs.flatten ffe levels osr phase zi none z hz' hL hx] at e2
  cases e2
  exact ⟨ys, _, _, e1, ffeDfe_ffe cs.flatten ffe levels osr phase zi none z hz' hL hx, e3, e4⟩

example : ffeDfeChunks (K := ℚ) [1, 1/2, 1/4] none none 1 0 (none, none) [[1, 2, 3], [4, 5, 6, 7]]
      = .ok ([[1, 5/2, 17/4], [6, 31/4, 19/2, 45/4]], (some [5, 6, 7], none)) ∧
    ffeDfe (K := ℚ) [1, 2, 3, 4, 5, 6, 7] [1, 1/2, 1/4] none none 1 0 none none
      = .ok (.ffe [1, 5/2, 17/4, 6, 31/4, 19/2, 45/4] [5, 6, 7]) := by decide +kernel

/-- **C46** (negation). After any non-empty chunk shorter than the filter, the returned memory is too short
and the next call raises TypeError: such a signal cannot be processed in chunks. -/
theorem C46_negative_short_chunk (ffe : List K) (levels : Option (List K)) (osr : ℕ) (phase : ℤ)
    (hL : 2 ≤ ffe.length) (c c' : List K) (h0 : 0 < c.length) (hc : c.length < ffe.length) (cs : List (List K)) :
    ffeDfeChunks ffe none levels osr phase (none, none) (c :: c' :: cs) = .error .typeError ∧
    (∃ y z, ffeDfe (c ++ c') ffe none levels osr phase none none = .ok (.ffe y z)) := by
  have hz : initFfe ffe (none : Option (List K)) = .ok (List.replicate (ffe.length - 1) 0) := by
    simp only [initFfe]; rw [if_neg (by omega)]
  constructor
  · rw [ffeDfeChunks, ffeDfe_ffe c ffe levels osr phase none none _ hz hL h0]
    show ((ffeDfeChunks ffe none levels osr phase (some (lastN ffe.length c), none) (c' :: cs)).bind _) = _
    rw [ffeDfeChunks]
    have : ffeDfe c' ffe none levels osr phase (some (lastN ffe.length c)) none = .error .typeError := by
      unfold ffeDfe
      simp only []
      rw [if_neg (by omega)]
      simp only [initFfe]
      rw [if_neg (by simp only [lastN, List.length_drop]; omega)]
      rfl
    simp only [this]
    rfl
  · exact ⟨_, _, ffeDfe_ffe (c ++ c') ffe levels osr phase none none _ hz hL (by rw [List.length_append]; omega)⟩

/-- **C46.** A memory whose length is not the number of taps is rejected (TypeError). -/
theorem C46_rejects (x ffe z : List K) (levels : Option (List K)) (osr : ℕ) (phase : ℤ) (ziD : Option (List K))
    (hL : ffe.length ≠ 1) (hz : z.length ≠ ffe.length) :
    ffeDfe x ffe none levels osr phase (some z) ziD = .error .typeError := by
  unfold ffeDfe
  simp only []
  rw [if_neg hL]
  simp only [initFfe]
  rw [if_neg hz]
  rfl

example : ffeDfe (K := ℚ) [1, 2] [1, 1/2] none none 1 0 (some [1]) none = .error .typeError := by decide +kernel

/-! ### C47 -/

/-- **C47.** With DFE taps the outputs are the slicer inputs of the equalizer recursion: with the sampling
phase `φ` (mod `osr`), decisions `d` of all samples, and at sample `n` the feedback of the most recent decisions
at samples `φ, φ+osr, ...` that are at least `osr/2` samples old, preceded by the given memory. For `osr = 1`
see `C47_recursion_symbol_rate`. The returned memories are the last `len(ffe)` samples and the decisions fed
back next. -/
theorem C47_recursion (x ffe dfe : List K) (levels : Option (List K)) (hne : levels ≠ some []) (osr : ℕ)
    (ho : 0 < osr) (phase : ℤ) (hk : 0 < dfe.length) (hL : 0 < ffe.length) (hx : 0 < x.length)
    (ziF ziD : Option (List K)) (hF : ∀ z, ziF = some z → z.length = ffe.length)
    (hD : ∀ z, ziD = some z → z.length = dfe.length) :
    ∃ r d, ffeDfe x ffe (some dfe) levels osr phase ziF ziD = .ok r ∧
      IsEqualizer ffe dfe (levels.getD [-3, -1, 1, 3]) osr (phase % osr).toNat ((ziF.getD []).drop 1).reverse
        (ziD.getD []) x r.signal d ∧
      (ffe.length = 1 → r.memories.1 = none) ∧
      (1 < ffe.length → ∃ zf, r.memories.1 = some zf ∧ zf.length = ffe.length ∧
        ∀ k : ℕ, k < ffe.length → zf.getD (ffe.length - 1 - k) 0
          = withPast ((ziF.getD []).drop 1).reverse x ((x.length : ℤ) - 1 - k)) ∧
      ∃ zd, r.memories.2 = some zd ∧ zd.length = dfe.length ∧ ∀ j : ℕ, j < dfe.length →
        zd.getD j 0 = fedBack osr (phase % osr).toNat (ziD.getD []) d x.length j := by
  have hne' : levels.getD [-3, -1, 1, 3] ≠ [] := by
    cases levels with
    | none => simp
    | some l => intro h; exact hne (by simpa using h)
  obtain ⟨z, hz, hp⟩ : ∃ z, initFfe ffe ziF = .ok z ∧
      ∀ x, withPast z.reverse x = withPast ((ziF.getD []).drop 1).reverse x := by
    cases ziF with
    | none =>
      refine ⟨_, by simp only [initFfe]; rw [if_neg (by omega)], fun x => ?_⟩
      rw [List.reverse_replicate]
      funext t
      exact withPast_zeros _ _ _
    | some z => exact ⟨z.drop 1, by simp only [initFfe]; rw [if_pos (hF z rfl)], fun x => rfl⟩
  obtain ⟨zi, hzi, hq⟩ : ∃ zi, initDfe dfe ziD = .ok zi ∧
      ∀ d n j, fedBack osr (phase % osr).toNat zi d n j = fedBack osr (phase % osr).toNat (ziD.getD []) d n j := by
    cases ziD with
    | none =>
      refine ⟨_, rfl, fun d n j => ?_⟩
      unfold fedBack
      split
      · rfl
      · rw [replicate_getD]; simp
    | some w => exact ⟨w, by simp only [initDfe]; rw [if_pos (hD w rfl)], fun _ _ _ => rfl⟩
  have hzl := initFfe_length ffe z _ hL hz
  have hzil := initDfe_length dfe zi _ hzi
  obtain ⟨y, e, g⟩ := ffeDfe_dfe x ffe dfe levels _ rfl hne' osr ho phase hk hL hx ziF ziD z zi hz hzi hzil
  refine ⟨_, y.map (sliceOne (levels.getD [-3, -1, 1, 3])), e, ?_, ?_, ?_, ?_⟩
  · rw [eqOut_signal]
    refine ⟨g.length_y, g.length_d, fun n hn => ?_, g.decision⟩
    rw [g.slicer_in n hn, hp]
    congr 1
    exact sum_congr rfl fun j _ => by rw [hq]
  · intro h
    rw [eqOut_memories, if_pos h]
  · intro h
    refine ⟨lastN ffe.length (z ++ x), by rw [eqOut_memories, if_neg (by omega)], lastN_length _ _ _ hzl hx, ?_⟩
    intro k hk'
    rw [lastN, drop_getD, ext_withPast, hp, List.length_append]
    congr 1
    omega
  · refine ⟨_, by rw [eqOut_memories], memAt_length _ _ _ _ _ _, ?_⟩
    intro j hj
    rw [memAt_getD _ _ _ _ _ _ _ hj, hq]

/-- **C47** at symbol rate (`osr = 1`): `s[n] = Σ_i ffe[i] x[n-i] - Σ_j dfe[j] d[n-1-j]`, where `d[n]` is the
level nearest to `s[n]` and the values before the first sample are taken from the memories. -/
theorem C47_recursion_symbol_rate (x ffe dfe : List K) (levels : Option (List K)) (hne : levels ≠ some [])
    (phase : ℤ) (hk : 0 < dfe.length) (hL : 0 < ffe.length) (hx : 0 < x.length)
    (ziF ziD : Option (List K)) (hF : ∀ z, ziF = some z → z.length = ffe.length)
    (hD : ∀ z, ziD = some z → z.length = dfe.length) :
    ∃ r d, ffeDfe x ffe (some dfe) levels 1 phase ziF ziD = .ok r ∧ r.signal.length = x.length ∧
      d.length = x.length ∧
      ∀ n : ℕ, n < x.length →
        r.signal.getD n 0 = ∑ i ∈ range ffe.length, ffe.getD i 0 * withPast ((ziF.getD []).drop 1).reverse x (n - i)
          - ∑ j ∈ range dfe.length, dfe.getD j 0 * withPast (ziD.getD []) d (n - 1 - j) ∧
        NearestFirst (levels.getD [-3, -1, 1, 3]) (r.signal.getD n 0) (d.getD n 0) := by
  obtain ⟨r, d, e, g, -⟩ := C47_recursion x ffe dfe levels hne 1 (by omega) phase hk hL hx ziF ziD hF hD
  rw [phase_one] at g
  refine ⟨r, d, e, g.length_y, g.length_d, fun n hn => ⟨?_, g.decision n hn⟩⟩
  rw [g.slicer_in n hn]
  congr 1
  exact sum_congr rfl fun j _ => by rw [fedBack_one]

example : ffeDfe (K := ℚ) [1, 2, 3, 4, 5] [1, 1/2] (some [1/2, 1]) none 1 0 (some [7, 8]) none
    = .ok (.both [5, 1, 1/2, 4, 9/2] [4, 5] [3, 3]) := by decide +kernel
example : ffeDfe (K := ℚ) [1, 2, 3, 4, 5, 4, 3, 2] [1] (some [1/2, 1]) none 2 0 none (some [1, -1])
    = .ok (.dfe [3/2, 5/2, 3/2, 5/2, 7/2, 5/2, 1/2, -1/2] [1, 3]) := by decide +kernel

/-- **C47** (partial: `osr = 1`, or sampling phases with `phase + osr/2 < osr` and chunks of whole symbols, see
`C47_negative_late_phase`). Processing in chunks with the returned memories gives the output pieces and the
final memories of processing at once. -/
theorem C47_chunks_partial (ffe dfe : List K) (levels : Option (List K)) (hne : levels ≠ some []) (osr : ℕ)
    (ho : 0 < osr) (phase : ℤ) (hφ : phase % osr + (osr / 2 : ℕ) < osr) (hk : 0 < dfe.length) (hL : 0 < ffe.length)
    (ziF ziD : Option (List K)) (hF : ∀ z, ziF = some z → z.length = ffe.length)
    (hD : ∀ z, ziD = some z → z.length = dfe.length) (cs : List (List K)) (hcs0 : cs ≠ [])
    (hcs : ∀ c ∈ cs, 0 < c.length ∧ osr ∣ c.length) :
    ∃ ys r, ffeDfeChunks ffe (some dfe) levels osr phase (ziF, ziD) cs = .ok (ys, r.memories) ∧
      ffeDfe cs.flatten ffe (some dfe) levels osr phase ziF ziD = .ok r ∧
      ys.map List.length = cs.map List.length ∧ ys.flatten = r.signal := by
  have hne' : levels.getD [-3, -1, 1, 3] ≠ [] := by
    cases levels with
    | none => simp
    | some l => intro h; exact hne (by simpa using h)
  have hφ' : (phase % osr).toNat + osr / 2 < osr := by
    have := Int.emod_nonneg phase (show (osr : ℤ) ≠ 0 by omega)
    omega
  have hV : MemOk ffe (some dfe) (ziF, ziD) := by
    constructor
    · cases ziF with
      | none => exact ⟨_, by simp only [initFfe]; rw [if_neg (by omega)]⟩
      | some z => exact ⟨_, by simp only [initFfe]; rw [if_pos (hF z rfl)]⟩
    · rintro d ⟨⟩
      cases ziD with
      | none => exact ⟨_, rfl⟩
      | some z => exact ⟨_, by simp only [initDfe]; rw [if_pos (hD z rfl)]⟩
  exact chunks_of_two ffe (some dfe) levels osr phase (fun c => 0 < c.length ∧ osr ∣ c.length)
    (MemOk ffe (some dfe))
    (fun x y hx hy => by rw [List.length_append]; exact ⟨by omega, Nat.dvd_add hx.2 hy.2⟩)
    (fun m x hm hx => by
      obtain ⟨⟨z, hz⟩, hzi⟩ := hm
      obtain ⟨zi, hzi⟩ := hzi dfe rfl
      have hzl := initFfe_length ffe z _ hL hz
      obtain ⟨y, e, g⟩ := ffeDfe_dfe x ffe dfe levels _ rfl hne' osr ho phase hk hL hx.1 _ _ z zi hz hzi
        (initDfe_length dfe zi _ hzi)
      refine ⟨_, e, ⟨⟨_, initFfe_eqOut ffe y _ _ (lastN_length _ _ _ hzl hx.1)⟩, ?_⟩, ?_⟩
      · rintro d ⟨⟩
        refine ⟨memAt osr (phase % osr).toNat dfe.length zi (y.map (sliceOne (levels.getD [-3, -1, 1, 3]))) x.length, ?_⟩
        rw [eqOut_memories]
        simp only [initDfe]
        rw [if_pos (memAt_length _ _ _ _ _ _)]
      · rw [eqOut_signal]; exact g.length_y)
    (fun m x y r s hm hx hy er es => ffeDfe_two ffe dfe levels hne' osr ho phase hφ' hk hL m x y r s hm hx hy er es)
    cs hcs0 hcs (ziF, ziD) hV

example : ffeDfeChunks (K := ℚ) [1, 1/2] (some [1/2, 1]) none 1 0 (none, none) [[1], [2, 3], [4, 5]]
      = .ok ([[1], [2, 5/2], [3, 5/2]], (some [4, 5], some [3, 3])) ∧
    ffeDfe (K := ℚ) [1, 2, 3, 4, 5] [1, 1/2] (some [1/2, 1]) none 1 0 none none
      = .ok (.both [1, 2, 5/2, 3, 5/2] [4, 5] [3, 3]) := by decide +kernel

/-- **C47** (negation). With `osr = 2` and `phase = 1` the decision of the last symbol of a chunk is lost
(its index in the next chunk is -1): processing `[1, 2, 3, 4]` in two chunks of whole symbols differs from
processing it at once. -/
theorem C47_negative_late_phase :
    ffeDfeChunks (K := ℚ) [1] (some [1/2]) none 2 1 (none, none) [[1, 2], [3, 4]]
        = .ok ([[1, 2], [3, 4]], (none, some [0])) ∧
      ffeDfe (K := ℚ) [1, 2, 3, 4] [1] (some [1/2]) none 2 1 none none = .ok (.dfe [1, 2, 3, 7/2] [1]) := by
  decide +kernel

/-- **C47.** A DFE memory of the wrong length, and an FFE memory of the wrong length, raise TypeError; empty
levels raise ValueError. -/
theorem C47_rejects (x ffe dfe : List K) (levels : Option (List K)) (osr : ℕ) (phase : ℤ) (ziF ziD : Option (List K)) :
    (∀ w, ziD = some w → w.length ≠ dfe.length →
      ffeDfe x ffe (some dfe) levels osr phase ziF ziD = .error .typeError) ∧
    (∀ z, ziF = some z → z.length ≠ ffe.length → (∀ w, ziD = some w → w.length = dfe.length) →
      ffeDfe x ffe (some dfe) levels osr phase ziF ziD = .error .typeError) ∧
    (0 < x.length → 0 < ffe.length → (∀ z, ziF = some z → z.length = ffe.length) →
      (∀ w, ziD = some w → w.length = dfe.length) →
      ffeDfe x ffe (some dfe) (some []) osr phase ziF ziD = .error .valueError) := by
  have hDok : (∀ w, ziD = some w → w.length = dfe.length) → ∃ zi, initDfe dfe ziD = .ok zi := by
    intro h
    cases ziD with
    | none => exact ⟨_, rfl⟩
    | some z => exact ⟨_, by simp only [initDfe]; rw [if_pos (h z rfl)]⟩
  refine ⟨?_, ?_, ?_⟩
  · rintro w rfl hw
    unfold ffeDfe
    simp only [initDfe]
    rw [if_neg hw]
    rfl
  · rintro z rfl hz hw
    obtain ⟨zi, e⟩ := hDok hw
    unfold ffeDfe
    simp only [e, initFfe]
    rw [if_neg hz]
    rfl
  · intro hx hL hF hw
    obtain ⟨zi, e⟩ := hDok hw
    obtain ⟨z, ez⟩ : ∃ z, initFfe ffe ziF = .ok z := by
      cases ziF with
      | none => exact ⟨_, by simp only [initFfe]; rw [if_neg (by omega)]⟩
      | some z => exact ⟨_, by simp only [initFfe]; rw [if_pos (hF z rfl)]⟩
    have hzl := initFfe_length ffe z _ hL ez
    obtain ⟨M, eM, hM, hwid, -, -⟩ := ffe_frames ffe z x hzl hx
    unfold ffeDfe
    simp only [e, ez]
    show ((buffer (z ++ x) ffe.length ((ffe.length : ℤ) - 1) 0).bind _) = _
    rw [eM]
    cases M with
    | nil => simp at hM; omega
    | cons fr M =>
      show ((dfeLoop ffe dfe (some []) osr phase 0 [] zi (fr :: M)).bind _) = _
      unfold dfeLoop
      split
      · rfl
      · rfl

/-! ### C48 -/

/-- **C48**, for any FFE: if the FFE output is the symbol plus the post-cursors weighted by the DFE taps plus
noise, `Σ_i ffe[i] x[n-i] = a[n] + Σ_j dfe[j] a[n-1-j] + w[n]`, and twice the noise is smaller than the distance
from the symbol to every other level, then every slicer input is symbol plus noise and every decision is the
symbol: no error propagates. `p` are the symbols before the first one (also in the DFE memory). -/
theorem C48_equalized (x ffe dfe lv a w : List K) (phase : ℤ) (hk : 0 < dfe.length)
    (hL : 0 < ffe.length) (hx : 0 < x.length) (ha : a.length = x.length) (hw : w.length = x.length)
    (ziF p : Option (List K)) (hF : ∀ z, ziF = some z → z.length = ffe.length)
    (hD : ∀ z, p = some z → z.length = dfe.length)
    (hmem : ∀ n : ℕ, n < x.length → a.getD n 0 ∈ lv)
    (hnoise : ∀ n : ℕ, n < x.length → ∀ l ∈ lv, l ≠ a.getD n 0 → 2 * |w.getD n 0| < |l - a.getD n 0|)
    (hch : ∀ n : ℕ, n < x.length →
      ∑ i ∈ range ffe.length, ffe.getD i 0 * withPast ((ziF.getD []).drop 1).reverse x (n - i)
        = a.getD n 0 + ∑ j ∈ range dfe.length, dfe.getD j 0 * withPast (p.getD []) a (n - 1 - j) + w.getD n 0) :
    ∃ r, ffeDfe x ffe (some dfe) (some lv) 1 phase ziF p = .ok r ∧ r.signal.length = x.length ∧
      (∀ n : ℕ, n < x.length → r.signal.getD n 0 = a.getD n 0 + w.getD n 0) ∧
      slicer (.vec r.signal) (some lv) = .ok (.vec a) := by
  have hlv : lv ≠ [] := List.ne_nil_of_mem (hmem 0 hx)
  obtain ⟨r, d, e, g, -⟩ := C47_recursion x ffe dfe (some lv) (by simpa using hlv) 1 (by omega) phase hk hL hx ziF p hF hD
  rw [phase_one] at g
  have hsum : ∀ n, n < x.length → (List.zipWith (· + ·) a w).getD n 0 = a.getD n 0 + w.getD n 0 := by
    intro n hn
    rw [zipWith_getD _ 0 0 0 _ _ (by omega) (by omega)]
  have hnear : ∀ n, n < x.length → sliceOne lv (a.getD n 0 + w.getD n 0) = a.getD n 0 := fun n hn =>
    sliceOne_near lv _ _ (hmem n hn) (hnoise n hn)
  have g' : IsEqualizer ffe dfe lv 1 0 ((ziF.getD []).drop 1).reverse (p.getD []) x (List.zipWith (· + ·) a w) a := by
    refine ⟨by rw [List.length_zipWith]; omega, ha, fun n hn => ?_, fun n hn => ?_⟩
    · rw [hsum n hn, hch n hn]
      simp only [fedBack_one]
      ring
    · have := sliceOne_spec lv hlv (a.getD n 0 + w.getD n 0)
      rw [hnear n hn] at this
      rw [hsum n hn]
      exact this
  obtain ⟨hy, -⟩ := isEqualizer_unique _ _ _ _ _ (by omega) _ _ _ _ _ _ _ g g'
  refine ⟨r, e, g.length_y, fun n hn => by rw [hy, hsum n hn], ?_⟩
  unfold slicer
  simp only [Option.getD_some]
  rw [if_neg (by simpa using hlv)]
  congr 2
  refine ext_getD 0 (by rw [List.length_map, g.length_y, ha]) fun n hn => ?_
  rw [List.length_map, g.length_y] at hn
  rw [getD_map_lt _ 0 0 _ (by rw [g.length_y]; exact hn), hy, hsum n hn, hnear n hn]

/-- **C48.** Symbols from `levels` sent through `awgn_channel` with response `[1, h1, ..., hk]`, noise `w` smaller
than half the distance of any two levels, and `ffe_dfe` with `dfe_taps = [h1, ..., hk]`: the slicer inputs are
symbol plus noise and slicing them returns the symbols, for every symbol sequence. -/
theorem C48_link (h lv a w : List K) (phase : ℤ) (hk : 0 < h.length) (ha : 0 < a.length)
    (hw : w.length = a.length) (hmem : ∀ s ∈ a, s ∈ lv)
    (hnoise : ∀ e ∈ w, ∀ l ∈ lv, ∀ l' ∈ lv, l ≠ l' → |e| < |l - l'| / 2) :
    ∃ y z r, awgnChannel a (1 :: h) (.num 1) none = .ok (y, z) ∧
      ffeDfe (List.zipWith (· + ·) y w) [1] (some h) (some lv) 1 phase none none = .ok r ∧
      r.signal.length = a.length ∧
      (∀ n : ℕ, n < a.length → r.signal.getD n 0 = a.getD n 0 + w.getD n 0) ∧
      slicer (.vec r.signal) (some lv) = .ok (.vec a) := by
  obtain ⟨y, z, e, hl, hd⟩ := C44_difference_equation (1 :: h) (.num (1 : K)) a (by simp) (by simp [Denom.coeffs])
    (by simp [Denom.coeffs]) ha
  have hxl : (List.zipWith (· + ·) y w).length = a.length := by rw [List.length_zipWith]; omega
  obtain ⟨r, e1, e2, e3, e4⟩ := C48_equalized (List.zipWith (· + ·) y w) [1] h lv a w phase hk (by simp) (by omega)
    (by omega) (by omega) none none (by simp) (by simp)
    (fun n hn => hmem _ (mem_of_getD 0 a (by omega)))
    (fun n hn l hl hne => by
      have := hnoise _ (mem_of_getD 0 w (show n < w.length by omega)) l hl (a.getD n 0)
        (hmem _ (mem_of_getD 0 a (by omega))) hne
      linarith)
    (fun n hn => by
      have := hd n (by omega)
      unfold Spec.DiffEq at this
      simp only [Denom.coeffs, List.getD_cons_zero, one_mul, List.length_cons] at this
      rw [withPast_nat, sum_range_succ'] at this
      simp only [List.getD_cons_zero, one_mul, List.getD_cons_succ, Nat.cast_zero, sub_zero] at this
      rw [withPast_nat] at this
      simp only [List.length_singleton, range_one, sum_singleton, List.getD_cons_zero, one_mul, Nat.cast_zero,
        sub_zero]
      rw [withPast_nat, zipWith_getD _ 0 0 0 _ _ (by omega) (by omega), this]
      rw [List.length_nil, Ico_self, sum_empty, sub_zero]
      congr 1
      rw [add_comm]
      congr 1
      refine sum_congr rfl fun j _ => ?_
      congr 2
      push_cast
      ring)
  exact ⟨y, z, r, e, e1, by omega, fun n hn => e3 n (by omega), e4⟩

example : (awgnChannel (F := ℚ) [3, -1, -3, 1] [1, 1/2, -2] (.num 1) none).map Prod.fst = .ok [3, 1/2, -19/2, 3/2] ∧
    ffeDfe (K := ℚ) [7/2, 1/4, -35/4, 7/4] [1] (some [1/2, -2]) (some [-3, -1, 1, 3]) 1 0 none none
      = .ok (.dfe [7/2, -5/4, -9/4, 5/4] [1, -3]) := by decide +kernel

/-! ### C49 -/

/-- **C49.** From zero memory, every sequence of calls of `FfeDfeFilterTII(ffe, [1] + dfe, levels)` on float chunks
produces the output of `ffe_dfe(signal, ffe, dfe, levels)` on the whole signal, cut into pieces of the chunk
lengths. -/
theorem C49_same (ffe dfe : List K) (levels : Option (List K)) (hne : levels ≠ some []) (phase : ℤ)
    (hk : 0 < dfe.length) (hL : 0 < ffe.length) (cs : List (List K)) (hx : 0 < cs.flatten.length) :
    ∃ ys r, ffeDfeTiiCalls id ffe (1 :: dfe) levels none cs = .ok ys ∧
      ffeDfe cs.flatten ffe (some dfe) levels 1 phase none none = .ok r ∧
      ys.map List.length = cs.map List.length ∧ ys.flatten = r.signal := by
  obtain ⟨r, d, e, g, -⟩ := C47_recursion cs.flatten ffe dfe levels hne 1 (by omega) phase hk hL hx none none
    (by simp) (by simp)
  rw [phase_one] at g
  obtain ⟨lv, hlv⟩ : ∃ lv, lv = levels.getD [-3, -1, 1, 3] := ⟨_, rfl⟩
  rw [← hlv] at g
  have hne' : lv ≠ [] := by
    rw [hlv]
    cases levels with
    | none => simp
    | some l => intro h; exact hne (by simpa using h)
  obtain ⟨t, ht⟩ : ∃ t, tiiInit ffe (1 :: dfe) (none : Option (List K)) = .ok t := ⟨_, rfl⟩
  obtain ⟨hok, eb, ea, ez⟩ := tiiInit_ok ffe (1 :: dfe) (by rw [List.length_cons]; omega) none t ht
  have hp : TiiPos t := by
    refine ⟨by rw [eb]; exact hL, by rw [ea]; simp, ?_⟩
    have := hok.1
    rw [eb, ea, List.length_cons] at this; omega
  have hpr : ∀ t x, TiiPos t → ffeDfeTiiProcess levels t x = .ok (tiiStep (sliceOne lv) t x) := by
    intro t x hp
    unfold ffeDfeTiiProcess
    rw [if_neg (by obtain ⟨h1, h2, h3⟩ := hp; omega)]
    simp only [sliceScalar_eq levels lv hlv hne']
    rfl
  obtain ⟨ys, e1, e2, e3⟩ := tiiCalls_eq (ffeDfeTiiProcess levels) (sliceOne lv) hpr t cs hok hp id
  rw [List.map_id] at e3
  refine ⟨ys, r, ?_, e, e2, ?_⟩
  · unfold ffeDfeTiiCalls
    rw [ht]
    show ((tiiCalls (ffeDfeTiiProcess levels) id t cs).bind _) = _
    rw [e1]
    rfl
  · have hyl : ys.flatten.length = cs.flatten.length := by rw [List.length_flatten, List.length_flatten, e2]
    have g' : IsEqualizer ffe dfe lv 1 0 (((none : Option (List K)).getD []).drop 1).reverse
        ((none : Option (List K)).getD []) cs.flatten ys.flatten (ys.flatten.map (sliceOne lv)) := by
      refine ⟨hyl, by rw [List.length_map, hyl], fun n hn => ?_, fun n hn => ?_⟩
      · have := tiiRun_spec (sliceOne lv) t cs.flatten hok hp (by rw [ea]; simp) n hn
        rw [← e3, eb, ea, ez] at this
        simp only [Option.getD_none] at this ⊢
        rw [replicate_getD, add_zero, List.getD_cons_zero, one_mul] at this
        have hfb := sum_fb (1 :: dfe) (ys.flatten.map (sliceOne lv)) n
        rw [this, ← sum_taps]
        congr 1
        refine Eq.trans (sum_congr rfl fun j hj => ?_) (hfb.symm.trans ?_)
        · rw [mem_range] at hj
          rw [getD_map_lt _ 0 0 _ (by omega)]
        · rw [sum_Ico_eq_sum_range, List.length_cons, Nat.add_sub_cancel]
          refine sum_congr rfl fun j _ => ?_
          rw [fedBack_one, Nat.add_comm 1 j, List.getD_cons_succ]
          congr 2
          push_cast
          ring
      · rw [getD_map_lt _ 0 0 _ (by omega)]
        exact sliceOne_spec lv hne' _
    exact (isEqualizer_unique _ _ _ _ _ (by omega) _ _ _ _ _ _ _ g' g).1

example : ffeDfeTiiCalls (K := ℚ) id [1, 1/2] [1, 1/2, 1] none none [[1], [2, 3], [4, 5]]
      = .ok [[1], [2, 5/2], [3, 5/2]] ∧
    ffeDfe (K := ℚ) [1, 2, 3, 4, 5] [1, 1/2] (some [1/2, 1]) none 1 0 none none
      = .ok (.both [1, 2, 5/2, 3, 5/2] [4, 5] [3, 3]) := by decide +kernel

/-- **C49** (negation). For an integer chunk the class stores its outputs in an integer array and truncates
them; `ffe_dfe` always returns floats. -/
theorem C49_negative_integer :
    ffeDfeTiiCalls truncQ [1, 1/2] [1, 1/2, 1] none none [[1, 2, 3, 4, 5]] = .ok [[1, 2, 2, 3, 2]] ∧
    ffeDfe (K := ℚ) [1, 2, 3, 4, 5] [1, 1/2] (some [1/2, 1]) none 1 0 none none
      = .ok (.both [1, 2, 5/2, 3, 5/2] [4, 5] [3, 3]) := by decide +kernel

end Verif
