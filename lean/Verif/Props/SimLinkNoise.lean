import Verif.Props.SimFeedback
import Verif.Lemmas.GaussTail

/-!
# The example simulation's link in Gaussian noise (C120)
-/

open Finset MeasureTheory

namespace Verif
open Spec

/-- the draws of `k` calls with `M` samples each, in the order in which the calls draw them -/
noncomputable def drawsOfCalls (k M : ℕ) (z : Fin (k * M) → ℝ) : List (List ℝ) :=
  (List.range k).map fun i => (List.range M).map fun t => (List.ofFn z).getD (i * M + t) 0

/-- the calls of the link with this noise succeed and the demapped symbols are the encoded PRBS, `δ` symbols late -/
def SymbolsRight (a : LinkArgs) (seed : List Int) (b : ℕ → Int) (o : EqObj ℝ) (S δ : ℕ) (noises : List (List ℝ)) : Prop :=
  ∃ (m : ChannelMem) (outs : List LinkOut) (st' : LinkState), channelInit a.chan = .ok m ∧
    linkCalls a noises ⟨seed, m, ⟨ctleObjInit a.zeros a.poles none, o⟩⟩ = .ok (some (outs, st')) ∧ outs.length = noises.length ∧
    (∀ u ∈ outs, encoder a.rnd a.coding u.pattern = .ok u.symbols ∧ u.symbols.length = S ∧ u.rx.demapped.length = S) ∧
    (outs.map LinkOut.pattern).flatten = (List.range (noises.length * a.chunk)).map b ∧
    ∀ n, n + δ < noises.length * S →
      (outs.map (fun u => u.rx.demapped)).flatten.getD (n + δ) 0 = (outs.map LinkOut.symbols).flatten.getD n 0

theorem draws_bounded (k M : ℕ) (z : Fin (k * M) → ℝ) (Z : ℝ) (hz : ∀ i, z i ∈ Set.Icc (-Z) Z) :
    ∀ nz ∈ drawsOfCalls k M z, nz.length = M ∧ ∀ v ∈ nz, |v| ≤ Z := by
  intro nz hnz
  obtain ⟨i, hi, rfl⟩ := List.mem_map.1 hnz
  refine ⟨by simp, ?_⟩
  intro v hv
  obtain ⟨t, ht, rfl⟩ := List.mem_map.1 hv
  have hi' := List.mem_range.1 hi
  have ht' := List.mem_range.1 ht
  have hlt : i * M + t < k * M := by
    have := Nat.mul_le_mul_right M (show i + 1 ≤ k from hi')
    rw [Nat.succ_mul] at this
    omega
  rw [List.getD_eq_getElem?_getD, List.getElem?_eq_getElem (by simpa using hlt)]
  simp only [Option.getD_some, List.getElem_ofFn]
  have := hz ⟨i * M + t, hlt⟩
  rw [Set.mem_Icc] at this
  exact abs_le.2 this

theorem dispersive_of_draws (d : ChannelArgs) (g : ℝ → ℝ) (f : List ℝ) (amp : ℝ) (M : ℕ) (ε : ℝ)
    (hd : DispersiveChannel d g f amp M ε []) (snr L Z : ℝ) (hsnr : d.snr = some snr) (hL : PeakGain d L)
    (hZ : 2 * (amp / 2 * L * (∑ k ∈ range f.length, |f.getD k 0|) * Z) ^ 2 ≤ ε ^ 2 * (10 : ℝ) ^ (snr / 10))
    (noises : List (List ℝ)) (hn : ∀ nz ∈ noises, nz.length = M ∧ ∀ z ∈ nz, |z| ≤ Z) :
    DispersiveChannel d g f amp M ε noises := by
  refine ⟨hd.type, hd.pulse, hd.span, hd.osr, hd.fir, hd.taps, hd.iir, hd.rest, hd.chunk, L, hL, ?_⟩
  intro s hs
  rw [hsnr] at hs
  cases hs
  exact ⟨Z, hn, hZ⟩

/-- **C120**, Gaussian noise, feed-forward equalizer: if the eye is open for noise of up to `Z` standard deviations, then the
probability that all symbols of `k` calls are right, from the first one on, is at least `(1 - 2 Q(Z))` to the number of noise samples. -/
theorem C120_gaussian (a : LinkArgs) (fullScale : Bool) (r : ℤ × ℤ) (hf : ReceiverSetting a fullScale r) (g : ℝ → ℝ) (f : List ℝ)
    (c : ℕ → ℝ) (hc : CtleResponse a c) (pre post : ℕ) (hp : 0 < pre + post) (F : List ℝ) (hF : F.length = pre + post + 1)
    (lv : Option (List ℝ)) (δ : ℕ) (ε C P R : ℝ) (ho : OpenLinkEye a r g f c F δ ε C P R)
    (hsamp : a.adcOsr / a.sampleRate = a.chan.osr)
    (seed : List Int) (hseed : seed.length = a.prbs.value) (b : ℕ → Int)
    (hb : LfsrStream (getPolynomial a.prbs) seed b) (S : ℕ) (hS : pre + post + 1 ≤ S)
    (henc : ∀ x : List Int, x.length = a.chunk → (∀ v ∈ x, v = 0 ∨ v = 1) → ∃ s, encoder a.rnd a.coding x = .ok s ∧
      s.length = S ∧ ∀ v ∈ s, 0 ≤ v ∧ v < numLevels a.constellation)
    (hdec : ∀ s : List Int, s.length = S → (∀ v ∈ s, 0 ≤ v ∧ v < numLevels a.constellation) → ∃ u, decoder a.coding s = .ok u)
    (k : ℕ) (hk : 0 < k) (hd : DispersiveChannel a.chan g f a.amp (S * a.chan.osr) ε []) (snr L Z : ℝ)
    (hsnr : a.chan.snr = some snr) (hL : PeakGain a.chan L) (hZ0 : 0 ≤ Z)
    (hZ : 2 * (a.amp / 2 * L * (∑ k ∈ range f.length, |f.getD k 0|) * Z) ^ 2 ≤ ε ^ 2 * (10 : ℝ) ^ (snr / 10)) :
    ∃ o, eqInit pre post 0 (some F) none lv none none = .ok o ∧
      (1 - 2 * qFunc Z) ^ (k * (S * a.chan.osr))
        ≤ (normalDraws (k * (S * a.chan.osr))).real
            {z | SymbolsRight a seed b o S δ (drawsOfCalls k (S * a.chan.osr) z)} := by
  have hoi := eqInit_ok (K := ℝ) (pre := pre) (post := post) (dfeTaps := 0) (ffe := some F) (dfe := none) (levels := lv)
        (ziFfe := none) (ziDfe := none) ⟨by simpa using hF, by simp, by simp, by simp, by simp⟩
  obtain ⟨o, hoi⟩ : ∃ o, eqInit (K := ℝ) pre post 0 (some F) none lv none none = .ok o := ⟨_, hoi⟩
  refine ⟨o, hoi, ?_⟩
  have hbox := draws_box (n := k * (S * a.chan.osr)) (fun _ => Set.Icc (-Z) Z)
  have hq : (1 - 2 * qFunc Z) ^ (k * (S * a.chan.osr)) = (normalDraws (k * (S * a.chan.osr))).real {x | ∀ i, x i ∈ Set.Icc (-Z) Z} := by
    rw [hbox, prod_const, gauss_Icc (by linarith), qFunc_neg]
    simp only [card_univ, Fintype.card_fin]
    congr 1
    ring
  rw [hq]
  refine measureReal_mono ?_ (measure_ne_top _ _)
  intro z hz
  have hlen : (drawsOfCalls k (S * a.chan.osr) z).length = k := by simp [drawsOfCalls]
  obtain ⟨m, o', outs, st', g1, g2, g3, g4, g5, g6, g7⟩ := C120_symbols a fullScale r hf g f c hc pre post hp F hF lv δ ε C P R ho
    hsamp seed hseed b hb S hS henc hdec k hk (drawsOfCalls k (S * a.chan.osr) z) hlen
    (dispersive_of_draws _ _ _ _ _ _ hd snr L Z hsnr hL hZ _ (draws_bounded k _ z Z hz))
  rw [hoi] at g2
  cases g2
  exact ⟨m, outs, st', g1, g3, by rw [hlen]; exact g4, fun u hu => ⟨(g5 u hu).2.1, (g5 u hu).2.2.1, (g5 u hu).2.2.2.1⟩,
    by rw [hlen]; exact g6, by rw [hlen]; exact g7⟩

/-- **C120**, Gaussian noise, decision feedback: the same with feedback taps, when the margin covers the start. -/
theorem C120_gaussian_feedback (a : LinkArgs) (fullScale : Bool) (r : ℤ × ℤ) (hf : ReceiverSetting a fullScale r) (g : ℝ → ℝ)
    (f : List ℝ) (c : ℕ → ℝ) (hc : CtleResponse a c) (hG : 0 < a.digGain) (pre post : ℕ) (F B : List ℝ)
    (hF : F.length = pre + post + 1) (hB : 0 < B.length) (δ : ℕ) (ε C P R : ℝ)
    (ho : OpenFeedbackEye a r g f c F B δ ε C P R (a.rxFactor * ∑ j ∈ range B.length, |B.getD j 0|))
    (hsamp : a.adcOsr / a.sampleRate = a.chan.osr)
    (seed : List Int) (hseed : seed.length = a.prbs.value) (b : ℕ → Int)
    (hb : LfsrStream (getPolynomial a.prbs) seed b) (S : ℕ) (hS : 0 < S)
    (henc : ∀ x : List Int, x.length = a.chunk → (∀ v ∈ x, v = 0 ∨ v = 1) → ∃ s, encoder a.rnd a.coding x = .ok s ∧
      s.length = S ∧ ∀ v ∈ s, 0 ≤ v ∧ v < numLevels a.constellation)
    (hdec : ∀ s : List Int, s.length = S → (∀ v ∈ s, 0 ≤ v ∧ v < numLevels a.constellation) → ∃ u, decoder a.coding s = .ok u)
    (k : ℕ) (hk : 0 < k) (hd : DispersiveChannel a.chan g f a.amp (S * a.chan.osr) ε []) (snr L Z : ℝ)
    (hsnr : a.chan.snr = some snr) (hL : PeakGain a.chan L) (hZ0 : 0 ≤ Z)
    (hZ : 2 * (a.amp / 2 * L * (∑ k ∈ range f.length, |f.getD k 0|) * Z) ^ 2 ≤ ε ^ 2 * (10 : ℝ) ^ (snr / 10)) :
    ∃ o, eqInit pre post B.length (some F) (some B) (some ((getLevels a.constellation false).map (fun l => l / a.digGain)))
        none none = .ok o ∧
      (1 - 2 * qFunc Z) ^ (k * (S * a.chan.osr))
        ≤ (normalDraws (k * (S * a.chan.osr))).real
            {z | SymbolsRight a seed b o S δ (drawsOfCalls k (S * a.chan.osr) z)} := by
  obtain ⟨hrl, htl, hrx0, hval, hbound⟩ := levels_match _ _ _ _ _ hf.amp hf.factor hf.factor' hf.levels
  have hlen : ∀ z, (drawsOfCalls k (S * a.chan.osr) z).length = k := by intro z; simp [drawsOfCalls]
  have hQ : 0 ≤ a.rxFactor * ∑ j ∈ range B.length, |B.getD j 0| := mul_nonneg hrx0.le (sum_nonneg fun _ _ => abs_nonneg _)
  have hoi := eqInit_ok (K := ℝ) (pre := pre) (post := post) (dfeTaps := B.length) (ffe := some F) (dfe := some B)
        (levels := some ((getLevels a.constellation false).map (fun l => l / a.digGain))) (ziFfe := none) (ziDfe := none)
        ⟨by simpa using hF, by simp, by simp, by simp, by simp⟩
  obtain ⟨o, hoi⟩ : ∃ o, eqInit (K := ℝ) pre post B.length (some F) (some B)
    (some ((getLevels a.constellation false).map (fun l => l / a.digGain))) none none = .ok o := ⟨_, hoi⟩
  refine ⟨o, hoi, ?_⟩
  have hbox := draws_box (n := k * (S * a.chan.osr)) (fun _ => Set.Icc (-Z) Z)
  have hq : (1 - 2 * qFunc Z) ^ (k * (S * a.chan.osr)) = (normalDraws (k * (S * a.chan.osr))).real {x | ∀ i, x i ∈ Set.Icc (-Z) Z} := by
    rw [hbox, prod_const, gauss_Icc (by linarith), qFunc_neg]
    simp only [card_univ, Fintype.card_fin]
    congr 1
    ring
  rw [hq]
  refine measureReal_mono ?_ (measure_ne_top _ _)
  intro z hz
  obtain ⟨m, o', outs, st', g1, g2, g3, g4, g5, g6, -, g7⟩ := C120_feedback a fullScale r hf g f c hc hG pre post F B hF hB δ ε C P R
    _ hQ ho hsamp seed hseed b hb S hS henc hdec k hk (drawsOfCalls k (S * a.chan.osr) z) (hlen z)
    (dispersive_of_draws _ _ _ _ _ _ hd snr L Z hsnr hL hZ _ (draws_bounded k _ z Z hz))
  rw [hoi] at g2
  cases g2
  exact ⟨m, outs, st', g1, g3, by rw [hlen]; exact g4, fun u hu => ⟨(g5 u hu).2.1, (g5 u hu).2.2.1, (g5 u hu).2.2.2.1⟩,
    by rw [hlen]; exact g6, by rw [hlen]; exact g7 le_rfl⟩

/-- the example link tolerates five standard deviations, so `k` calls with 8 symbols each are right with at least this probability -/
example (seed : List Int) (hseed : seed.length = 7) (b : ℕ → Int) (hb : LfsrStream (getPolynomial .prbs7) seed b) (k : ℕ) (hk : 0 < k) :
    ∃ (tx : List ℝ) (o : EqObj ℝ), (1 - 2 * qFunc 5) ^ (k * 16)
      ≤ (normalDraws (k * 16)).real {z | SymbolsRight (exDispersive tx) seed b o 8 1 (drawsOfCalls k 16 z)} := by
  obtain ⟨tx, h1, h2⟩ := exDispersive_open
  obtain ⟨fu, -, f2, f3⟩ := uncoded_codec (exDispersive tx).rnd (exDispersive tx).coding 1 (by omega)
    ⟨rfl, rfl, rfl, rfl, rfl, rfl, rfl, rfl, rfl, rfl⟩
  obtain ⟨o, -, h⟩ := C120_gaussian (exDispersive tx) true _ h1 rectFn _ _ (exDispersive_ctle tx) 0 1 (by omega) _ rfl none 1 8 2 _ _
    h2 (by norm_num [exDispersive]) seed hseed b hb 8 (by omega) (by
      intro x hx h01
      obtain ⟨sym, e1, e2, e3, -⟩ := f3 x 8 h01 hx
      exact ⟨sym, e1, e2, fun v hv => by have := e3 v hv; exact_mod_cast this⟩)
    (fun s hs _ => ⟨_, f2 s (Or.inl rfl)⟩) k hk (exDispersive_channel tx [] (by simp)) 40 1 5 rfl (peakGain_rect _ rfl) (by norm_num)
    (by
      rw [show (40 : ℝ) / 10 = ((4 : ℕ) : ℝ) by norm_num, Real.rpow_natCast]
      simp only [exDispersive, List.length_cons, List.length_nil, sum_range_succ, sum_range_zero]
      norm_num [abs_of_pos])
  exact ⟨tx, o, h⟩

end Verif
