import Verif.Spec.SimEqualized
import Verif.Lemmas.LinkResponse
import Verif.Props.SimFull
import Verif.Props.Ctle

/-!
# The example simulation's link with a dispersive channel, CTLE and equalizer taps (C120)
-/

open Finset

namespace Verif
open Spec

/-- the receiver on successive chunks for any equalizer whose calls succeed: the converter samples `D`, the equalizer output
`E`, and the decisions on it -/
theorem receiver_generic (a : LinkArgs) (fullScale : Bool) (r : ℤ × ℤ) (hf : ReceiverSetting a fullScale r) (T : ℕ)
    (o : EqObj ℝ) (Q : List ℝ → List ℝ → Prop)
    (heq : ∀ ds : List (List ℝ), ds ≠ [] → (∀ d ∈ ds, T ≤ d.length) → ∃ es o', eqCalls o ds = .ok (es, o') ∧
      es.map List.length = ds.map List.length ∧ Q ds.flatten es.flatten)
    (cs : List (List ℝ)) (hcs0 : cs ≠ [])
    (hcs : ∀ c ∈ cs, a.adcOsr / a.sampleRate ∣ c.length ∧ T * (a.adcOsr / a.sampleRate) ≤ c.length)
    (hdec : ∀ s : List Int, (∀ x ∈ s, 0 ≤ x ∧ x < numLevels a.constellation) →
      (∃ c ∈ cs, c.length = s.length * (a.adcOsr / a.sampleRate)) → ∃ b, decoder a.coding s = .ok b)
    (W : List ℝ) (hW : ctle cs.flatten a.zeros a.poles a.dcGain a.fs a.ctleOsr none = .ok (some (W, none))) :
    ∃ (outs : List RxOut) (st' : RxMem) (D E : List ℝ),
      receiverCalls a ⟨ctleObjInit a.zeros a.poles none, o⟩ cs = .ok (some (outs, st')) ∧
      outs.map (fun u => u.demapped.length * (a.adcOsr / a.sampleRate)) = cs.map List.length ∧
      (∀ u ∈ outs, (∀ x ∈ u.demapped, 0 ≤ x ∧ x < numLevels a.constellation) ∧
        decoder a.coding u.demapped = .ok u.decoded) ∧
      D.length * (a.adcOsr / a.sampleRate) = cs.flatten.length ∧ E.length = D.length ∧ Q D E ∧
      (∀ n, n < D.length → (r.1 : ℝ) - 1 / 2 ≤ W.getD (a.phase + n * (a.adcOsr / a.sampleRate)) 0 →
        W.getD (a.phase + n * (a.adcOsr / a.sampleRate)) 0 ≤ (r.2 : ℝ) + 1 / 2 →
        |D.getD n 0 - W.getD (a.phase + n * (a.adcOsr / a.sampleRate)) 0 / 2 ^ a.fracBits| ≤ 1 / 2 / 2 ^ a.fracBits) ∧
      (∀ n k, n < E.length → k < numLevels a.constellation →
        |a.digGain * E.getD n 0 - (getLevels a.constellation false).getD k 0|
          < ((getLevels a.constellation false).getD 1 0 - (getLevels a.constellation false).getD 0 0) / 2 →
        (outs.map RxOut.demapped).flatten.getD n 0 = k) ∧
      ∀ n, n < E.length → NearestFirst (getLevels a.constellation false) (a.digGain * E.getD n 0)
        ((getLevels a.constellation false).getD ((outs.map RxOut.demapped).flatten.getD n 0).toNat 0) := by
  obtain ⟨hz, hz0⟩ := hf.zeros
  obtain ⟨hp, hp0⟩ := hf.poles
  obtain ⟨hrl, htl, hrx0, hval, hbound⟩ := levels_match _ _ _ _ _ hf.amp hf.factor hf.factor' hf.levels
  have hst : 0 < a.adcOsr / a.sampleRate := by have := hf.phase; omega
  set st := a.adcOsr / a.sampleRate with hstd
  obtain ⟨ws, z', c1, c2, c3⟩ := C78_ctle_object a.zeros a.poles a.dcGain a.fs a.ctleOsr hz hp hz0 hp0 hf.rate cs
  rw [hW] at c2
  have hWe : W = ws.flatten := by simpa using c2
  have hWl : W.length = cs.flatten.length := by rw [hWe, List.length_flatten, List.length_flatten, c3]
  obtain ⟨D, d1, d2, d3⟩ := C74_conversion_partial (K := ℝ) a.totalBits a.fracBits a.adcOsr a.sampleRate a.phase hf.bits
    a.quant r hf.range hst ws.flatten
  have hwdiv : ∀ w ∈ ws, st ∣ w.length ∧ T * st ≤ w.length := by
    intro w hw
    have h1 : w.length ∈ cs.map List.length := by rw [← c3]; exact List.mem_map_of_mem hw
    obtain ⟨c, hc, e⟩ := List.mem_map.1 h1
    rw [← e]; exact hcs c hc
  obtain ⟨ds, e1, e2⟩ := C74_chunks a.totalBits a.fracBits a.adcOsr a.sampleRate a.phase a.quant hf.phase ws
    (fun w hw => (hwdiv w hw).1) D d1
  have hfa := adcCalls_forall _ _ _ _ _ _ _ _ e1
  have hdl : ds.map (fun d => d.length * st) = ws.map List.length := by
    clear e1 e2 d1 d2 d3 c1 c2 c3 hWe
    induction hfa with
    | nil => rfl
    | @cons w d ws' ds' h1 h2 ih =>
      rw [List.map_cons, List.map_cons, ih (fun w hw => hwdiv w (by simp [hw])),
        adcCall_length _ _ _ _ _ hf.bits _ r hf.range hf.phase w d (hwdiv w (by simp)).1 h1]
  have hds0 : ds ≠ [] := by
    intro h
    rw [h] at hdl
    have : ws = [] := by simpa using hdl.symm
    rw [this] at c3
    exact hcs0 (by simpa using c3.symm)
  have hdlen : ∀ d ∈ ds, T ≤ d.length := by
    intro d hd
    have h1 : d.length * st ∈ ws.map List.length := by
      rw [← hdl]; exact List.mem_map_of_mem (f := fun d : List ℝ => d.length * st) hd
    obtain ⟨w, hw, e⟩ := List.mem_map.1 h1
    have := (hwdiv w hw).2
    rw [e] at this
    exact Nat.le_of_mul_le_mul_right this hst
  obtain ⟨es, o', f1, f2, f3⟩ := heq ds hds0 hdlen
  choose dec hdec1 hdec2 hdec3 hdec4 using fun e : List ℝ =>
    recoverSymbols_total a.constellation (e.map (fun v => a.digGain * v))
  have hesl : (es.map (fun e => (dec e).map (fun (k : ℕ) => (k : Int)))).map (fun s => s.length * st) = cs.map List.length := by
    rw [← c3, ← hdl, List.map_map]
    have h1 : es.map (fun e => e.length * st) = ds.map (fun d => d.length * st) := by
      have := congrArg (List.map (· * st)) f2
      rw [List.map_map, List.map_map] at this
      exact this
    rw [← h1]
    apply List.map_congr_left
    intro e _
    simp [hdec2]
  have hdecs : ∀ s ∈ es.map (fun e => (dec e).map (fun (k : ℕ) => (k : Int))),
      (∀ x ∈ s, 0 ≤ x ∧ x < numLevels a.constellation) ∧ ∃ b, decoder a.coding s = .ok b := by
    intro s hs
    have hr : ∀ x ∈ s, 0 ≤ x ∧ x < numLevels a.constellation := by
      obtain ⟨e, he, rfl⟩ := List.mem_map.1 hs
      intro x hx
      obtain ⟨k, hk, rfl⟩ := List.mem_map.1 hx
      have := hdec3 e k hk
      omega
    refine ⟨hr, hdec s hr ?_⟩
    have h1 : s.length * st ∈ cs.map List.length := by
      rw [← hesl]; exact List.mem_map_of_mem (f := fun s : List Int => s.length * st) hs
    obtain ⟨c, hc, e⟩ := List.mem_map.1 h1
    exact ⟨c, hc, e⟩
  obtain ⟨bs, hbs⟩ : ∃ bs, List.Forall₂ (fun s b => decoder a.coding s = .ok b)
      (es.map (fun e => (dec e).map (fun (k : ℕ) => (k : Int)))) bs := by
    generalize es.map (fun e => (dec e).map (fun (k : ℕ) => (k : Int))) = ss at hdecs
    induction ss with
    | nil => exact ⟨[], List.Forall₂.nil⟩
    | cons s ss ih =>
      obtain ⟨bs, h⟩ := ih (fun s hs => hdecs s (by simp [hs]))
      obtain ⟨b, hb⟩ := (hdecs s (by simp)).2
      exact ⟨b :: bs, List.Forall₂.cons hb h⟩
  have hrec : List.Forall₂ (fun e s => recoverSymbols (e.map (fun v => a.digGain * v)) a.constellation
      (receiverLevels a.txLevels a.amp a.rxFactor) = .ok s) es (es.map (fun e => (dec e).map (fun (k : ℕ) => (k : Int)))) := by
    rw [List.forall₂_map_right_iff, List.forall₂_same]
    intro e _
    rw [hrl]
    exact hdec1 e
  have hrun := receiverCalls_of a cs ws ds es _ bs _ z' o o' c1 e1 f1 hrec hbs
  have hzip : (List.zipWith RxOut.mk (es.map (fun e => (dec e).map (fun (k : ℕ) => (k : Int)))) bs).map RxOut.demapped
      = es.map (fun e => (dec e).map (fun (k : ℕ) => (k : Int))) := by
    have hl := hbs.length_eq
    rw [List.map_zipWith]
    generalize es.map (fun e => (dec e).map (fun (k : ℕ) => (k : Int))) = ss at hl ⊢
    clear hbs hrun
    induction ss generalizing bs with
    | nil => rfl
    | cons s ss ih =>
      cases bs with
      | nil => cases hl
      | cons b bs =>
        simp only [List.zipWith_cons_cons]
        rw [ih bs (by simpa using hl)]
  have hDlen : D.length * st = cs.flatten.length := by
    rw [← e2, List.length_flatten, List.length_flatten, ← c3, ← hdl]
    generalize ds = l
    induction l with
    | nil => simp
    | cons d l ih => simp only [List.map_cons, List.sum_cons, Nat.add_mul, ih]
  have hesD : es.flatten.length = D.length := by
    rw [← e2, List.length_flatten, List.length_flatten, f2]
  refine ⟨_, _, D, es.flatten, hrun, ?_, ?_, hDlen, hesD, by rw [← e2]; exact f3, ?_, ?_, ?_⟩
  · have := congrArg (List.map (fun s : List Int => s.length * st)) hzip
    rw [List.map_map, hesl] at this
    exact this
  · intro u hu
    have hl := hbs
    generalize es.map (fun e => (dec e).map (fun (k : ℕ) => (k : Int))) = ss at hl hu hdecs
    clear hbs hrun hrec hzip hesl
    induction hl with
    | nil => cases hu
    | @cons s b ss' bs' h1 h2 ih =>
      simp only [List.zipWith_cons_cons, List.mem_cons] at hu
      rcases hu with rfl | hu
      · exact ⟨(hdecs s (by simp)).1, h1⟩
      · exact ih hu (fun s hs => hdecs s (List.mem_cons_of_mem _ hs))
  · intro n hnD hlo hhi
    have hin : (n + 1) * st ≤ cs.flatten.length := by
      rw [← hDlen]; exact Nat.mul_le_mul_right _ hnD
    have hidx : a.phase + n * st < ws.flatten.length := by
      rw [← hWe, hWl]
      have := hf.phase
      rw [Nat.succ_mul] at hin
      omega
    rw [hWe] at hlo hhi ⊢
    obtain ⟨c, hc1, -, -, hc2, -, -⟩ := d3 n (ws.flatten.getD (a.phase + n * st) 0) (D.getD n 0)
      (by rw [List.getD_eq_getElem?_getD, List.getElem?_eq_getElem hidx]; rfl)
      (by rw [List.getD_eq_getElem?_getD, List.getElem?_eq_getElem (by omega)]; rfl)
    have hq := hc2 hlo hhi
    rw [hc1, ← sub_div, abs_div, abs_of_pos (by positivity : (0 : ℝ) < 2 ^ a.fracBits), abs_sub_comm]
    exact div_le_div_of_nonneg_right hq (by positivity)
  · intro n k hnE hk hclose
    rw [hzip]
    have hflat : (es.map (fun e => (dec e).map (fun (k : ℕ) => (k : Int)))).flatten = ((es.map dec).flatten).map
        (fun (k : ℕ) => (k : Int)) := by
      rw [List.map_flatten, List.map_map]; rfl
    have hpoint : ∀ (es : List (List ℝ)) (i k : ℕ), i < es.flatten.length → k < numLevels a.constellation →
        |a.digGain * es.flatten.getD i 0 - (getLevels a.constellation false).getD k 0|
          < ((getLevels a.constellation false).getD 1 0 - (getLevels a.constellation false).getD 0 0) / 2 →
        (es.map dec).flatten.getD i 0 = k ∧ i < (es.map dec).flatten.length := by
      intro es
      induction es with
      | nil => intro i k hi; simp at hi
      | cons e es ih =>
        intro i k hi hk hclose
        rw [List.flatten_cons] at hi hclose
        rw [List.map_cons, List.flatten_cons]
        have hel : (dec e).length = e.length := by rw [hdec2]; simp
        by_cases hie : i < e.length
        · rw [List.getD_append _ _ _ _ hie] at hclose
          rw [List.getD_append _ _ _ _ (by omega), List.length_append]
          exact ⟨hdec4 e i k (by simpa using hie) hk (by rw [getD_map_lt _ 0 0 _ hie]; exact hclose), by omega⟩
        · rw [List.getD_append_right _ _ _ _ (by omega)] at hclose
          rw [List.getD_append_right _ _ _ _ (by omega), List.length_append, hel]
          obtain ⟨h1, h2⟩ := ih (i - e.length) k (by rw [List.length_append] at hi; omega) hk hclose
          exact ⟨h1, by omega⟩
    obtain ⟨g1, g2⟩ := hpoint es n k hnE hk hclose
    rw [hflat, getD_map_lt _ 0 0 _ g2, g1]
  · rw [hzip]
    clear hzip hrun hrec hbs hdecs hesl hesD f1 f2 f3
    induction es with
    | nil => intro n hn; simp at hn
    | cons e es ih =>
      intro n hn
      rw [List.map_cons, List.flatten_cons, List.flatten_cons]
      have hel : (dec e).length = e.length := by rw [hdec2]; simp
      rw [List.flatten_cons, List.length_append] at hn
      by_cases hie : n < e.length
      · rw [List.getD_append _ _ _ _ hie, List.getD_append _ _ _ _ (by simpa [hel] using hie),
          getD_map_lt _ 0 0 _ (by omega), Int.toNat_natCast]
        have := recoverSymbols_nearest a.constellation _ (dec e) (hdec1 e) n (by simpa using hie)
        rwa [getD_map_lt _ 0 0 _ hie] at this
      · rw [List.getD_append_right _ _ _ _ (by omega), List.getD_append_right _ _ _ _ (by simp [hel]; omega),
          List.length_map, hel]
        exact ih (n - e.length) (by omega)

/-- **C120**, CTLE: every accepted CTLE has exactly one impulse response, and its output is the convolution with it. -/
theorem C120_ctle (a : LinkArgs) (hz : a.zeros ≠ [] ∧ ∀ z ∈ a.zeros, z ≠ 0) (hp : a.poles ≠ [] ∧ ∀ p ∈ a.poles, p ≠ 0)
    (hF : 0 < a.fs * a.ctleOsr) :
    ∃! c, CtleResponse a c ∧ ∀ x : List ℝ, ∃ W, ctle x a.zeros a.poles a.dcGain a.fs a.ctleOsr none = .ok (some (W, none)) ∧
      W.length = x.length ∧ ∀ n, n < x.length → W.getD n 0 = ∑ m ∈ range (n + 1), c m * x.getD (n - m) 0 := by
  obtain ⟨fb, fa, -, h2, -⟩ := ctle_run a.zeros a.poles a.dcGain a.fs a.ctleOsr hz.1 hp.1 hz.2 hp.2 hF
  refine ⟨impulseAt fb fa (max a.zeros.length a.poles.length), ⟨fun M => ?_, fun x => ⟨_, h2 x, lfRun_length _ _ _ _ _,
    lfRun_conv _ _ _ x⟩⟩, ?_⟩
  · rw [h2]
    congr 3
    apply ext_getD 0 (by rw [lfRun_length]; simp)
    intro i hi
    rw [lfRun_length] at hi
    have hi' : i < M + 1 := by simpa using hi
    rw [lfRun_impulse _ _ _ M i (by omega), map_range_getD _ _ _ _ hi']
  · rintro c ⟨hc, -⟩
    funext m
    have := hc m
    rw [h2] at this
    have e : (lfRun id fb fa (List.replicate (max a.zeros.length a.poles.length) 0) (1 :: List.replicate m 0)).1
        = (List.range (m + 1)).map c := by simpa using this
    have e' := congrArg (fun l => l.getD m 0) e
    rw [map_range_getD _ _ _ _ (by omega)] at e'
    exact e'.symm

/-- the results of the calls of the link, component by component -/
theorem zip_outs : ∀ (ts : List (List Int × List Int × List ℝ)) (rs : List RxOut), ts.length = rs.length →
    (List.zipWith (fun t r => (⟨t.1, t.2.1, r⟩ : LinkOut)) ts rs).map LinkOut.pattern = ts.map Prod.fst ∧
    (List.zipWith (fun t r => (⟨t.1, t.2.1, r⟩ : LinkOut)) ts rs).map LinkOut.symbols = ts.map (fun t => t.2.1) ∧
    (List.zipWith (fun t r => (⟨t.1, t.2.1, r⟩ : LinkOut)) ts rs).map (fun u => u.rx.demapped) = rs.map RxOut.demapped ∧
    ∀ u ∈ List.zipWith (fun t r => (⟨t.1, t.2.1, r⟩ : LinkOut)) ts rs, (∃ t ∈ ts, t.1 = u.pattern ∧ t.2.1 = u.symbols) ∧
      u.rx ∈ rs := by
  intro ts
  induction ts with
  | nil => intro rs h; cases rs with
    | nil => simp
    | cons r rs => simp at h
  | cons t ts ih =>
    intro rs h
    cases rs with
    | nil => simp at h
    | cons r rs =>
      obtain ⟨i1, i2, i3, i4⟩ := ih rs (by simpa using h)
      refine ⟨by simp [i1], by simp [i2], by simp [i3], ?_⟩
      intro u hu
      rw [List.zipWith_cons_cons, List.mem_cons] at hu
      rcases hu with rfl | hu
      · exact ⟨⟨t, by simp, rfl, rfl⟩, by simp⟩
      · obtain ⟨⟨t', h1, h2⟩, h3⟩ := i4 u hu
        exact ⟨⟨t', by simp [h1], h2⟩, by simp [h3]⟩

/-- what the converter should see of the symbols `x`: each contributes its response at the sampling instants -/
noncomputable def sampledLink (a : LinkArgs) (g : ℝ → ℝ) (f : List ℝ) (c : ℕ → ℝ) (x : ℕ → ℝ) (n : ℕ) : ℝ :=
  ∑ q ∈ range (n + 1), x (n - q) * symbolResponse a.chan g f c (a.phase + q * a.chan.osr)

/-- the whole link for any equalizer whose calls succeed -/
theorem link_generic (a : LinkArgs) (fullScale : Bool) (r : ℤ × ℤ) (hf : ReceiverSetting a fullScale r) (g : ℝ → ℝ) (f : List ℝ)
    (c : ℕ → ℝ) (hc : CtleResponse a c) (ε C P : ℝ) (hε : 0 ≤ ε) (hC : ∀ M, ∑ m ∈ range M, |c m| ≤ C)
    (hP : ∀ M, ∑ l ∈ range M, |symbolResponse a.chan g f c (a.phase + l * a.chan.osr)| ≤ P)
    (hlow : (r.1 : ℝ) - 1 / 2 ≤ -(a.amp / 2 * P + C * ε)) (hhigh : a.amp / 2 * P + C * ε ≤ (r.2 : ℝ) + 1 / 2)
    (hsamp : a.adcOsr / a.sampleRate = a.chan.osr)
    (seed : List Int) (hseed : seed.length = a.prbs.value) (b : ℕ → Int)
    (hb : LfsrStream (getPolynomial a.prbs) seed b) (T S : ℕ) (hS : T ≤ S) (hS0 : 0 < S)
    (o : EqObj ℝ) (Q : List ℝ → List ℝ → Prop)
    (heq : ∀ ds : List (List ℝ), ds ≠ [] → (∀ d ∈ ds, T ≤ d.length) → ∃ es o', eqCalls o ds = .ok (es, o') ∧
      es.map List.length = ds.map List.length ∧ Q ds.flatten es.flatten)
    (henc : ∀ x : List Int, x.length = a.chunk → (∀ v ∈ x, v = 0 ∨ v = 1) → ∃ s, encoder a.rnd a.coding x = .ok s ∧
      s.length = S ∧ ∀ v ∈ s, 0 ≤ v ∧ v < numLevels a.constellation)
    (hdec : ∀ s : List Int, s.length = S → (∀ v ∈ s, 0 ≤ v ∧ v < numLevels a.constellation) → ∃ u, decoder a.coding s = .ok u)
    (k : ℕ) (hk : 0 < k) (noises : List (List ℝ)) (hk' : noises.length = k)
    (hd : DispersiveChannel a.chan g f a.amp (S * a.chan.osr) ε noises) :
    ∃ (m : ChannelMem) (outs : List LinkOut) (st' : LinkState) (D E : List ℝ) (x : ℕ → ℝ), channelInit a.chan = .ok m ∧
      linkCalls a noises ⟨seed, m, ⟨ctleObjInit a.zeros a.poles none, o⟩⟩ = .ok (some (outs, st')) ∧ outs.length = k ∧
      (∀ u ∈ outs, u.pattern.length = a.chunk ∧ encoder a.rnd a.coding u.pattern = .ok u.symbols ∧ u.symbols.length = S ∧
        u.rx.demapped.length = S ∧ decoder a.coding u.rx.demapped = .ok u.rx.decoded ∧
        ∀ v ∈ u.rx.demapped, 0 ≤ v ∧ v < numLevels a.constellation) ∧
      (outs.map LinkOut.pattern).flatten = (List.range (k * a.chunk)).map b ∧
      D.length = k * S ∧ E.length = k * S ∧ Q D E ∧
      (∀ n, |x n| ≤ a.amp / 2) ∧
      (∀ n, n < k * S → 0 ≤ (outs.map LinkOut.symbols).flatten.getD n 0 ∧
        (outs.map LinkOut.symbols).flatten.getD n 0 < numLevels a.constellation ∧
        x n * 2 / a.amp * a.rxFactor = (getLevels a.constellation false).getD ((outs.map LinkOut.symbols).flatten.getD n 0).toNat 0) ∧
      (∀ n, n < k * S → |D.getD n 0 - sampledLink a g f c x n / 2 ^ a.fracBits| ≤ (1 / 2 + C * ε) / 2 ^ a.fracBits) ∧
      (∀ n j, n < k * S → j < numLevels a.constellation →
        |a.digGain * E.getD n 0 - (getLevels a.constellation false).getD j 0|
          < ((getLevels a.constellation false).getD 1 0 - (getLevels a.constellation false).getD 0 0) / 2 →
        (outs.map (fun u => u.rx.demapped)).flatten.getD n 0 = j) ∧
      ∀ n, n < k * S → NearestFirst (getLevels a.constellation false) (a.digGain * E.getD n 0)
        ((getLevels a.constellation false).getD ((outs.map (fun u : LinkOut => u.rx.demapped)).flatten.getD n 0).toNat 0) := by
  obtain ⟨hrl, htl, hrx0, hval, hbound⟩ := levels_match _ _ _ _ _ hf.amp hf.factor hf.factor' hf.levels
  have hn := numLevels_pos a.constellation
  have hosr := hd.osr
  have hfc : a.chan.firCoefs = f := by unfold ChannelArgs.firCoefs; rw [hd.fir]; rfl
  have hinit := channelInit_rest a.chan [1] (by unfold ChannelArgs.iirCoefs; rw [hd.iir]) hd.span hd.osr
    (by rw [hfc]; exact List.length_pos_of_ne_nil hd.taps) hd.rest.1 hd.rest.2
  obtain ⟨m, hinit⟩ : ∃ m, channelInit a.chan = .ok m := ⟨_, hinit⟩
  have husable : UsablePulse a.chan := by
    rcases hd.pulse with h | h | h | h
    · exact Or.inl h.1
    · exact Or.inr (Or.inl h.1)
    · exact Or.inr (Or.inr ⟨Or.inl h.1, h.2.1⟩)
    · exact Or.inr (Or.inr ⟨Or.inr h.1, h.2.1.ne'⟩)
  obtain ⟨ps, seed', p1, p2, p3, p4, -⟩ := C73_generator a.prbs seed hseed b hb a.chunk k
  have hb01 : ∀ t, b t = 0 ∨ b t = 1 := by
    rw [lfsrStream_unique hb (lfsrStream_bitAt _ _ (by rw [poly_length, hseed]))]
    exact fun t => bitAt_mem _ _ _
  have hps01 : ∀ x ∈ ps, ∀ v ∈ x, v = 0 ∨ v = 1 := by
    intro x hx v hv
    have : v ∈ ps.flatten := List.mem_flatten.2 ⟨x, hx, hv⟩
    rw [p4] at this
    obtain ⟨t, -, rfl⟩ := List.mem_map.1 this
    exact hb01 t
  obtain ⟨ts, t1, t2, t3⟩ := transmitterCalls_of a k seed seed' ps p1
    (P := fun s v => s.length = S ∧ (∀ y ∈ s, 0 ≤ y ∧ y < numLevels a.constellation) ∧
      v = s.map (fun y => a.txLevels.getD y.toNat 0)) (by
    intro x hx
    obtain ⟨s, h1, h2, h3⟩ := henc x (p3 x hx) (hps01 x hx)
    have hsent := (C17_mapping_levels a.constellation false false s a.txLevels).2.1 htl h3
    exact ⟨s, _, h1, hsent, h2, h3, by simp⟩)
  set syms := (ts.map (fun t => t.2.1)).flatten with hsyms
  have htsl : ts.length = k := by rw [← p2, ← t2, List.length_map]
  have hts0 : ts ≠ [] := List.ne_nil_of_length_pos (by omega)
  have hsl : syms.length = k * S := by
    rw [hsyms, List.length_flatten, List.map_map, ← htsl]
    have : ts.map (List.length ∘ fun t => t.2.1) = ts.map (fun _ => S) := by
      apply List.map_congr_left
      intro t h
      exact (t3 t h).2.2.1
    rw [this]; simp
  have hxs : (ts.map (fun t => t.2.2)).flatten = syms.map (fun y => a.txLevels.getD y.toNat 0) := by
    rw [hsyms, List.map_flatten, List.map_map]
    congr 1
    apply List.map_congr_left
    intro t h
    exact (t3 t h).2.2.2.2
  have hxl : ∀ t ∈ ts, t.2.2.length = S := by
    intro t h
    rw [(t3 t h).2.2.2.2, List.length_map, (t3 t h).2.2.1]
  have hsym01 : ∀ y ∈ syms, 0 ≤ y ∧ y < numLevels a.constellation := by
    intro y hy
    obtain ⟨l, hl, hyl⟩ := List.mem_flatten.1 hy
    obtain ⟨t, h, rfl⟩ := List.mem_map.1 hl
    exact (t3 t h).2.2.2.1 y hyl
  have hsymn : ∀ n, n < k * S → 0 ≤ syms.getD n 0 ∧ syms.getD n 0 < numLevels a.constellation := by
    intro n h
    exact hsym01 _ (by
      rw [List.getD_eq_getElem?_getD, List.getElem?_eq_getElem (by rw [hsl]; exact h)]; exact List.getElem_mem _)
  set x : ℕ → ℝ := fun n => (syms.map (fun y => a.txLevels.getD y.toNat 0)).getD n 0 with hx
  have hxn : ∀ n, n < k * S → x n = a.txLevels.getD (syms.getD n 0).toNat 0 := by
    intro n h
    rw [hx]
    exact getD_map_lt _ 0 0 _ (by rw [hsl]; exact h)
  have hxb : ∀ n, |x n| ≤ a.amp / 2 := by
    intro n
    by_cases h : n < k * S
    · rw [hxn n h]
      have := hsymn n h
      exact hbound _ (by omega)
    · have : x n = 0 := by
        rw [hx]
        simp only
        rw [List.getD_eq_getElem?_getD, List.getElem?_eq_none (by rw [List.length_map, hsl]; omega)]
        rfl
      rw [this, abs_zero]
      linarith [hf.amp]
  -- channel
  obtain ⟨m', ys, q1, q2, hyl, q4⟩ := dispersive_output a.chan g f a.amp ε hε hf.amp.le S hS0 noises (ts.map (fun t => t.2.2)) hd
    husable m hinit (by simp [hk', htsl]) (by simpa using hts0) (by
      intro c hc
      obtain ⟨t, h, rfl⟩ := List.mem_map.1 hc
      exact hxl t h) (by
      intro c hc v hv
      obtain ⟨t, h, rfl⟩ := List.mem_map.1 hc
      rw [(t3 t h).2.2.2.2] at hv
      obtain ⟨y, hy, rfl⟩ := List.mem_map.1 hv
      have := (t3 t h).2.2.2.1 y hy
      exact hbound _ (by omega))
  rw [hxs, List.length_map (f := fun y : Int => a.txLevels.getD y.toNat 0), hsl, List.length_map, htsl, ← Nat.mul_assoc] at q4
  rw [List.length_map, htsl] at q2
  have hyf : ys.flatten.length = k * S * a.chan.osr := by
    rw [List.length_flatten, show ys.map List.length = ys.map (fun _ => S * a.chan.osr) from List.map_congr_left hyl]
    simp [q2, Nat.mul_assoc]
  have hys0 : ys ≠ [] := List.ne_nil_of_length_pos (by omega)
  -- CTLE
  obtain ⟨c', ⟨hc1, hc2⟩, -⟩ := C120_ctle a hf.zeros hf.poles hf.rate
  have hcc : c' = c := by
    funext i
    have h1 := hc i
    rw [hc1 i] at h1
    have e : (List.range (i + 1)).map c' = (List.range (i + 1)).map c := by simpa using h1
    have e' := congrArg (fun l => l.getD i 0) e
    rwa [map_range_getD _ _ _ _ (by omega), map_range_getD _ _ _ _ (by omega)] at e'
  rw [hcc] at hc2
  obtain ⟨W, hct, hWl, hWn⟩ := hc2 ys.flatten
  have hphase : a.phase < a.chan.osr := by rw [← hsamp]; exact hf.phase
  have hWs : ∀ n, n < k * S → |W.getD (a.phase + n * a.chan.osr) 0 - sampledLink a g f c x n| ≤ C * ε := by
    intro n hnk
    have hlt : a.phase + n * a.chan.osr < k * S * a.chan.osr := by
      have := Nat.mul_le_mul_right a.chan.osr (show n + 1 ≤ k * S from hnk)
      rw [Nat.succ_mul] at this
      omega
    set t := a.phase + n * a.chan.osr with ht
    have hid : sampledLink a g f c x n = ∑ m ∈ range (t + 1), c m * ∑ j ∈ range (k * S), x j *
        (if j * a.chan.osr ≤ t - m then pulseThrough a.chan g f (t - m - j * a.chan.osr) else 0) := by
      rw [conv_superpose c (pulseThrough a.chan g f) (k * S) x (fun j => j * a.chan.osr) t, sampledLink,
        ← superpose_reflect (fun q => symbolResponse a.chan g f c (a.phase + q * a.chan.osr)) x (k * S) n hnk]
      refine sum_congr rfl fun j _ => ?_
      congr 1
      by_cases hj : j ≤ n
      · have h1 : j * a.chan.osr ≤ n * a.chan.osr := Nat.mul_le_mul_right _ hj
        rw [if_pos hj, if_pos (by omega)]
        have h2 : a.phase + (n - j) * a.chan.osr = t - j * a.chan.osr := by
          rw [Nat.sub_mul]; omega
        rw [h2]
        rfl
      · rw [if_neg hj, if_neg]
        have h1 : (n + 1) * a.chan.osr ≤ j * a.chan.osr := Nat.mul_le_mul_right _ (by omega)
        rw [Nat.succ_mul] at h1
        omega
    rw [hWn t (by rw [hyf]; exact hlt), hid, ← sum_sub_distrib]
    calc |∑ m ∈ range (t + 1), (c m * ys.flatten.getD (t - m) 0 - c m * ∑ j ∈ range (k * S), x j *
            (if j * a.chan.osr ≤ t - m then pulseThrough a.chan g f (t - m - j * a.chan.osr) else 0))|
        ≤ ∑ m ∈ range (t + 1), |c m| * ε := by
          refine (abs_sum_le_sum_abs _ _).trans (sum_le_sum fun m _ => ?_)
          rw [← mul_sub, abs_mul]
          exact mul_le_mul_of_nonneg_left (q4 (t - m) (by omega)) (abs_nonneg _)
      _ = (∑ m ∈ range (t + 1), |c m|) * ε := by rw [sum_mul]
      _ ≤ C * ε := mul_le_mul_of_nonneg_right (hC _) hε
  have hsb : ∀ n, |sampledLink a g f c x n| ≤ a.amp / 2 * P := by
    intro n
    unfold sampledLink
    calc |∑ q ∈ range (n + 1), x (n - q) * symbolResponse a.chan g f c (a.phase + q * a.chan.osr)|
        ≤ ∑ q ∈ range (n + 1), a.amp / 2 * |symbolResponse a.chan g f c (a.phase + q * a.chan.osr)| := by
          refine (abs_sum_le_sum_abs _ _).trans (sum_le_sum fun q _ => ?_)
          rw [abs_mul]
          exact mul_le_mul_of_nonneg_right (hxb _) (abs_nonneg _)
      _ = a.amp / 2 * ∑ q ∈ range (n + 1), |symbolResponse a.chan g f c (a.phase + q * a.chan.osr)| := by rw [mul_sum]
      _ ≤ a.amp / 2 * P := mul_le_mul_of_nonneg_left (hP _) (by linarith [hf.amp])
  -- receiver
  obtain ⟨rs, rx', D, E, r1, r2, r3, r4, r5, r6, r7, r8, r9⟩ := receiver_generic a fullScale r hf T o Q heq ys hys0
    (by
      intro y hy
      rw [hsamp, hyl y hy]
      exact ⟨Dvd.intro_left _ rfl, Nat.mul_le_mul_right _ hS⟩)
    (by
      intro s h1 ⟨y, hy, h2⟩
      rw [hsamp, hyl y hy] at h2
      exact hdec s (Nat.eq_of_mul_eq_mul_right hosr h2).symm h1)
    W hct
  have hDl : D.length = k * S := by
    rw [hsamp, hyf] at r4
    exact Nat.eq_of_mul_eq_mul_right hosr r4
  have hrl2 : rs.length = k := by
    have := congrArg List.length r2
    simp only [List.length_map] at this
    omega
  have hrd : ∀ u ∈ rs, u.demapped.length = S := by
    intro u hu
    have h1 : u.demapped.length * (a.adcOsr / a.sampleRate) ∈ ys.map List.length := by
      rw [← r2]; exact List.mem_map_of_mem (f := fun u : RxOut => u.demapped.length * (a.adcOsr / a.sampleRate)) hu
    obtain ⟨c, hc, e⟩ := List.mem_map.1 h1
    rw [hyl c hc, hsamp] at e
    exact (Nat.eq_of_mul_eq_mul_right hosr e).symm
  have hlink := linkCalls_of a noises seed seed' _ _ _ rx' ts ys rs (by rw [hk']; exact t1) q1 r1
  obtain ⟨i1, i2, i3, i4⟩ := zip_outs ts rs (by omega)
  refine ⟨m, _, _, D, E, x, hinit, hlink, by simp [htsl, hrl2], ?_, by rw [i1, t2, p4], hDl, by omega, r6, hxb, ?_, ?_, ?_, ?_⟩
  · intro u hu
    obtain ⟨⟨t, h1, h2, h3⟩, h4⟩ := i4 u hu
    have h5 := t3 t h1
    rw [h2, h3] at h5
    refine ⟨p3 _ ?_, h5.1, h5.2.2.1, hrd _ h4, (r3 _ h4).2, (r3 _ h4).1⟩
    rw [← t2, ← h2]
    exact List.mem_map_of_mem h1
  · intro n hnk
    rw [i2, ← hsyms]
    have := hsymn n hnk
    refine ⟨this.1, this.2, ?_⟩
    rw [hxn n hnk]
    exact hval _ (by omega)
  · intro n hnk
    have h1 := hWs n hnk
    have h2 := abs_le.1 (hsb n)
    have h3 := abs_le.1 h1
    have h4 := r7 n (by omega) (by rw [hsamp]; linarith [h2.1, h3.1]) (by rw [hsamp]; linarith [h2.2, h3.2])
    rw [hsamp] at h4
    have hpw : (0 : ℝ) < 2 ^ a.fracBits := by positivity
    have h5 : |W.getD (a.phase + n * a.chan.osr) 0 / 2 ^ a.fracBits - sampledLink a g f c x n / 2 ^ a.fracBits|
        ≤ C * ε / 2 ^ a.fracBits := by
      rw [← sub_div, abs_div, abs_of_pos hpw]
      exact div_le_div_of_nonneg_right h1 hpw.le
    have := abs_sub_le (D.getD n 0) (W.getD (a.phase + n * a.chan.osr) 0 / 2 ^ a.fracBits)
      (sampledLink a g f c x n / 2 ^ a.fracBits)
    rw [add_div]
    linarith
  · intro n j hnk hj hclose
    rw [i3]
    exact r8 n j (by omega) hj hclose
  · intro n hnk
    rw [i3]
    exact r9 n (by omega)

/-- the feed-forward taps turn the sampled responses into the response of the link -/
theorem taps_link (a : LinkArgs) (g : ℝ → ℝ) (f : List ℝ) (c x : ℕ → ℝ) (F : List ℝ) (n : ℕ) :
    ∑ i ∈ range F.length, F.getD i 0 * (if i ≤ n then sampledLink a g f c x (n - i) else 0)
      = ∑ q ∈ range (n + 1), x (n - q) * linkResponse a.chan g f c a.phase F q := by
  rw [← superpose_reflect (linkResponse a.chan g f c a.phase F) x (n + 1) n (by omega)]
  unfold linkResponse
  rw [← taps_superpose F (fun l => symbolResponse a.chan g f c (a.phase + l * a.chan.osr)) (n + 1) x n]
  refine sum_congr rfl fun i _ => ?_
  congr 1
  split_ifs with hi
  · rw [sampledLink, ← superpose_reflect (fun l => symbolResponse a.chan g f c (a.phase + l * a.chan.osr)) x (n + 1) (n - i)
      (by omega)]
  · rfl

/-- how far the gained response is from the level of the main cursor's symbol -/
theorem cursor_close (G amp R rx : ℝ) (ha : 0 ≤ amp) (h x : ℕ → ℝ) (δ n : ℕ) (hδ : δ ≤ n) (hx : ∀ i, |x i| ≤ amp / 2)
    (hR : ∑ l ∈ (range (n + 1)).erase δ, |h l| ≤ R) :
    |G * ∑ q ∈ range (n + 1), x (n - q) * h q - x (n - δ) * rx| ≤ |G| * (amp / 2 * R) + amp / 2 * |G * h δ - rx| := by
  have hmem : δ ∈ range (n + 1) := mem_range.2 (by omega)
  rw [← add_sum_erase _ _ hmem]
  have e : G * (x (n - δ) * h δ + ∑ q ∈ (range (n + 1)).erase δ, x (n - q) * h q) - x (n - δ) * rx
      = G * ∑ q ∈ (range (n + 1)).erase δ, x (n - q) * h q + x (n - δ) * (G * h δ - rx) := by ring
  rw [e]
  refine (abs_add_le _ _).trans (add_le_add ?_ ?_)
  · rw [abs_mul]
    refine mul_le_mul_of_nonneg_left ?_ (abs_nonneg _)
    refine (abs_sum_le_sum_abs _ _).trans ?_
    calc ∑ q ∈ (range (n + 1)).erase δ, |x (n - q) * h q| ≤ ∑ q ∈ (range (n + 1)).erase δ, amp / 2 * |h q| := by
          refine sum_le_sum fun q _ => ?_
          rw [abs_mul]
          exact mul_le_mul_of_nonneg_right (hx _) (abs_nonneg _)
      _ = amp / 2 * ∑ q ∈ (range (n + 1)).erase δ, |h q| := by rw [mul_sum]
      _ ≤ amp / 2 * R := mul_le_mul_of_nonneg_left hR (by linarith)
  · rw [abs_mul]
    exact mul_le_mul_of_nonneg_right (hx _) (abs_nonneg _)

/-- taps on values close to ideal ones -/
theorem taps_close (F D : List ℝ) (s : ℕ → ℝ) (e : ℝ) (N n : ℕ) (hn : n < N) (h : ∀ i, i < N → |D.getD i 0 - s i| ≤ e) :
    |∑ i ∈ range F.length, F.getD i 0 * (if i ≤ n then D.getD (n - i) 0 else 0)
        - ∑ i ∈ range F.length, F.getD i 0 * (if i ≤ n then s (n - i) else 0)|
      ≤ (∑ i ∈ range F.length, |F.getD i 0|) * e := by
  rw [← sum_sub_distrib, sum_mul]
  refine (abs_sum_le_sum_abs _ _).trans (sum_le_sum fun i _ => ?_)
  rw [← mul_sub, abs_mul]
  refine mul_le_mul_of_nonneg_left ?_ (abs_nonneg _)
  split_ifs
  · exact h _ (by omega)
  · rw [sub_zero, abs_zero]
    exact (abs_nonneg _).trans (h n hn)

theorem withPast_rest (D : List ℝ) (n i : ℕ) : withPast (((none : Option (List ℝ)).getD []).drop 1).reverse D ((n : ℤ) - i)
    = if i ≤ n then D.getD (n - i) 0 else 0 := by
  split_ifs with h
  · rw [show (n : ℤ) - i = ((n - i : ℕ) : ℤ) by omega, withPast_nat]
  · unfold withPast
    rw [if_neg (by omega)]
    simp

/-- **C120**, symbols. For every pulse, every FIR channel, every CTLE, all feed-forward taps and bounded noise: if the eye at the
slicer is open, then for every pattern seed and every code whose encoder turns a chunk into `S` valid symbols and whose decoder
accepts `S` symbols, `k` calls of the link succeed, the patterns are the consecutive chunks of the PRBS stream, and the demapped
symbols are the encoded symbols, `δ` symbols late, from the first symbol on. -/
theorem C120_symbols (a : LinkArgs) (fullScale : Bool) (r : ℤ × ℤ) (hf : ReceiverSetting a fullScale r) (g : ℝ → ℝ) (f : List ℝ)
    (c : ℕ → ℝ) (hc : CtleResponse a c) (pre post : ℕ) (hp : 0 < pre + post) (F : List ℝ) (hF : F.length = pre + post + 1)
    (lv : Option (List ℝ)) (δ : ℕ) (ε C P R : ℝ) (ho : OpenLinkEye a r g f c F δ ε C P R)
    (hsamp : a.adcOsr / a.sampleRate = a.chan.osr)
    (seed : List Int) (hseed : seed.length = a.prbs.value) (b : ℕ → Int)
    (hb : LfsrStream (getPolynomial a.prbs) seed b) (S : ℕ) (hS : pre + post + 1 ≤ S)
    (henc : ∀ x : List Int, x.length = a.chunk → (∀ v ∈ x, v = 0 ∨ v = 1) → ∃ s, encoder a.rnd a.coding x = .ok s ∧
      s.length = S ∧ ∀ v ∈ s, 0 ≤ v ∧ v < numLevels a.constellation)
    (hdec : ∀ s : List Int, s.length = S → (∀ v ∈ s, 0 ≤ v ∧ v < numLevels a.constellation) → ∃ u, decoder a.coding s = .ok u)
    (k : ℕ) (hk : 0 < k) (noises : List (List ℝ)) (hk' : noises.length = k)
    (hd : DispersiveChannel a.chan g f a.amp (S * a.chan.osr) ε noises) :
    ∃ (m : ChannelMem) (o : EqObj ℝ) (outs : List LinkOut) (st' : LinkState), channelInit a.chan = .ok m ∧
      eqInit pre post 0 (some F) none lv none none = .ok o ∧
      linkCalls a noises ⟨seed, m, ⟨ctleObjInit a.zeros a.poles none, o⟩⟩ = .ok (some (outs, st')) ∧ outs.length = k ∧
      (∀ u ∈ outs, u.pattern.length = a.chunk ∧ encoder a.rnd a.coding u.pattern = .ok u.symbols ∧ u.symbols.length = S ∧
        u.rx.demapped.length = S ∧ decoder a.coding u.rx.demapped = .ok u.rx.decoded ∧
        ∀ v ∈ u.rx.demapped, 0 ≤ v ∧ v < numLevels a.constellation) ∧
      (outs.map LinkOut.pattern).flatten = (List.range (k * a.chunk)).map b ∧
      ∀ n, n + δ < k * S →
        (outs.map (fun u => u.rx.demapped)).flatten.getD (n + δ) 0 = (outs.map LinkOut.symbols).flatten.getD n 0 := by
  have hoi := eqInit_ok (K := ℝ) (pre := pre) (post := post) (dfeTaps := 0) (ffe := some F) (dfe := none) (levels := lv)
        (ziFfe := none) (ziDfe := none) ⟨by simpa using hF, by simp, by simp, by simp, by simp⟩
  obtain ⟨o, hoi⟩ : ∃ o, eqInit (K := ℝ) pre post 0 (some F) none lv none none = .ok o := ⟨_, hoi⟩
  obtain ⟨m, outs, st', D, E, x, g1, g2, g3, g4, g5, g6, g7, g8, g9, g10, g11, g12, -⟩ := link_generic a fullScale r hf g f c hc ε C P
    ho.noise ho.ctle ho.peak ho.low ho.high hsamp seed hseed b hb (pre + post + 1) S hS (by omega) o
    (fun D E => ∀ n, n < D.length → E.getD n 0 = ∑ i ∈ range F.length, F.getD i 0 * (if i ≤ n then D.getD (n - i) 0 else 0))
    (by
      intro ds h1 h2
      obtain ⟨es, o', e1, e2, e3⟩ := C75_feed_forward_partial pre post hp (some F) lv none o hoi ds h1 h2
      refine ⟨es, o', e1, e2, fun n hn => ?_⟩
      rw [e3 n hn, hF]
      refine sum_congr rfl fun i _ => ?_
      rw [withPast_rest]
      rfl)
    henc hdec k hk noises hk' hd
  refine ⟨m, o, outs, st', g1, hoi, g2, g3, g4, g5, ?_⟩
  intro n hn
  obtain ⟨s1, s2, s3⟩ := g10 n (by omega)
  have hpw : (0 : ℝ) < 2 ^ a.fracBits := by positivity
  rw [g12 (n + δ) ((outs.map LinkOut.symbols).flatten.getD n 0).toNat hn (by omega) ?_]
  · exact Int.toNat_of_nonneg s1
  rw [← s3, g8 (n + δ) (by rw [g6]; exact hn)]
  have h1 := taps_close F D (fun i => sampledLink a g f c x i / 2 ^ a.fracBits) _ (k * S) (n + δ) hn g11
  have h2 := taps_link a g f c x F (n + δ)
  have h3 : ∑ i ∈ range F.length, F.getD i 0 * (if i ≤ n + δ then sampledLink a g f c x (n + δ - i) / 2 ^ a.fracBits else 0)
      = (∑ q ∈ range (n + δ + 1), x (n + δ - q) * linkResponse a.chan g f c a.phase F q) / 2 ^ a.fracBits := by
    rw [← h2, sum_div]
    refine sum_congr rfl fun i _ => ?_
    split_ifs
    · ring
    · ring
  rw [h3] at h1
  have h4 := cursor_close (a.digGain / 2 ^ a.fracBits) a.amp R (2 * a.rxFactor / a.amp) hf.amp.le
    (linkResponse a.chan g f c a.phase F) x δ (n + δ) (by omega) g9 (ho.isi _)
  rw [Nat.add_sub_cancel, abs_div, abs_of_pos hpw] at h4
  have hm := ho.margin
  set V := ∑ i ∈ range F.length, F.getD i 0 * (if i ≤ n + δ then D.getD (n + δ - i) 0 else 0)
  set I := ∑ q ∈ range (n + δ + 1), x (n + δ - q) * linkResponse a.chan g f c a.phase F q
  have h5 : a.digGain * V - x n * 2 / a.amp * a.rxFactor
      = a.digGain * (V - I / 2 ^ a.fracBits) + (a.digGain / 2 ^ a.fracBits * I - x n * (2 * a.rxFactor / a.amp)) := by ring
  rw [h5]
  have h6 : |a.digGain * (V - I / 2 ^ a.fracBits)|
      ≤ |a.digGain| * ((∑ i ∈ range F.length, |F.getD i 0|) * ((1 / 2 + C * ε) / 2 ^ a.fracBits)) := by
    rw [abs_mul]
    exact mul_le_mul_of_nonneg_left h1 (abs_nonneg _)
  refine lt_of_le_of_lt (abs_add_le _ _) (lt_of_le_of_lt (add_le_add h6 h4) (lt_of_le_of_lt (le_of_eq ?_) hm))
  ring

/-- without codes, right symbols give right bits, and the error checker confirms it -/
theorem bits_of_symbols (a : LinkArgs) (seed : List Int) (hseed : seed.length = a.prbs.value) (b : ℕ → Int)
    (hb : LfsrStream (getPolynomial a.prbs) seed b) (S w δ : ℕ) (hS : 0 < S) (hw : 1 ≤ w) (hu : Uncoded a.coding w)
    (hchunk : a.chunk = w * S) (hone : w = 1 ∨ S ≠ 1 ∨ a.coding.flags.matrixOp = false) (k : ℕ) (outs : List LinkOut)
    (g4 : outs.length = k)
    (g5 : ∀ u ∈ outs, u.pattern.length = a.chunk ∧ encoder a.rnd a.coding u.pattern = .ok u.symbols ∧ u.symbols.length = S ∧
        u.rx.demapped.length = S ∧ decoder a.coding u.rx.demapped = .ok u.rx.decoded ∧
        ∀ v ∈ u.rx.demapped, 0 ≤ v ∧ v < numLevels a.constellation)
    (g6 : (outs.map LinkOut.pattern).flatten = (List.range (k * a.chunk)).map b)
    (g7 : ∀ n, n + δ < k * S →
        (outs.map (fun u => u.rx.demapped)).flatten.getD (n + δ) 0 = (outs.map LinkOut.symbols).flatten.getD n 0) :
    ∃ bits : List (List Int), outs.map (fun u => u.rx.decoded) = bits.map (fun l => l.map (fun (v : Int) => (v : ℚ))) ∧
      (∀ l ∈ bits, l.length = a.chunk) ∧
      (∀ n, n + w * δ < k * a.chunk → bits.flatten.getD (n + w * δ) 0 = b n) ∧
      (a.chunk ≤ 2 ^ a.prbs.value - 1 → ∀ j, w * δ ≤ j * a.chunk → j ≤ k →
        ∃ s s', berInit a.prbs seed = .ok s ∧ checkBers a.prbs s (bits.drop j) = .ok (List.replicate (k - j) 0, s') ∧
          s'.accErrors = 0) := by
  obtain ⟨f, f1, f2, f3⟩ := uncoded_codec a.rnd a.coding w hw hu
  have hdec : ∀ s : List Int, s.length = S → decoder a.coding s = .ok ((s.map f).flatten.map (fun (v : Int) => (v : ℚ))) := by
    intro s hs
    exact f2 s (by rw [hs]; exact hone)
  have hb01 : ∀ t, b t = 0 ∨ b t = 1 := by
    rw [lfsrStream_unique hb (lfsrStream_bitAt _ _ (by rw [poly_length, hseed]))]
    exact fun t => bitAt_mem _ _ _
  have hpat : ∀ u ∈ outs, IsBinary u.pattern := by
    intro u hu v hv
    have : v ∈ (outs.map LinkOut.pattern).flatten := List.mem_flatten.2 ⟨_, List.mem_map_of_mem hu, hv⟩
    rw [g6] at this
    obtain ⟨t, -, rfl⟩ := List.mem_map.1 this
    exact hb01 t
  have hrt : ∀ u ∈ outs, (u.symbols.map f).flatten = u.pattern := by
    intro u hu
    obtain ⟨h1, h2, -⟩ := g5 u hu
    obtain ⟨sym, e1, -, -, e2⟩ := f3 u.pattern S (hpat u hu) (by rw [h1, hchunk])
    rw [h2] at e1
    cases e1
    exact e2
  have hfl : ∀ (g : LinkOut → List Int) (l : List LinkOut),
      (l.map (fun u => ((g u).map f).flatten)).flatten = ((l.map g).flatten.map f).flatten := by
    intro g l
    induction l with
    | nil => rfl
    | cons u l ih => rw [List.map_cons, List.flatten_cons, ih, List.map_cons, List.flatten_cons, List.map_append,
        List.flatten_append]
  have hsymf : ((outs.map LinkOut.symbols).flatten.map f).flatten = (List.range (k * a.chunk)).map b := by
    rw [← g6, ← hfl]
    congr 1
    exact List.map_congr_left hrt
  have hlen : ∀ (g : LinkOut → List Int), (∀ u ∈ outs, (g u).length = S) → (outs.map g).flatten.length = k * S := by
    intro g hg
    rw [List.length_flatten, List.map_map, ← g4]
    have : outs.map (List.length ∘ g) = outs.map (fun _ => S) := List.map_congr_left hg
    rw [this]; simp
  have hls := hlen LinkOut.symbols (fun u hu => (g5 u hu).2.2.1)
  have hld := hlen (fun u => u.rx.demapped) (fun u hu => (g5 u hu).2.2.2.1)
  have hfw : ∀ s : List Int, ((s.map f).flatten).length = w * s.length := by
    intro s
    induction s with
    | nil => simp
    | cons v s ih => rw [List.map_cons, List.flatten_cons, List.length_append, f1, ih, List.length_cons, Nat.mul_succ]; omega
  have hbl : ∀ l ∈ outs.map (fun u => (u.rx.demapped.map f).flatten), l.length = a.chunk := by
    intro l hl
    obtain ⟨u, hu, rfl⟩ := List.mem_map.1 hl
    rw [hfw, (g5 u hu).2.2.2.1, hchunk]
  have hbits : ∀ n, n + w * δ < k * a.chunk →
      (outs.map (fun u => (u.rx.demapped.map f).flatten)).flatten.getD (n + w * δ) 0 = b n := by
    intro n hn
    have hkc : k * a.chunk = w * (k * S) := by rw [hchunk]; ring
    have hdm := Nat.div_add_mod n w
    have hr := Nat.mod_lt n (show 0 < w by omega)
    have hq : n / w + δ < k * S := by
      rw [hkc] at hn
      by_contra hcon
      push Not at hcon
      have := Nat.mul_le_mul_left w hcon
      rw [Nat.mul_add] at this
      omega
    rw [hfl, show n + w * δ = w * (n / w + δ) + n % w by
        rw [Nat.mul_add w (n / w)]; omega,
      flatMap_getD f w f1 0 0 _ _ _ (by rw [hld]; exact hq) hr, g7 _ (by omega),
      ← flatMap_getD f w f1 0 0 _ _ _ (by rw [hls]; omega) hr, hdm, hsymf, map_range_getD _ _ _ _ (by omega)]
  refine ⟨outs.map (fun u => (u.rx.demapped.map f).flatten), ?_, hbl, hbits, ?_⟩
  · rw [List.map_map]
    apply List.map_congr_left
    intro u hu
    obtain ⟨-, -, -, h1, h2, -⟩ := g5 u hu
    rw [hdec _ h1] at h2
    exact (Except.ok.inj h2).symm
  · intro hper j hj hjk
    have hcpos : 0 < a.chunk := by rw [hchunk]; exact Nat.mul_pos (by omega) (by omega)
    obtain ⟨s, s', h1, h2, h3⟩ := C73_negative_slips a.prbs seed hseed b hb
      ((List.range (k - j)).map (fun i => ((j + i) * a.chunk - w * δ, a.chunk)))
      (by
        intro c hc
        obtain ⟨i, -, rfl⟩ := List.mem_map.1 hc
        exact ⟨hcpos, hper⟩)
    refine ⟨s, s', h1, ?_, h3⟩
    rw [List.map_map, List.map_map] at h2
    convert h2 using 3
    · apply List.ext_getElem
      · simp [g4]
      · intro i hi1 hi2
        have hik : j + i < k := by simp [g4] at hi1; omega
        rw [List.getElem_drop, List.getElem_map, List.getElem_map, List.getElem_range]
        simp only [Function.comp]
        refine ext_getD 0 ?_ fun t ht' => ?_
        · rw [hfw, (g5 _ (List.getElem_mem _)).2.2.2.1, ← hchunk]; simp
        · rw [hfw, (g5 _ (List.getElem_mem _)).2.2.2.1, ← hchunk] at ht'
          rw [map_range_getD _ _ _ _ ht']
          have hmul : (j + i + 1) * a.chunk ≤ k * a.chunk := Nat.mul_le_mul_right _ hik
          rw [Nat.succ_mul] at hmul
          have hj2 : j * a.chunk ≤ (j + i) * a.chunk := Nat.mul_le_mul_right _ (by omega)
          have h5 := hbits ((j + i) * a.chunk - w * δ + t) (by omega)
          rw [← h5, show (j + i) * a.chunk - w * δ + t + w * δ = a.chunk * (j + i) + t by
            rw [Nat.mul_comm a.chunk]; omega]
          have h6 := flatMap_getD (α := {l : List Int // l.length = a.chunk}) (fun l => l.1) a.chunk (fun l => l.2)
            ⟨List.replicate a.chunk 0, by simp⟩ 0
            ((outs.map (fun u => (u.rx.demapped.map f).flatten)).attach.map (fun l => ⟨l.1, hbl l.1 l.2⟩)) (j + i) t
            (by simp [g4]; exact hik) ht'
          rw [List.map_map] at h6
          simp only [Function.comp_def] at h6
          rw [List.attach_map_subtype_val] at h6
          rw [h6, List.getD_eq_getElem?_getD (l := List.map _ _), List.getElem?_eq_getElem (by simp [g4]; exact hik)]
          simp
    · symm
      rw [List.eq_replicate_iff]
      simp [Function.comp_def]

/-- **C120**, error-free link. Whatever the alphabet (`2^w` levels), inversion and bit order, without codes the received bits are
the PRBS stream delayed by `w·δ` bits, and the error checker reports no errors on the chunks after this delay. -/
theorem C120_error_free (a : LinkArgs) (fullScale : Bool) (r : ℤ × ℤ) (hf : ReceiverSetting a fullScale r) (g : ℝ → ℝ) (f' : List ℝ)
    (c : ℕ → ℝ) (hc : CtleResponse a c) (pre post : ℕ) (hp : 0 < pre + post) (F : List ℝ) (hF : F.length = pre + post + 1)
    (lv : Option (List ℝ)) (δ : ℕ) (ε C P R : ℝ) (ho : OpenLinkEye a r g f' c F δ ε C P R)
    (hsamp : a.adcOsr / a.sampleRate = a.chan.osr)
    (seed : List Int) (hseed : seed.length = a.prbs.value) (b : ℕ → Int)
    (hb : LfsrStream (getPolynomial a.prbs) seed b) (S w : ℕ) (hS : pre + post + 1 ≤ S)
    (hw : 1 ≤ w) (hcn : numLevels a.constellation = 2 ^ w) (hu : Uncoded a.coding w) (hchunk : a.chunk = w * S)
    (hone : w = 1 ∨ S ≠ 1 ∨ a.coding.flags.matrixOp = false) (k : ℕ) (hk : 0 < k) (noises : List (List ℝ))
    (hk' : noises.length = k) (hd : DispersiveChannel a.chan g f' a.amp (S * a.chan.osr) ε noises) :
    ∃ (m : ChannelMem) (o : EqObj ℝ) (outs : List LinkOut) (st' : LinkState) (bits : List (List Int)),
      channelInit a.chan = .ok m ∧ eqInit pre post 0 (some F) none lv none none = .ok o ∧
      linkCalls a noises ⟨seed, m, ⟨ctleObjInit a.zeros a.poles none, o⟩⟩ = .ok (some (outs, st')) ∧ outs.length = k ∧
      outs.map (fun u => u.rx.decoded) = bits.map (fun l => l.map (fun (v : Int) => (v : ℚ))) ∧
      (∀ l ∈ bits, l.length = a.chunk) ∧
      (∀ n, n + w * δ < k * a.chunk → bits.flatten.getD (n + w * δ) 0 = b n) ∧
      (a.chunk ≤ 2 ^ a.prbs.value - 1 → ∀ j, w * δ ≤ j * a.chunk → j ≤ k →
        ∃ s s', berInit a.prbs seed = .ok s ∧ checkBers a.prbs s (bits.drop j) = .ok (List.replicate (k - j) 0, s') ∧
          s'.accErrors = 0) := by
  obtain ⟨fu, f1, f2, f3⟩ := uncoded_codec a.rnd a.coding w hw hu
  obtain ⟨m, o, outs, st', g1, g2, g3, g4, g5, g6, g7⟩ := C120_symbols a fullScale r hf g f' c hc pre post hp F hF lv δ ε C P R ho
    hsamp seed hseed b hb S hS (by
      intro x hx h01
      obtain ⟨sym, h1, h2, h3, -⟩ := f3 x S h01 (by rw [hx, hchunk])
      exact ⟨sym, h1, h2, fun v hv => by rw [hcn]; exact_mod_cast h3 v hv⟩)
    (fun s hs _ => ⟨_, f2 s (by rw [hs]; exact hone)⟩) k hk noises hk' hd
  obtain ⟨bits, b1, b2, b3, b4⟩ := bits_of_symbols a seed hseed b hb S w δ (by omega) hw hu hchunk hone k outs g4 g5 g6 g7
  exact ⟨m, o, outs, st', bits, g1, g2, g3, g4, b1, b2, b3, b4⟩

/-- a link with an echo one symbol late, a peaking CTLE and two feed-forward taps -/
noncomputable def exDispersive (tx : List ℝ) : LinkArgs where
  prbs := .prbs7
  chunk := 8
  rnd := id
  coding := { bps := .whole 1, constellation := .nrz }
  constellation := .nrz
  txLevels := tx
  amp := 160
  rxFactor := 1
  chan := { pulse := "rect", span := 1, chType := .isiAwgn, fir := some [1, 0, 1 / 4], rolloff := 0, osr := 2, snr := some 40 }
  zeros := [16]
  poles := [32]
  dcGain := 0
  fs := 8
  ctleOsr := 2
  totalBits := 8
  fracBits := 6
  quant := .ss
  adcOsr := 4
  sampleRate := 2
  phase := 0
  digGain := 4 / 5

/-- the response of its CTLE -/
noncomputable def exCtle (m : ℕ) : ℝ := if m = 0 then 3 / 2 else if m = 1 then -1 / 2 else 0

theorem exDispersive_ctle (tx : List ℝ) : CtleResponse (exDispersive tx) exCtle := by
  intro M
  have hfil : getCtleFilter [16] [32] 0 8 2 = .ok (some ([3 / 2, -1 / 2], [1, 0])) := by
    unfold getCtleFilter
    rw [zero_div, Real.rpow_zero]
    simp only [ctleCoeffs, polyFromRoots, mulRoot, npSign, List.map_cons, List.map_nil, List.length_cons, List.length_nil,
      List.foldl_cons, List.foldl_nil]
    norm_num [bilinear, bilinearCoef, sciNormalize, bind, Except.bind, pure, Except.pure, List.range_succ, List.dropWhile,
      List.takeWhile, List.getD_cons_zero, List.getD_cons_succ]
  obtain ⟨b, a, y, h1, h2, h3, h4⟩ := C56_ctle (1 :: List.replicate M 0) [16] [32] 0 8 2 (by simp) (by simp) (by norm_num)
    (by norm_num) (by norm_num)
  rw [hfil] at h1
  have e : ([3 / 2, -1 / 2] : List ℝ) = b ∧ ([1, 0] : List ℝ) = a := by simpa using h1
  obtain ⟨rfl, rfl⟩ := e
  show ctle (1 :: List.replicate M 0) [16] [32] 0 8 2 none = _
  rw [h2]
  congr 3
  apply ext_getD 0 (by rw [h3]; simp)
  intro n hn
  have hn' : n < M + 1 := by rw [h3] at hn; simpa using hn
  rw [map_range_getD _ _ _ _ hn']
  have h5 := h4 n (by rw [← h3]; exact hn)
  unfold DiffEq at h5
  simp only [List.getD_cons_zero, List.length_cons, List.length_nil, zero_add, Nat.reduceAdd, sum_range_succ, sum_range_zero,
    Nat.cast_zero, sub_zero, List.getD_cons_succ, Nat.cast_one, withPast_nat, one_mul] at h5
  rw [show Finset.Ico 1 2 = {1} from rfl, Finset.sum_singleton] at h5
  simp only [List.getD_cons_zero, List.getD_cons_succ, zero_mul, sub_zero] at h5
  rw [h5]
  unfold exCtle
  rcases n with _ | _ | n
  · norm_num [withPast]
  · rw [show ((0 + 1 : ℕ) : ℤ) - 1 = ((0 : ℕ) : ℤ) by norm_num, withPast_nat]
    have : (1 :: List.replicate M (0 : ℝ)).getD (0 + 1) 0 = 0 := by simp [List.getD_eq_getElem?_getD, List.getElem?_replicate]; split_ifs <;> rfl
    rw [this]
    norm_num
  · rw [show ((n + 1 + 1 : ℕ) : ℤ) - 1 = ((n + 1 : ℕ) : ℤ) by push_cast; ring, withPast_nat]
    have : ∀ i, (1 :: List.replicate M (0 : ℝ)).getD (i + 1) 0 = 0 := by
      intro i; simp [List.getD_eq_getElem?_getD, List.getElem?_replicate]; split_ifs <;> rfl
    rw [this, this]
    norm_num

theorem exPulse (s : ℕ) : truncated 1 rectFn ((s : ℝ) / 2 - 1) = if s = 1 ∨ s = 2 then 1 else 0 := by
  unfold truncated rectFn
  have hs : s = 0 ∨ s = 1 ∨ s = 2 ∨ 3 ≤ s := by omega
  rcases hs with rfl | rfl | rfl | hs
  · rw [Set.indicator_of_mem (by norm_num), Set.indicator_of_notMem (by norm_num)]; norm_num
  · rw [Set.indicator_of_mem (by norm_num), Set.indicator_of_mem (by norm_num)]; norm_num
  · rw [Set.indicator_of_mem (by norm_num), Set.indicator_of_mem (by norm_num)]; norm_num
  · have h3 : (3 : ℝ) ≤ s := by exact_mod_cast hs
    rw [if_neg (by omega)]
    by_cases h : (s : ℝ) / 2 - 1 ∈ Set.Ico (-((1 : ℕ) : ℝ)) ((1 : ℕ) : ℝ)
    · rw [Set.indicator_of_mem h, Set.indicator_of_notMem]
      rw [Set.mem_Ico]; intro h'; linarith [h'.2]
    · rw [Set.indicator_of_notMem h]

theorem exThrough (tx : List ℝ) (s : ℕ) : pulseThrough (exDispersive tx).chan rectFn [1, 0, 1 / 4] s
    = if s = 1 ∨ s = 2 then 1 else if s = 3 ∨ s = 4 then 1 / 4 else 0 := by
  have h : ∀ i : ℕ, truncated (exDispersive tx).chan.span rectFn ((i : ℝ) / (exDispersive tx).chan.osr - (exDispersive tx).chan.span)
      = if i = 1 ∨ i = 2 then 1 else 0 := by
    intro i
    have := exPulse i
    simpa [exDispersive] using this
  unfold pulseThrough
  simp only [List.length_cons, List.length_nil, sum_range_succ, sum_range_zero, h]
  rcases s with _ | _ | _ | _ | _ | s
  · norm_num
  · norm_num
  · norm_num
  · norm_num
  · norm_num
  · simp

theorem exSymbol (tx : List ℝ) (l : ℕ) : symbolResponse (exDispersive tx).chan rectFn [1, 0, 1 / 4] exCtle
      ((exDispersive tx).phase + l * (exDispersive tx).chan.osr) = if l = 1 then 1 else if l = 2 then 1 / 4 else 0 := by
  have e : (exDispersive tx).phase + l * (exDispersive tx).chan.osr = l * 2 := by simp [exDispersive]
  rw [e]
  have h : symbolResponse (exDispersive tx).chan rectFn [1, 0, 1 / 4] exCtle (l * 2)
      = ∑ m ∈ range (l * 2 + 1), exCtle m * pulseThrough (exDispersive tx).chan rectFn [1, 0, 1 / 4] (l * 2 - m) := rfl
  rw [h]
  rcases l with _ | l
  · norm_num [exThrough]
  · rw [show (l + 1) * 2 + 1 = l * 2 + 1 + 1 + 1 by ring, sum_range_succ', sum_range_succ',
      sum_eq_zero (fun m _ => by rw [exCtle, if_neg (by omega), if_neg (by omega), zero_mul])]
    rw [exThrough, exThrough]
    rcases l with _ | _ | l
    · norm_num [exCtle]
    · norm_num [exCtle]
    · rw [if_neg (by omega), if_neg (by omega), if_neg (by omega), if_neg (by omega), if_neg (by omega), if_neg (by omega)]
      norm_num

theorem exLinkResponse (tx : List ℝ) (l : ℕ) : linkResponse (exDispersive tx).chan rectFn [1, 0, 1 / 4] exCtle
      (exDispersive tx).phase [1, -1 / 4] l = if l = 1 then 1 else if l = 3 then -1 / 16 else 0 := by
  unfold linkResponse
  simp only [List.length_cons, List.length_nil, sum_range_succ, sum_range_zero, exSymbol]
  rcases l with _ | _ | _ | _ | l
  · norm_num
  · norm_num
  · norm_num
  · norm_num
  · rw [if_pos (by omega), if_neg (by omega), if_neg (by omega), if_pos (by omega), if_neg (by omega), if_neg (by omega),
      if_neg (by omega), if_neg (by omega)]
    norm_num

theorem peakGain_rect (d : ChannelArgs) (h : d.pulse = "rect") : PeakGain d 1 := by
  refine ⟨rectFn, Or.inl ⟨h, rfl⟩, fun t J => ?_⟩
  have hle : ∀ j ∈ range J, |truncated d.span rectFn (t - j - d.span)|
      ≤ if (j : ℤ) = ⌊t - d.span + 1 / 2⌋ then 1 else 0 := by
    intro j _
    unfold truncated rectFn
    by_cases h1 : t - j - d.span ∈ Set.Ico (-1 / 2 : ℝ) (1 / 2)
    · rw [Set.mem_Ico] at h1
      rw [if_pos (by rw [eq_comm, Int.floor_eq_iff]; push_cast; constructor <;> linarith [h1.1, h1.2])]
      by_cases h2 : t - j - d.span ∈ Set.Ico (-(d.span : ℝ)) d.span
      · rw [Set.indicator_of_mem h2, Set.indicator_of_mem (Set.mem_Ico.2 h1)]; simp
      · rw [Set.indicator_of_notMem h2]; simp
    · by_cases h2 : t - j - d.span ∈ Set.Ico (-(d.span : ℝ)) d.span
      · rw [Set.indicator_of_mem h2, Set.indicator_of_notMem h1, abs_zero]; split_ifs <;> norm_num
      · rw [Set.indicator_of_notMem h2, abs_zero]; split_ifs <;> norm_num
  refine (sum_le_sum hle).trans ?_
  by_cases hf : 0 ≤ ⌊t - d.span + 1 / 2⌋
  · obtain ⟨q, hq⟩ := Int.eq_ofNat_of_zero_le hf
    rw [hq]
    have : ∀ j : ℕ, ((j : ℤ) = (q : ℤ)) = (j = q) := by intro j; exact propext (by omega)
    simp only [this, sum_ite_eq']
    split_ifs <;> norm_num
  · rw [sum_eq_zero (fun j _ => by rw [if_neg (by omega)])]
    norm_num

/-- the eye of this link is open, although the channel spreads a quarter of each symbol into the next one -/
theorem exDispersive_open : ∃ tx, ReceiverSetting (exDispersive tx) true (-127, 127) ∧
    OpenLinkEye (exDispersive tx) (-127, 127) rectFn [1, 0, 1 / 4] exCtle [1, -1 / 4] 1 8 2 (5 / 4) (1 / 16) := by
  obtain ⟨tx, -, h, -⟩ := C71_recovered_partial .nrz true 160 1 (by norm_num) (by simp [getLevels, intLevels])
    ⟨1, by simp [getLevels, intLevels], by norm_num⟩ [] (by simp) [] rfl
  refine ⟨tx, ⟨h, by norm_num [exDispersive], by simp [exDispersive, getLevels, intLevels],
    ⟨1, by simp [exDispersive, getLevels, intLevels], by norm_num [exDispersive]⟩, by simp [exDispersive], by simp [exDispersive],
    by norm_num [exDispersive], by norm_num [exDispersive], (show codeRange 8 .ss = _ by decide), by norm_num [exDispersive]⟩,
    ⟨by norm_num, ?_, ?_, ?_, by norm_num [exDispersive], by norm_num [exDispersive], ?_⟩⟩
  · intro M
    have : ∀ m, |exCtle m| = (if m = 0 then 3 / 2 else 0) + (if m = 1 then 1 / 2 else 0) := by
      intro m
      unfold exCtle
      rcases m with _ | _ | m
      · norm_num
      · norm_num [abs_of_neg]
      · rw [if_neg (by omega), if_neg (by omega), if_neg (by omega), if_neg (by omega)]; norm_num
    simp only [this, sum_add_distrib, sum_ite_eq']
    split_ifs <;> norm_num
  · intro M
    have : ∀ l : ℕ, |(if l = 1 then (1 : ℝ) else if l = 2 then 1 / 4 else 0)| = (if l = 1 then 1 else 0) + (if l = 2 then 1 / 4 else 0) := by
      intro l
      by_cases h1 : l = 1
      · subst h1; norm_num
      · by_cases h2 : l = 2
        · subst h2; norm_num
        · rw [if_neg h1, if_neg h2, if_neg h1]; norm_num
    simp only [exSymbol, this, sum_add_distrib, sum_ite_eq']
    split_ifs <;> norm_num
  · intro M
    have : ∀ l ∈ (range M).erase 1, |(if l = 1 then (1 : ℝ) else if l = 3 then -1 / 16 else 0)| ≤ (if l = 3 then 1 / 16 else 0) := by
      intro l hl
      rw [if_neg (ne_of_mem_erase hl)]
      split_ifs <;> norm_num [abs_of_neg]
    simp only [exLinkResponse]
    refine (sum_le_sum this).trans ?_
    rw [sum_ite_eq']
    split_ifs <;> norm_num
  · simp only [exLinkResponse, List.length_cons, List.length_nil, sum_range_succ, sum_range_zero]
    simp only [exDispersive, getLevels, intLevels]
    norm_num [abs_of_pos, abs_of_neg]

/-- noise samples of up to five standard deviations are tolerated -/
theorem exDispersive_channel (tx : List ℝ) (noises : List (List ℝ)) (hn : ∀ nz ∈ noises, nz.length = 16 ∧ ∀ z ∈ nz, |z| ≤ 5) :
    DispersiveChannel (exDispersive tx).chan rectFn [1, 0, 1 / 4] (exDispersive tx).amp (8 * (exDispersive tx).chan.osr) 8 noises := by
  refine ⟨rfl, Or.inl ⟨rfl, rfl⟩, by norm_num [exDispersive], by norm_num [exDispersive], rfl, by simp, rfl, ⟨rfl, rfl⟩,
    by norm_num [exDispersive], 1, peakGain_rect _ rfl, ?_⟩
  intro snr hs
  have hs' : (40 : ℝ) = snr := by simpa [exDispersive] using hs
  subst hs'
  refine ⟨5, hn, ?_⟩
  rw [show (40 : ℝ) / 10 = ((4 : ℕ) : ℝ) by norm_num, Real.rpow_natCast]
  simp only [exDispersive, List.length_cons, List.length_nil, sum_range_succ, sum_range_zero]
  norm_num [abs_of_pos]

/-- so the whole run over this link is free of errors, one symbol late -/
example (seed : List Int) (hseed : seed.length = 7) (b : ℕ → Int) (hb : LfsrStream (getPolynomial .prbs7) seed b)
    (noises : List (List ℝ)) (h0 : noises ≠ []) (hn : ∀ nz ∈ noises, nz.length = 16 ∧ ∀ z ∈ nz, |z| ≤ 5) :
    ∃ (tx : List ℝ) (m : ChannelMem) (o : EqObj ℝ) (outs : List LinkOut) (st' : LinkState) (bits : List (List Int)),
      linkCalls (exDispersive tx) noises ⟨seed, m, ⟨ctleObjInit [16] [32] none, o⟩⟩ = .ok (some (outs, st')) ∧
      outs.map (fun u => u.rx.decoded) = bits.map (fun l => l.map (fun (v : Int) => (v : ℚ))) ∧
      ∀ n, n + 1 < noises.length * 8 → bits.flatten.getD (n + 1) 0 = b n := by
  obtain ⟨tx, h1, h2⟩ := exDispersive_open
  obtain ⟨m, o, outs, st', bits, -, -, g3, -, g5, -, g7, -⟩ := C120_error_free (exDispersive tx) true _ h1 rectFn _ _
    (exDispersive_ctle tx) 0 1 (by omega) _ rfl none 1 8 2 _ _ h2 (by norm_num [exDispersive]) seed hseed b hb 8 1 (by omega)
    (by omega) rfl ⟨rfl, rfl, rfl, rfl, rfl, rfl, rfl, rfl, rfl, rfl⟩ rfl (Or.inl rfl) noises.length
    (List.length_pos_of_ne_nil h0) noises rfl (exDispersive_channel tx noises hn)
  exact ⟨tx, m, o, outs, st', bits, g3, g5, g7⟩

end Verif
