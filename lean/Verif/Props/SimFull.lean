import Verif.Lemmas.SimLinkFull
import Verif.Props.SimBer

/-!
# The whole link of the example simulation (C78)
-/

namespace Verif
open Spec

/-- **C78**, CTLE object: the default memory of the object has the size of the filter, and successive chunks of any lengths
give the output of one call on the whole signal starting from rest. -/
theorem C78_ctle_object (zs ps : List ℝ) (dc fs osr : ℝ) (hz : zs ≠ []) (hp : ps ≠ []) (hz0 : ∀ z ∈ zs, z ≠ 0)
    (hp0 : ∀ p ∈ ps, p ≠ 0) (hF : 0 < fs * osr) (cs : List (List ℝ)) :
    ∃ ys z', ctleObjCalls zs ps dc fs osr (ctleObjInit zs ps none) cs = .ok (some (ys, z')) ∧
      ctle cs.flatten zs ps dc fs osr none = .ok (some (ys.flatten, none)) ∧ ys.map List.length = cs.map List.length := by
  obtain ⟨b, a, h1, h2, -⟩ := ctle_run zs ps dc fs osr hz hp hz0 hp0 hF
  obtain ⟨ys, g1, g2, g3⟩ := ctleObjCalls_run zs ps dc fs osr b a h1 cs (ctleObjInit zs ps none) (by simp [ctleObjInit])
  refine ⟨ys, _, g1, ?_, g3⟩
  rw [h2, g2]
  rfl

/-- one zero and two poles, as in a typical equalizer -/
example : ∃ ys z', ctleObjCalls [1] [4, 8] 0 16 2 (ctleObjInit [1] [4, 8] none) [[1, 2], [], [3]] = .ok (some (ys, z')) ∧
    ctle [1, 2, 3] [1] [4, 8] 0 16 2 none = .ok (some (ys.flatten, none)) ∧ ys.map List.length = [2, 0, 1] :=
  C78_ctle_object [1] [4, 8] 0 16 2 (by simp) (by simp) (by simp) (by norm_num) (by norm_num) [[1, 2], [], [3]]

/-- **C78**, receiver (partial: default feed-forward taps, no feedback taps, no convergence, decoder accepting the chunks).
If the CTLE output, sampled at the converter's phase, is within `ε` of the level of symbol `n` for every `n ≥ N`, the
demapped symbols of successive chunks are these symbols, delayed by the number of precursors. -/
theorem C78_receiver_partial (a : LinkArgs) (fullScale : Bool) (r : ℤ × ℤ) (ε : ℝ) (hf : ReceiverFits a fullScale r ε)
    (pre post : ℕ) (lv : Option (List ℝ)) (o : EqObj ℝ) (ho : eqInit pre post 0 none none lv none none = .ok o)
    (cs : List (List ℝ)) (hcs0 : cs ≠ [])
    (hcs : ∀ c ∈ cs, a.adcOsr / a.sampleRate ∣ c.length ∧ (pre + post + 1) * (a.adcOsr / a.sampleRate) ≤ c.length)
    (hdec : ∀ s : List Int, (∀ x ∈ s, 0 ≤ x ∧ x < numLevels a.constellation) →
      (∃ c ∈ cs, c.length = s.length * (a.adcOsr / a.sampleRate)) → ∃ b, decoder a.coding s = .ok b)
    (W : List ℝ) (hW : ctle cs.flatten a.zeros a.poles a.dcGain a.fs a.ctleOsr none = .ok (some (W, none)))
    (N : ℕ) (sym : ℕ → ℕ) (hsym : ∀ n, sym n < numLevels a.constellation)
    (hsig : ∀ n, N ≤ n → (n + 1) * (a.adcOsr / a.sampleRate) ≤ cs.flatten.length →
      |W.getD (a.phase + n * (a.adcOsr / a.sampleRate)) 0 - a.txLevels.getD (sym n) 0| ≤ ε) :
    ∃ (outs : List RxOut) (st' : RxMem),
      receiverCalls a ⟨ctleObjInit a.zeros a.poles none, o⟩ cs = .ok (some (outs, st')) ∧
      outs.map (fun u => u.demapped.length * (a.adcOsr / a.sampleRate)) = cs.map List.length ∧
      (∀ u ∈ outs, (∀ x ∈ u.demapped, 0 ≤ x ∧ x < numLevels a.constellation) ∧
        decoder a.coding u.demapped = .ok u.decoded) ∧
      ∀ n, N ≤ n → (n + pre + 1) * (a.adcOsr / a.sampleRate) ≤ cs.flatten.length →
        (outs.map RxOut.demapped).flatten.getD (n + pre) 0 = sym n := by
  obtain ⟨hz, hz0⟩ := hf.zeros
  obtain ⟨hp, hp0⟩ := hf.poles
  obtain ⟨hrl, htl, hrx0, hval, hbound⟩ := levels_match _ _ _ _ _ hf.amp hf.factor hf.factor' hf.levels
  have hst : 0 < a.adcOsr / a.sampleRate := by have := hf.phase; omega
  set st := a.adcOsr / a.sampleRate with hstd
  obtain ⟨ws, z', c1, c2, c3⟩ := C78_ctle_object a.zeros a.poles a.dcGain a.fs a.ctleOsr hz hp hz0 hp0 hf.rate cs
  rw [hW] at c2
  have hWe : W = ws.flatten := by simpa using c2
  have hWl : W.length = cs.flatten.length := by rw [hWe, List.length_flatten, List.length_flatten, c3]
  obtain ⟨D, d1, d2, d3⟩ := C74_conversion_partial (K := ℝ) a.totalBits a.fracBits a.adcOsr a.sampleRate a.phase hf.bits
    a.quant r hf.range hst ws.flatten
  have hwdiv : ∀ w ∈ ws, st ∣ w.length ∧ (pre + post + 1) * st ≤ w.length := by
    intro w hw
    have h1 : w.length ∈ cs.map List.length := by rw [← c3]; exact List.mem_map_of_mem hw
    obtain ⟨c, hc, e⟩ := List.mem_map.1 h1
    rw [← e]; exact hcs c hc
  obtain ⟨ds, e1, e2⟩ := C74_chunks a.totalBits a.fracBits a.adcOsr a.sampleRate a.phase a.quant hf.phase ws
    (fun w hw => (hwdiv w hw).1) D d1
  have hfa := adcCalls_forall _ _ _ _ _ _ _ _ e1
  have hdl : ds.map (fun d => d.length * st) = ws.map List.length := by
    clear e1 e2 d1 d2 d3 c1 c2 c3 hWe
    induction hfa with
    | nil => rfl
    | @cons w d ws' ds' h1 h2 ih =>
      rw [List.map_cons, List.map_cons, ih (fun w hw => hwdiv w (by simp [hw])),
        adcCall_length _ _ _ _ _ hf.bits _ r hf.range hf.phase w d (hwdiv w (by simp)).1 h1]
  have hds0 : ds ≠ [] := by
    intro h
    rw [h] at hdl
    have : ws = [] := by simpa using hdl.symm
    rw [this] at c3
    exact hcs0 (by simpa using c3.symm)
  have hdlen : ∀ d ∈ ds, pre + post + 1 ≤ d.length := by
    intro d hd
    have h1 : d.length * st ∈ ws.map List.length := by
      rw [← hdl]; exact List.mem_map_of_mem (f := fun d : List ℝ => d.length * st) hd
    obtain ⟨w, hw, e⟩ := List.mem_map.1 h1
    have := (hwdiv w hw).2
    rw [e] at this
    exact Nat.le_of_mul_le_mul_right this hst
  obtain ⟨es, o', f1, f2, f3⟩ := eq_delay pre post lv o ho ds hds0 hdlen
  choose dec hdec1 hdec2 hdec3 hdec4 using fun e : List ℝ =>
    recoverSymbols_total a.constellation (e.map (fun v => a.digGain * v))
  have hesl : (es.map (fun e => (dec e).map (fun (k : ℕ) => (k : Int)))).map (fun s => s.length * st) = cs.map List.length := by
    rw [← c3, ← hdl, List.map_map]
    have h1 : es.map (fun e => e.length * st) = ds.map (fun d => d.length * st) := by
      have := congrArg (List.map (· * st)) f2
      rw [List.map_map, List.map_map] at this
      exact this
    rw [← h1]
    apply List.map_congr_left
    intro e _
    simp [hdec2]
  have hdecs : ∀ s ∈ es.map (fun e => (dec e).map (fun (k : ℕ) => (k : Int))),
      (∀ x ∈ s, 0 ≤ x ∧ x < numLevels a.constellation) ∧ ∃ b, decoder a.coding s = .ok b := by
    intro s hs
    have hr : ∀ x ∈ s, 0 ≤ x ∧ x < numLevels a.constellation := by
      obtain ⟨e, he, rfl⟩ := List.mem_map.1 hs
      intro x hx
      obtain ⟨k, hk, rfl⟩ := List.mem_map.1 hx
      have := hdec3 e k hk
      omega
    refine ⟨hr, hdec s hr ?_⟩
    have h1 : s.length * st ∈ cs.map List.length := by
      rw [← hesl]; exact List.mem_map_of_mem (f := fun s : List Int => s.length * st) hs
    obtain ⟨c, hc, e⟩ := List.mem_map.1 h1
    exact ⟨c, hc, e⟩
  obtain ⟨bs, hbs⟩ : ∃ bs, List.Forall₂ (fun s b => decoder a.coding s = .ok b)
      (es.map (fun e => (dec e).map (fun (k : ℕ) => (k : Int)))) bs := by
    generalize es.map (fun e => (dec e).map (fun (k : ℕ) => (k : Int))) = ss at hdecs
    induction ss with
    | nil => exact ⟨[], List.Forall₂.nil⟩
    | cons s ss ih =>
      obtain ⟨bs, h⟩ := ih (fun s hs => hdecs s (by simp [hs]))
      obtain ⟨b, hb⟩ := (hdecs s (by simp)).2
      exact ⟨b :: bs, List.Forall₂.cons hb h⟩
  have hrec : List.Forall₂ (fun e s => recoverSymbols (e.map (fun v => a.digGain * v)) a.constellation
      (receiverLevels a.txLevels a.amp a.rxFactor) = .ok s) es (es.map (fun e => (dec e).map (fun (k : ℕ) => (k : Int)))) := by
    rw [List.forall₂_map_right_iff, List.forall₂_same]
    intro e _
    rw [hrl]
    exact hdec1 e
  have hrun := receiverCalls_of a cs ws ds es _ bs _ z' o o' c1 e1 f1 hrec hbs
  have hzip : (List.zipWith RxOut.mk (es.map (fun e => (dec e).map (fun (k : ℕ) => (k : Int)))) bs).map RxOut.demapped
      = es.map (fun e => (dec e).map (fun (k : ℕ) => (k : Int))) := by
    have hl := hbs.length_eq
    rw [List.map_zipWith]
    generalize es.map (fun e => (dec e).map (fun (k : ℕ) => (k : Int))) = ss at hl ⊢
    clear hbs hrun
    induction ss generalizing bs with
    | nil => rfl
    | cons s ss ih =>
      cases bs with
      | nil => cases hl
      | cons b bs =>
        simp only [List.zipWith_cons_cons]
        rw [ih bs (by simpa using hl)]
  refine ⟨_, _, hrun, ?_, ?_, ?_⟩
  · have := congrArg (List.map (fun s : List Int => s.length * st)) hzip
    rw [List.map_map, hesl] at this
    exact this
  · intro u hu
    have hl := hbs
    generalize es.map (fun e => (dec e).map (fun (k : ℕ) => (k : Int))) = ss at hl hu hdecs
    clear hbs hrun hrec hzip hesl
    induction hl with
    | nil => cases hu
    | @cons s b ss' bs' h1 h2 ih =>
      simp only [List.zipWith_cons_cons, List.mem_cons] at hu
      rcases hu with rfl | hu
      · exact ⟨(hdecs s (by simp)).1, h1⟩
      · exact ih hu (fun s hs => hdecs s (List.mem_cons_of_mem _ hs))
  · intro n hn hlen
    rw [hzip]
    -- the decisions of all chunks are the decisions on the whole equalizer output
    have hflat : (es.map (fun e => (dec e).map (fun (k : ℕ) => (k : Int)))).flatten = ((es.map dec).flatten).map
        (fun (k : ℕ) => (k : Int)) := by
      rw [List.map_flatten, List.map_map]; rfl
    have hpoint : ∀ (es : List (List ℝ)) (i k : ℕ), i < es.flatten.length → k < numLevels a.constellation →
        |a.digGain * es.flatten.getD i 0 - (getLevels a.constellation false).getD k 0|
          < ((getLevels a.constellation false).getD 1 0 - (getLevels a.constellation false).getD 0 0) / 2 →
        (es.map dec).flatten.getD i 0 = k ∧ i < (es.map dec).flatten.length := by
      intro es
      induction es with
      | nil => intro i k hi; simp at hi
      | cons e es ih =>
        intro i k hi hk hclose
        rw [List.flatten_cons] at hi hclose
        rw [List.map_cons, List.flatten_cons]
        have hel : (dec e).length = e.length := by rw [hdec2]; simp
        by_cases hie : i < e.length
        · rw [List.getD_append _ _ _ _ hie] at hclose
          rw [List.getD_append _ _ _ _ (by omega), List.length_append]
          exact ⟨hdec4 e i k (by simpa using hie) hk (by rw [getD_map_lt _ 0 0 _ hie]; exact hclose), by omega⟩
        · rw [List.getD_append_right _ _ _ _ (by omega)] at hclose
          rw [List.getD_append_right _ _ _ _ (by omega), List.length_append, hel]
          obtain ⟨h1, h2⟩ := ih (i - e.length) k (by rw [List.length_append] at hi; omega) hk hclose
          exact ⟨h1, by omega⟩
    have hDlen : D.length * st = cs.flatten.length := by
      rw [← e2, List.length_flatten, List.length_flatten, ← c3, ← hdl]
      generalize ds = l
      induction l with
      | nil => simp
      | cons d l ih => simp only [List.map_cons, List.sum_cons, Nat.add_mul, ih]
    have hnD : n + pre < D.length := by
      rw [← hDlen] at hlen
      have := Nat.le_of_mul_le_mul_right hlen hst
      omega
    have hesD : es.flatten.length = D.length := by
      rw [← e2, List.length_flatten, List.length_flatten, f2]
    have hval2 := f3 n (by rw [e2]; exact hnD)
    rw [e2] at hval2
    -- the converter
    have hin : (n + 1) * st ≤ cs.flatten.length := le_trans (Nat.mul_le_mul_right _ (by omega)) hlen
    have hidx : a.phase + n * st < ws.flatten.length := by
      rw [← hWe, hWl]
      have := hf.phase
      rw [Nat.succ_mul] at hin
      omega
    obtain ⟨c, hc1, -, -, hc2, -, -⟩ := d3 n (ws.flatten.getD (a.phase + n * st) 0) (D.getD n 0)
      (by rw [List.getD_eq_getElem?_getD, List.getElem?_eq_getElem hidx]; rfl)
      (by rw [List.getD_eq_getElem?_getD, List.getElem?_eq_getElem (by omega)]; rfl)
    have hs := hsig n hn hin
    rw [hWe] at hs
    set w := ws.flatten.getD (a.phase + n * st) 0
    set v := a.txLevels.getD (sym n) 0 with hv
    have hvb : |v| ≤ a.amp / 2 := hbound _ (hsym n)
    have hs' := abs_le.1 hs
    have hvb' := abs_le.1 hvb
    have hq := hc2 (by have := hf.low; linarith [hs'.1]) (by have := hf.high; linarith [hs'.2])
    obtain ⟨g1, g2⟩ := hpoint es (n + pre) (sym n) (by omega) (hsym n) (by
      rw [hval2, hc1, ← hval _ (hsym n), ← hv]
      refine lt_of_le_of_lt ?_ hf.margin
      have hA := hf.amp
      have e : a.digGain * ((c : ℝ) / 2 ^ a.fracBits) - v * 2 / a.amp * a.rxFactor
          = a.digGain / 2 ^ a.fracBits * (-(w - c) + (w - v)) + v * (a.digGain / 2 ^ a.fracBits - 2 * a.rxFactor / a.amp) := by
        field_simp
        ring
      rw [e]
      refine le_trans (abs_add_le _ _) (add_le_add ?_ ?_)
      · rw [abs_mul, abs_div, abs_of_pos (by positivity : (0 : ℝ) < 2 ^ a.fracBits)]
        refine mul_le_mul_of_nonneg_left ?_ (by positivity)
        refine le_trans (abs_add_le _ _) (add_le_add ?_ hs)
        rw [abs_neg]; exact hq
      · rw [abs_mul]
        exact mul_le_mul_of_nonneg_right hvb (abs_nonneg _))
    rw [hflat, getD_map_lt _ 0 0 _ g2, g1]

/-- the settings of the examples: NRZ, Nyquist pulse, CTLE with one zero and two poles -/
noncomputable def exLink (tx : List ℝ) : LinkArgs where
  prbs := .prbs7
  chunk := 8
  rnd := id
  coding := { bps := .whole 1, constellation := .nrz }
  constellation := .nrz
  txLevels := tx
  amp := 200
  rxFactor := 1
  chan := { pulse := "sinc", span := 3, chType := .pulse, rolloff := 0, osr := 4, snr := none }
  zeros := [1]
  poles := [4, 8]
  dcGain := 0
  fs := 16
  ctleOsr := 4
  totalBits := 8
  fracBits := 6
  quant := .ss
  adcOsr := 4
  sampleRate := 1
  phase := 0

/-- an NRZ receiver with 8 bits, amplitude 200 and a converter scaled by 2^6: codes up to 127, the largest level 100/64 instead
of 1, a disturbance of up to 10 units -/
example : ∃ tx, ReceiverFits (exLink tx) true (-127, 127) 10 := by
  obtain ⟨tx, -, h, -⟩ := C71_recovered_partial .nrz true 200 1 (by norm_num) (by simp [getLevels, intLevels])
    ⟨1, by simp [getLevels, intLevels], by norm_num⟩ [] (by simp) [] rfl
  refine ⟨tx, ⟨h, by norm_num [exLink], by simp [exLink, getLevels, intLevels],
    ⟨1, by simp [exLink, getLevels, intLevels], by norm_num [exLink]⟩, by simp [exLink], by simp [exLink],
    by norm_num [exLink], by norm_num [exLink], (show codeRange 8 .ss = _ by decide), by norm_num [exLink], by norm_num [exLink],
    by norm_num [exLink], ?_⟩⟩
  simp only [exLink, getLevels, intLevels]
  norm_num [abs_of_pos]

/-- **C78**, symbols (partial: transparent CTLE, channel near the identity, default equalizer taps, no convergence). For every pattern seed and every
code whose encoder turns a chunk into `S` valid symbols (at least as many as the equalizer has taps) and whose decoder accepts `S`
symbols, `k` calls of the link succeed; the patterns are the consecutive chunks of the PRBS stream, and the demapped symbol
stream is the encoded symbol stream delayed by the pulse span plus the number of precursors. -/
theorem C78_symbols_partial (a : LinkArgs) (fullScale : Bool) (r : ℤ × ℤ) (ε : ℝ)
    (hf : ReceiverFits a fullScale r ε) (ht : Transparent a) (seed : List Int) (hseed : seed.length = a.prbs.value) (b : ℕ → Int)
    (hb : LfsrStream (getPolynomial a.prbs) seed b) (pre post : ℕ) (lv : Option (List ℝ)) (S : ℕ) (hS : pre + post + 1 ≤ S)
    (henc : ∀ x : List Int, x.length = a.chunk → (∀ v ∈ x, v = 0 ∨ v = 1) → ∃ s, encoder a.rnd a.coding x = .ok s ∧
      s.length = S ∧ ∀ v ∈ s, 0 ≤ v ∧ v < numLevels a.constellation)
    (hdec : ∀ s : List Int, s.length = S → (∀ v ∈ s, 0 ≤ v ∧ v < numLevels a.constellation) → ∃ u, decoder a.coding s = .ok u)
    (k : ℕ) (noises : List (List ℝ)) (hk' : noises.length = k)
    (hch : ChannelFits a.chan a.amp (S * a.chan.osr) ε noises) :
    ∃ (m : ChannelMem) (o : EqObj ℝ) (outs : List LinkOut) (st' : LinkState), channelInit a.chan = .ok m ∧
      eqInit pre post 0 none none lv none none = .ok o ∧
      linkCalls a noises ⟨seed, m, ⟨ctleObjInit a.zeros a.poles none, o⟩⟩ = .ok (some (outs, st')) ∧ outs.length = k ∧
      (∀ u ∈ outs, u.pattern.length = a.chunk ∧ encoder a.rnd a.coding u.pattern = .ok u.symbols ∧ u.symbols.length = S ∧
        u.rx.demapped.length = S ∧ decoder a.coding u.rx.demapped = .ok u.rx.decoded ∧
        ∀ v ∈ u.rx.demapped, 0 ≤ v ∧ v < numLevels a.constellation) ∧
      (outs.map LinkOut.pattern).flatten = (List.range (k * a.chunk)).map b ∧
      ∀ n, n + a.chan.span + pre < k * S →
        (outs.map (fun u => u.rx.demapped)).flatten.getD (n + a.chan.span + pre) 0
          = (outs.map LinkOut.symbols).flatten.getD n 0 := by
  obtain ⟨hrl, htl, hrx0, hval, hbound⟩ := levels_match _ _ _ _ _ hf.amp hf.factor hf.factor' hf.levels
  have hn := numLevels_pos a.constellation
  have hfl : 0 < a.chan.firCoefs.length := by
    unfold ChannelArgs.firCoefs
    have := ht.taps.2
    cases h : a.chan.fir with
    | none => decide
    | some f =>
      rw [h] at this
      exact List.length_pos_of_ne_nil (by simpa using this)
  obtain ⟨m, hinit⟩ : ∃ m, channelInit a.chan = .ok m :=
    ⟨_, channelInit_rest a.chan [1] (by unfold ChannelArgs.iirCoefs; rw [ht.taps.1]) ht.span ht.osr hfl ht.rest.1 ht.rest.2⟩
  have hoi := eqInit_ok (K := ℝ) (pre := pre) (post := post) (dfeTaps := 0) (ffe := none) (dfe := none) (levels := lv)
        (ziFfe := none) (ziDfe := none) ⟨by simp, by simp, by simp, by simp, by simp⟩
  obtain ⟨o, ho⟩ : ∃ o, eqInit (K := ℝ) pre post 0 none none lv none none = .ok o := ⟨_, hoi⟩
  rcases Nat.eq_zero_or_pos k with rfl | hk
  · have : noises = [] := List.length_eq_zero_iff.1 hk'
    subst this
    refine ⟨m, o, [], _, hinit, ho, rfl, rfl, by simp, by simp, ?_⟩
    intro n hn'
    simp at hn'
  obtain ⟨ps, seed', p1, p2, p3, p4, -⟩ := C73_generator a.prbs seed hseed b hb a.chunk k
  have hb01 : ∀ t, b t = 0 ∨ b t = 1 := by
    rw [lfsrStream_unique hb (lfsrStream_bitAt _ _ (by rw [poly_length, hseed]))]
    exact fun t => bitAt_mem _ _ _
  have hps01 : ∀ x ∈ ps, ∀ v ∈ x, v = 0 ∨ v = 1 := by
    intro x hx v hv
    have : v ∈ ps.flatten := List.mem_flatten.2 ⟨x, hx, hv⟩
    rw [p4] at this
    obtain ⟨t, -, rfl⟩ := List.mem_map.1 this
    exact hb01 t
  obtain ⟨ts, t1, t2, t3⟩ := transmitterCalls_of a k seed seed' ps p1
    (P := fun s v => s.length = S ∧ (∀ y ∈ s, 0 ≤ y ∧ y < numLevels a.constellation) ∧
      v = s.map (fun y => a.txLevels.getD y.toNat 0)) (by
    intro x hx
    obtain ⟨s, h1, h2, h3⟩ := henc x (p3 x hx) (hps01 x hx)
    have hsent := (C17_mapping_levels a.constellation false false s a.txLevels).2.1 htl h3
    exact ⟨s, _, h1, hsent, h2, h3, by simp⟩)
  set syms := (ts.map (fun t => t.2.1)).flatten with hsyms
  have htsl : ts.length = k := by rw [← p2, ← t2, List.length_map]
  have hts0 : ts ≠ [] := List.ne_nil_of_length_pos (by omega)
  have hsl : syms.length = k * S := by
    rw [hsyms, List.length_flatten, List.map_map, ← htsl]
    have : ts.map (List.length ∘ fun t => t.2.1) = ts.map (fun _ => S) := by
      apply List.map_congr_left
      intro t h
      exact (t3 t h).2.2.1
    rw [this]; simp
  have hxs : (ts.map (fun t => t.2.2)).flatten = syms.map (fun y => a.txLevels.getD y.toNat 0) := by
    rw [hsyms, List.map_flatten, List.map_map]
    congr 1
    apply List.map_congr_left
    intro t h
    exact (t3 t h).2.2.2.2
  have hxl : ∀ t ∈ ts, t.2.2.length = S := by
    intro t h
    rw [(t3 t h).2.2.2.2, List.length_map, (t3 t h).2.2.1]
  have hsym01 : ∀ y ∈ syms, 0 ≤ y ∧ y < numLevels a.constellation := by
    intro y hy
    obtain ⟨l, hl, hyl⟩ := List.mem_flatten.1 hy
    obtain ⟨t, h, rfl⟩ := List.mem_map.1 hl
    exact (t3 t h).2.2.2.1 y hyl
  -- channel
  have hosr := ht.osr
  obtain ⟨m', ys, y0, z0, q1, q2, hyl, q3, q4⟩ := channel_close a.chan ht.pulse ht.span ht.osr ht.taps.1 m hinit ht.rest.1
    ht.rest.2 ht.taps.2 a.amp ε hf.amp.le S (by omega) noises (ts.map (fun t => t.2.2)) (by simp [hk', htsl])
    (by simpa using hts0) (by
      intro c hc
      obtain ⟨t, h, rfl⟩ := List.mem_map.1 hc
      exact hxl t h) (by
      intro c hc v hv
      obtain ⟨t, h, rfl⟩ := List.mem_map.1 hc
      rw [(t3 t h).2.2.2.2] at hv
      obtain ⟨y, hy, rfl⟩ := List.mem_map.1 hv
      have := (t3 t h).2.2.2.1 y hy
      exact hbound _ (by omega)) hch
  rw [hxs] at q3
  rw [List.length_map, htsl, ← Nat.mul_assoc] at q4
  rw [List.length_map, htsl] at q2
  obtain ⟨y, z, w1, w2, w3⟩ := C51_nyquist (syms.map (fun y => a.txLevels.getD y.toNat 0)) a.chan.osr a.chan.span a.chan.pulse
    a.chan.rolloff ht.pulse ht.osr ht.span (by rw [List.length_map, hsl]; exact Nat.mul_pos hk (by omega))
  rw [q3] at w1
  have hyy : y0 = y := by
    have := Except.ok.inj w1
    rw [Prod.mk.injEq] at this
    exact this.1
  have hyf : ys.flatten.length = k * S * a.chan.osr := by
    rw [List.length_flatten, show ys.map List.length = ys.map (fun _ => S * a.chan.osr) from List.map_congr_left hyl]
    simp [q2, Nat.mul_assoc]
  have hys0 : ys ≠ [] := List.ne_nil_of_length_pos (by omega)
  -- receiver
  have hct : ctle ys.flatten a.zeros a.poles a.dcGain a.fs a.ctleOsr none = .ok (some (ys.flatten, none)) := by
    obtain ⟨fb, fa, -, c2, c3⟩ := ctle_run a.zeros a.poles a.dcGain a.fs a.ctleOsr hf.zeros.1 hf.poles.1 hf.zeros.2
      hf.poles.2 hf.rate
    obtain ⟨rfl, c4⟩ := c3 ht.ctle.1 ht.ctle.2
    rw [c2, lfRun_self _ c4]
  obtain ⟨rs, rx', r1, r2, r3, r4⟩ := C78_receiver_partial a fullScale r ε hf pre post lv o ho ys hys0
    (by
      intro c hc
      rw [ht.sampling.1, hyl c hc]
      exact ⟨Dvd.intro_left _ rfl, Nat.mul_le_mul_right _ hS⟩)
    (by
      intro s h1 ⟨c, hc, h2⟩
      rw [ht.sampling.1, hyl c hc] at h2
      exact hdec s (Nat.eq_of_mul_eq_mul_right hosr h2).symm h1)
    ys.flatten hct a.chan.span (fun n => (syms.getD (n - a.chan.span) 0).toNat)
    (by
      intro n
      by_cases h : n - a.chan.span < syms.length
      · have := hsym01 (syms.getD (n - a.chan.span) 0) (by
          rw [List.getD_eq_getElem?_getD, List.getElem?_eq_getElem h]; exact List.getElem_mem h)
        omega
      · rw [List.getD_eq_getElem?_getD, List.getElem?_eq_none (by omega)]
        simpa using hn)
    (by
      intro n h1 h2
      rw [ht.sampling.1, hyf] at h2
      have h2' := Nat.le_of_mul_le_mul_right h2 hosr
      rw [ht.sampling.1, ht.sampling.2, Nat.zero_add]
      have h3 := w3 (n - a.chan.span) (by rw [List.length_map, hsl]; omega)
      rw [Nat.sub_add_cancel h1] at h3
      rw [getD_map_lt _ 0 0 _ (by rw [hsl]; omega), ← hyy] at h3
      rw [← h3]
      exact q4 _ (Nat.mul_lt_mul_of_pos_right (by omega) hosr))
  have hrl2 : rs.length = k := by
    have := congrArg List.length r2
    simp only [List.length_map] at this
    omega
  have hrd : ∀ u ∈ rs, u.demapped.length = S := by
    intro u hu
    have h1 : u.demapped.length * (a.adcOsr / a.sampleRate) ∈ ys.map List.length := by
      rw [← r2]; exact List.mem_map_of_mem (f := fun u : RxOut => u.demapped.length * (a.adcOsr / a.sampleRate)) hu
    obtain ⟨c, hc, e⟩ := List.mem_map.1 h1
    rw [hyl c hc, ht.sampling.1] at e
    exact (Nat.eq_of_mul_eq_mul_right hosr e).symm
  have hlink := linkCalls_of a noises seed seed' _ _ _ rx' ts ys rs (by rw [hk']; exact t1) q1 r1
  have hz1 : ∀ (ts : List (List Int × List Int × List ℝ)) (rs : List RxOut), ts.length = rs.length →
      (List.zipWith (fun t r => (⟨t.1, t.2.1, r⟩ : LinkOut)) ts rs).map LinkOut.pattern = ts.map Prod.fst ∧
      (List.zipWith (fun t r => (⟨t.1, t.2.1, r⟩ : LinkOut)) ts rs).map LinkOut.symbols = ts.map (fun t => t.2.1) ∧
      (List.zipWith (fun t r => (⟨t.1, t.2.1, r⟩ : LinkOut)) ts rs).map (fun u => u.rx.demapped) = rs.map RxOut.demapped ∧
      ∀ u ∈ List.zipWith (fun t r => (⟨t.1, t.2.1, r⟩ : LinkOut)) ts rs, (∃ t ∈ ts, t.1 = u.pattern ∧ t.2.1 = u.symbols) ∧
        u.rx ∈ rs := by
    intro ts
    induction ts with
    | nil => intro rs h; cases rs with
      | nil => simp
      | cons r rs => simp at h
    | cons t ts ih =>
      intro rs h
      cases rs with
      | nil => simp at h
      | cons r rs =>
        obtain ⟨i1, i2, i3, i4⟩ := ih rs (by simpa using h)
        refine ⟨by simp [i1], by simp [i2], by simp [i3], ?_⟩
        intro u hu
        rw [List.zipWith_cons_cons, List.mem_cons] at hu
        rcases hu with rfl | hu
        · exact ⟨⟨t, by simp, rfl, rfl⟩, by simp⟩
        · obtain ⟨⟨t', h1, h2⟩, h3⟩ := i4 u hu
          exact ⟨⟨t', by simp [h1], h2⟩, by simp [h3]⟩
  obtain ⟨i1, i2, i3, i4⟩ := hz1 ts rs (by omega)
  refine ⟨m, o, _, _, hinit, ho, hlink, by simp [htsl, hrl2], ?_, by rw [i1, t2, p4], ?_⟩
  · intro u hu
    obtain ⟨⟨t, h1, h2, h3⟩, h4⟩ := i4 u hu
    have h5 := t3 t h1
    rw [h2, h3] at h5
    refine ⟨p3 _ ?_, h5.1, h5.2.2.1, hrd _ h4, (r3 _ h4).2, (r3 _ h4).1⟩
    rw [← t2, ← h2]
    exact List.mem_map_of_mem h1
  · intro n hlt
    rw [i2, i3, r4 (n + a.chan.span) (by omega) (by
      rw [ht.sampling.1, hyf]
      exact Nat.mul_le_mul_right _ hlt), Nat.add_sub_cancel, ← hsyms]
    have := hsym01 (syms.getD n 0) (by
      rw [List.getD_eq_getElem?_getD, List.getElem?_eq_getElem (by rw [hsl]; omega)]; exact List.getElem_mem _)
    omega

/-- the hypotheses about the link can be met: PAM4 over a noisy channel with an echo -/
noncomputable def exTransparent (tx : List ℝ) : LinkArgs where
  prbs := .prbs7
  chunk := 16
  rnd := id
  coding := { bps := .whole 2, constellation := .pam4 }
  constellation := .pam4
  txLevels := tx
  amp := 200
  rxFactor := 3
  chan := { pulse := "sinc", span := 3, chType := .isiAwgn, fir := some [1, 1 / 100], rolloff := 0, osr := 4, snr := some 60 }
  zeros := [1]
  poles := [1]
  dcGain := 0
  fs := 16
  ctleOsr := 4
  totalBits := 8
  fracBits := 5
  quant := .ss
  adcOsr := 8
  sampleRate := 2
  phase := 0

theorem exTransparent_fits : ∃ tx, ReceiverFits (exTransparent tx) true (-127, 127) 11 ∧ Transparent (exTransparent tx) := by
  obtain ⟨tx, -, h, -⟩ := C71_recovered_partial .pam4 true 200 3 (by norm_num) (by
    intro l hl
    simp [getLevels, intLevels] at hl
    rcases hl with rfl | rfl | rfl | rfl <;> norm_num [abs_le])
    ⟨3, by simp [getLevels, intLevels], by norm_num⟩ [] (by simp) [] rfl
  refine ⟨tx, ⟨h, by norm_num [exTransparent], ?_,
    ⟨3, by simp [exTransparent, getLevels, intLevels], by norm_num [exTransparent]⟩, by simp [exTransparent],
    by simp [exTransparent], by norm_num [exTransparent], by norm_num [exTransparent],
    (show codeRange 8 .ss = _ by decide), by norm_num [exTransparent], by norm_num [exTransparent],
    by norm_num [exTransparent], ?_⟩, ⟨Or.inl rfl, by norm_num [exTransparent],
    by norm_num [exTransparent], ⟨rfl, by simp [exTransparent]⟩, ⟨rfl, rfl⟩, ⟨rfl, rfl⟩, ⟨by norm_num [exTransparent], rfl⟩⟩⟩
  · intro l hl
    simp [exTransparent, getLevels, intLevels] at hl
    rcases hl with rfl | rfl | rfl | rfl <;> norm_num [abs_le, exTransparent]
  · simp only [exTransparent, getLevels, intLevels]
    norm_num [abs_of_pos]

/-- noise samples of up to five standard deviations are tolerated -/
theorem exTransparent_channel (tx : List ℝ) (noises : List (List ℝ)) (hn : ∀ nz ∈ noises, nz.length = 32 ∧ ∀ z ∈ nz, |z| ≤ 5) :
    ChannelFits (exTransparent tx).chan (exTransparent tx).amp (8 * (exTransparent tx).chan.osr) 11 noises := by
  refine .isi rfl [1, 1 / 100] rfl (by simp) _ 5 (peakGain_sinc _ rfl) (by norm_num [exTransparent]) (by norm_num) ?_ ?_
  · intro snr hs
    have hs' : (60 : ℝ) = snr := by simpa [exTransparent] using hs
    subst hs'
    refine ⟨5, hn, ?_⟩
    rw [show (60 : ℝ) / 10 = ((6 : ℕ) : ℝ) by norm_num, Real.rpow_natCast]
    simp only [exTransparent, List.length_cons, List.length_nil, Finset.sum_range_succ, Finset.sum_range_zero]
    norm_num [abs_of_pos]
  · rw [show (Finset.Ico 1 ([1, 1 / 100] : List ℝ).length) = {1} from rfl, Finset.sum_singleton]
    simp only [exTransparent]
    norm_num [abs_of_pos]

/-- **C78**, error-free link (partial: transparent CTLE, channel near the identity, no codes, default equalizer taps, no
convergence; exact arithmetic). Whatever the alphabet (`2^w` levels), inversion and bit order, the received bits are the PRBS stream delayed by
`w·(span + precursors)` bits, and the error checker reports no errors on the chunks after this delay. -/
theorem C78_error_free_partial (a : LinkArgs) (fullScale : Bool) (r : ℤ × ℤ) (ε : ℝ)
    (hf : ReceiverFits a fullScale r ε) (ht : Transparent a) (seed : List Int) (hseed : seed.length = a.prbs.value) (b : ℕ → Int)
    (hb : LfsrStream (getPolynomial a.prbs) seed b) (pre post : ℕ) (lv : Option (List ℝ)) (S w : ℕ) (hS : pre + post + 1 ≤ S)
    (hw : 1 ≤ w) (hc : numLevels a.constellation = 2 ^ w) (hu : Uncoded a.coding w) (hchunk : a.chunk = w * S)
    (hone : w = 1 ∨ S ≠ 1 ∨ a.coding.flags.matrixOp = false) (k : ℕ) (noises : List (List ℝ)) (hk' : noises.length = k)
    (hch : ChannelFits a.chan a.amp (S * a.chan.osr) ε noises) :
    ∃ (m : ChannelMem) (o : EqObj ℝ) (outs : List LinkOut) (st' : LinkState) (bits : List (List Int)),
      channelInit a.chan = .ok m ∧ eqInit pre post 0 none none lv none none = .ok o ∧
      linkCalls a noises ⟨seed, m, ⟨ctleObjInit a.zeros a.poles none, o⟩⟩ = .ok (some (outs, st')) ∧ outs.length = k ∧
      outs.map (fun u => u.rx.decoded) = bits.map (fun l => l.map (fun (v : Int) => (v : ℚ))) ∧
      (∀ l ∈ bits, l.length = a.chunk) ∧
      (∀ n, n + w * (a.chan.span + pre) < k * a.chunk → bits.flatten.getD (n + w * (a.chan.span + pre)) 0 = b n) ∧
      (a.chunk ≤ 2 ^ a.prbs.value - 1 → ∀ j, w * (a.chan.span + pre) ≤ j * a.chunk → j ≤ k →
        ∃ s s', berInit a.prbs seed = .ok s ∧ checkBers a.prbs s (bits.drop j) = .ok (List.replicate (k - j) 0, s') ∧
          s'.accErrors = 0) := by
  obtain ⟨f, f1, f2, f3⟩ := uncoded_codec a.rnd a.coding w hw hu
  have hdec : ∀ s : List Int, s.length = S → decoder a.coding s = .ok ((s.map f).flatten.map (fun (v : Int) => (v : ℚ))) := by
    intro s hs
    exact f2 s (by rw [hs]; exact hone)
  obtain ⟨m, o, outs, st', g1, g2, g3, g4, g5, g6, g7⟩ := C78_symbols_partial a fullScale r ε hf ht seed hseed b hb pre post lv S
    hS (by
      intro x hx h01
      obtain ⟨sym, h1, h2, h3, -⟩ := f3 x S h01 (by rw [hx, hchunk])
      exact ⟨sym, h1, h2, fun v hv => by rw [hc]; exact_mod_cast h3 v hv⟩)
    (fun s hs _ => ⟨_, hdec s hs⟩) k noises hk' hch
  have hb01 : ∀ t, b t = 0 ∨ b t = 1 := by
    rw [lfsrStream_unique hb (lfsrStream_bitAt _ _ (by rw [poly_length, hseed]))]
    exact fun t => bitAt_mem _ _ _
  have hpat : ∀ u ∈ outs, IsBinary u.pattern := by
    intro u hu v hv
    have : v ∈ (outs.map LinkOut.pattern).flatten := List.mem_flatten.2 ⟨_, List.mem_map_of_mem hu, hv⟩
    rw [g6] at this
    obtain ⟨t, -, rfl⟩ := List.mem_map.1 this
    exact hb01 t
  have hrt : ∀ u ∈ outs, (u.symbols.map f).flatten = u.pattern := by
    intro u hu
    obtain ⟨h1, h2, -⟩ := g5 u hu
    obtain ⟨sym, e1, -, -, e2⟩ := f3 u.pattern S (hpat u hu) (by rw [h1, hchunk])
    rw [h2] at e1
    cases e1
    exact e2
  have hfl : ∀ (g : LinkOut → List Int) (l : List LinkOut),
      (l.map (fun u => ((g u).map f).flatten)).flatten = ((l.map g).flatten.map f).flatten := by
    intro g l
    induction l with
    | nil => rfl
    | cons u l ih => rw [List.map_cons, List.flatten_cons, ih, List.map_cons, List.flatten_cons, List.map_append,
        List.flatten_append]
  have hsymf : ((outs.map LinkOut.symbols).flatten.map f).flatten = (List.range (k * a.chunk)).map b := by
    rw [← g6, ← hfl]
    congr 1
    exact List.map_congr_left hrt
  have hlen : ∀ (g : LinkOut → List Int), (∀ u ∈ outs, (g u).length = S) → (outs.map g).flatten.length = k * S := by
    intro g hg
    rw [List.length_flatten, List.map_map, ← g4]
    have : outs.map (List.length ∘ g) = outs.map (fun _ => S) := List.map_congr_left hg
    rw [this]; simp
  have hls := hlen LinkOut.symbols (fun u hu => (g5 u hu).2.2.1)
  have hld := hlen (fun u => u.rx.demapped) (fun u hu => (g5 u hu).2.2.2.1)
  have hfw : ∀ s : List Int, ((s.map f).flatten).length = w * s.length := by
    intro s
    induction s with
    | nil => simp
    | cons v s ih => rw [List.map_cons, List.flatten_cons, List.length_append, f1, ih, List.length_cons, Nat.mul_succ]; omega
  have hbl : ∀ l ∈ outs.map (fun u => (u.rx.demapped.map f).flatten), l.length = a.chunk := by
    intro l hl
    obtain ⟨u, hu, rfl⟩ := List.mem_map.1 hl
    rw [hfw, (g5 u hu).2.2.2.1, hchunk]
  have hbits : ∀ n, n + w * (a.chan.span + pre) < k * a.chunk →
      (outs.map (fun u => (u.rx.demapped.map f).flatten)).flatten.getD (n + w * (a.chan.span + pre)) 0 = b n := by
    intro n hn
    have hkc : k * a.chunk = w * (k * S) := by rw [hchunk]; ring
    have hdm := Nat.div_add_mod n w
    have hr := Nat.mod_lt n (show 0 < w by omega)
    have hq : n / w + (a.chan.span + pre) < k * S := by
      rw [hkc] at hn
      by_contra hcon
      push Not at hcon
      have := Nat.mul_le_mul_left w hcon
      rw [Nat.mul_add] at this
      omega
    rw [hfl, show n + w * (a.chan.span + pre) = w * (n / w + (a.chan.span + pre)) + n % w by
        rw [Nat.mul_add w (n / w)]; omega,
      flatMap_getD f w f1 0 0 _ _ _ (by rw [hld]; exact hq) hr, ← Nat.add_assoc, g7 _ (by omega),
      ← flatMap_getD f w f1 0 0 _ _ _ (by rw [hls]; omega) hr, hdm, hsymf, map_range_getD _ _ _ _ (by omega)]
  refine ⟨m, o, outs, st', outs.map (fun u => (u.rx.demapped.map f).flatten), g1, g2, g3, g4, ?_, hbl, hbits, ?_⟩
  · rw [List.map_map]
    apply List.map_congr_left
    intro u hu
    obtain ⟨-, -, -, h1, h2, -⟩ := g5 u hu
    rw [hdec _ h1] at h2
    exact (Except.ok.inj h2).symm
  · intro hper j hj hjk
    have hcpos : 0 < a.chunk := by rw [hchunk]; exact Nat.mul_pos (by omega) (by omega)
    obtain ⟨s, s', h1, h2, h3⟩ := C73_negative_slips a.prbs seed hseed b hb
      ((List.range (k - j)).map (fun i => ((j + i) * a.chunk - w * (a.chan.span + pre), a.chunk)))
      (by
        intro c hc
        obtain ⟨i, -, rfl⟩ := List.mem_map.1 hc
        exact ⟨hcpos, hper⟩)
    refine ⟨s, s', h1, ?_, h3⟩
    rw [List.map_map, List.map_map] at h2
    convert h2 using 3
    · apply List.ext_getElem
      · simp [g4]
      · intro i hi1 hi2
        have hik : j + i < k := by simp [g4] at hi1; omega
        rw [List.getElem_drop, List.getElem_map, List.getElem_map, List.getElem_range]
        simp only [Function.comp]
        refine ext_getD 0 ?_ fun t ht' => ?_
        · rw [hfw, (g5 _ (List.getElem_mem _)).2.2.2.1, ← hchunk]; simp
        · rw [hfw, (g5 _ (List.getElem_mem _)).2.2.2.1, ← hchunk] at ht'
          rw [map_range_getD _ _ _ _ ht']
          have hmul : (j + i + 1) * a.chunk ≤ k * a.chunk := Nat.mul_le_mul_right _ hik
          rw [Nat.succ_mul] at hmul
          have hj2 : j * a.chunk ≤ (j + i) * a.chunk := Nat.mul_le_mul_right _ (by omega)
          have h5 := hbits ((j + i) * a.chunk - w * (a.chan.span + pre) + t) (by omega)
          rw [← h5, show (j + i) * a.chunk - w * (a.chan.span + pre) + t + w * (a.chan.span + pre) = a.chunk * (j + i) + t by
            rw [Nat.mul_comm a.chunk]; omega]
          have h6 := flatMap_getD (α := {l : List Int // l.length = a.chunk}) (fun l => l.1) a.chunk (fun l => l.2)
            ⟨List.replicate a.chunk 0, by simp⟩ 0
            ((outs.map (fun u => (u.rx.demapped.map f).flatten)).attach.map (fun l => ⟨l.1, hbl l.1 l.2⟩)) (j + i) t
            (by simp [g4]; exact hik) ht'
          rw [List.map_map] at h6
          simp only [Function.comp_def] at h6
          rw [List.attach_map_subtype_val] at h6
          rw [h6, List.getD_eq_getElem?_getD (l := List.map _ _), List.getElem?_eq_getElem (by simp [g4]; exact hik)]
          simp
    · symm
      rw [List.eq_replicate_iff]
      simp [Function.comp_def]

/-- the error-free theorem applies to PAM4 with chunks of 16 bits, 3 precursors and 4 postcursors, over a channel with an echo
and noise, for every number of calls: the bits arrive with a delay of 12 -/
example (seed : List Int) (hseed : seed.length = 7) (b : ℕ → Int) (hb : LfsrStream (getPolynomial .prbs7) seed b)
    (noises : List (List ℝ)) (hn : ∀ nz ∈ noises, nz.length = 32 ∧ ∀ z ∈ nz, |z| ≤ 5) :
    ∃ tx m o outs st', ∃ bits : List (List Int), channelInit (exTransparent tx).chan = .ok m ∧
      eqInit 3 4 0 none none none none none = .ok o ∧
      linkCalls (exTransparent tx) noises ⟨seed, m, ⟨ctleObjInit [1] [1] none, o⟩⟩ = .ok (some (outs, st')) ∧
      outs.map (fun u => u.rx.decoded) = bits.map (fun l => l.map (fun (v : Int) => (v : ℚ))) ∧
      ∀ n, n + 12 < noises.length * 16 → bits.flatten.getD (n + 12) 0 = b n := by
  obtain ⟨tx, h1, h2⟩ := exTransparent_fits
  obtain ⟨m, o, outs, st', bits, g1, g2, g3, -, g4, -, g5, -⟩ := C78_error_free_partial (exTransparent tx) true (-127, 127) 11 h1
    h2 seed hseed b hb 3 4 none 8 2 (by norm_num) (by norm_num) (by simp [exTransparent, numLevels])
    ⟨rfl, rfl, rfl, rfl, rfl, rfl, rfl, rfl, rfl, rfl⟩ rfl (Or.inr (Or.inl (by norm_num))) _ noises rfl
    (exTransparent_channel tx noises hn)
  exact ⟨tx, m, o, outs, st', bits, g1, g2, g3, g4, g5⟩

end Verif
