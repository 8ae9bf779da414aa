import Verif.Lemmas.SimEq
import Verif.Props.Ffe

/-!
# Equalizer object of the example simulation (C75)
-/

set_option linter.unusedSectionVars false

namespace Verif
open Spec Finset

variable {K : Type} [Field K] [LinearOrder K] [IsStrictOrderedRing K]

/-- **C75**, construction: the object is created exactly when every given vector has the announced length and levels are
given whenever there are feedback taps; otherwise ValueError. -/
theorem C75_accepts (pre post dfeTaps : ℕ) (ffe dfe levels ziFfe ziDfe : Option (List K)) :
    ((∃ o, eqInit pre post dfeTaps ffe dfe levels ziFfe ziDfe = .ok o) ↔
      (∀ v, ffe = some v → v.length = pre + post + 1) ∧ (∀ v, dfe = some v → v.length = dfeTaps) ∧
      (0 < dfeTaps → levels ≠ none) ∧ (∀ v, ziFfe = some v → v.length = pre + post + 1) ∧
      (∀ v, ziDfe = some v → v.length = dfeTaps)) ∧
    ((¬ ∃ o, eqInit pre post dfeTaps ffe dfe levels ziFfe ziDfe = .ok o) →
      eqInit pre post dfeTaps ffe dfe levels ziFfe ziDfe = .error .valueError) := by
  by_cases h : EqArgs pre post dfeTaps ffe dfe levels ziFfe ziDfe
  · have := eqInit_ok h
    exact ⟨⟨fun _ => ⟨h.1, h.2, h.3, h.4, h.5⟩, fun _ => ⟨_, this⟩⟩, fun hn => absurd ⟨_, this⟩ hn⟩
  · have herr : eqInit pre post dfeTaps ffe dfe levels ziFfe ziDfe = .error .valueError := by
      unfold eqInit
      by_cases h1 : ∀ v, ffe = some v → v.length = pre + post + 1
      · rw [orDefault_ok h1]
        by_cases h2 : ∀ v, dfe = some v → v.length = dfeTaps
        · rw [orDefault_ok h2]
          simp only [bind, Except.bind]
          rw [orDefault_length h2 (by simp)]
          by_cases h3 : 0 < dfeTaps ∧ levels = none
          · rw [if_pos h3]
          · rw [if_neg h3]
            by_cases h4 : ∀ v, ziFfe = some v → v.length = pre + post + 1
            · rw [orDefault_ok h4]
              by_cases h5 : ∀ v, ziDfe = some v → v.length = dfeTaps
              · exact absurd ⟨h1, h2, fun a b => h3 ⟨a, b⟩, h4, h5⟩ h
              · rw [orDefault_error h5]
            · rw [orDefault_error h4]
        · rw [orDefault_error h2]; rfl
      · rw [orDefault_error h1]; rfl
    refine ⟨⟨fun ⟨o, ho⟩ => ?_, fun hh => absurd ⟨hh.1, hh.2.1, hh.2.2.1, hh.2.2.2.1, hh.2.2.2.2⟩ h⟩, fun _ => herr⟩
    rw [herr] at ho
    exact absurd ho (by simp)

/-- **C75**, feedback taps present: called on successive non-empty chunks of any lengths, the object produces the slicer
inputs of one decision feedback equalizer working on the whole signal: feed-forward sum minus feedback of the decisions
already taken (preceded by the given memories), each decision the nearest of the given levels. -/
theorem C75_decision_feedback (pre post dfeTaps : ℕ) (ffe dfe ziFfe ziDfe : Option (List K)) (lv : List K)
    (hlv : lv ≠ []) (hd : 0 < dfeTaps) (o : EqObj K)
    (ho : eqInit pre post dfeTaps ffe dfe (some lv) ziFfe ziDfe = .ok o) (cs : List (List K)) (hcs0 : cs ≠ [])
    (hcs : ∀ c ∈ cs, c ≠ []) :
    ∃ (ys : List (List K)) (o' : EqObj K) (d : List K), eqCalls o cs = .ok (ys, o') ∧
      ys.map List.length = cs.map List.length ∧ d.length = cs.flatten.length ∧
      ∀ n : ℕ, n < cs.flatten.length →
        ys.flatten.getD n 0
          = ∑ i ∈ range (pre + post + 1), (ffe.getD (List.replicate pre 0 ++ 1 :: List.replicate post 0)).getD i 0
              * withPast ((ziFfe.getD []).drop 1).reverse cs.flatten (n - i)
            - ∑ j ∈ range dfeTaps, (dfe.getD []).getD j 0 * withPast (ziDfe.getD []) d (n - 1 - j) ∧
        NearestFirst lv (ys.flatten.getD n 0) (d.getD n 0) := by
  obtain ⟨a1, a2, a3, a4, a5⟩ := (C75_accepts pre post dfeTaps ffe dfe (some lv) ziFfe ziDfe).1.1 ⟨o, ho⟩
  rw [eqInit_ok ⟨a1, a2, a3, a4, a5⟩] at ho
  cases ho
  set F := ffe.getD (List.replicate pre 0 ++ 1 :: List.replicate post 0) with hF
  set D := dfe.getD (List.replicate dfeTaps 0) with hD
  set zf := ziFfe.getD (List.replicate (pre + post + 1) 0) with hzf
  set zd := ziDfe.getD (List.replicate dfeTaps 0) with hzd
  have hFl : F.length = pre + post + 1 := orDefault_length a1 (by simp; omega)
  have hDl : D.length = dfeTaps := orDefault_length a2 (by simp)
  have hzfl : zf.length = pre + post + 1 := orDefault_length a4 (by simp)
  have hzdl : zd.length = dfeTaps := orDefault_length a5 (by simp)
  have hd0 : dfeTaps ≠ 0 := by omega
  have hmem : (⟨F, dfeTaps, D, some lv, zf, zd⟩ : EqObj K).mem = (if F.length = 1 then none else some zf, some zd) := by
    simp [EqObj.mem, hd0]
  have hm1 : ∀ z, (if F.length = 1 then none else some zf) = some z → z.length = F.length := by
    intro z hz
    split_ifs at hz
    cases hz
    rw [hFl, hzfl]
  obtain ⟨ys, r, e1, e2, e3, e4⟩ := C47_chunks_partial F D (some lv) (by simpa using hlv) 1 (by omega) 0 (by simp)
    (by omega) (by omega) (if F.length = 1 then none else some zf) (some zd) hm1 (by simp [hzdl, hDl]) cs hcs0
    (fun c hc => ⟨List.length_pos_iff.2 (hcs c hc), one_dvd _⟩)
  have hx : 0 < cs.flatten.length := by
    obtain ⟨c, cs', rfl⟩ := List.exists_cons_of_ne_nil hcs0
    have := List.length_pos_iff.2 (hcs c (by simp))
    simp only [List.flatten_cons, List.length_append]; omega
  obtain ⟨r', d, f1, f2, f3, f4⟩ := C47_recursion_symbol_rate cs.flatten F D (some lv) (by simpa using hlv) 0 (by omega)
    (by omega) hx (if F.length = 1 then none else some zf) (some zd) hm1 (by simp [hzdl, hDl])
  rw [e2] at f1
  cases f1
  have hfb : (⟨F, dfeTaps, D, some lv, zf, zd⟩ : EqObj K).fb = some D := by simp [EqObj.fb, hd0]
  obtain ⟨o', g1, -⟩ := eqCalls_of ⟨F, dfeTaps, D, some lv, zf, zd⟩ cs ys r.memories (by rw [hfb, hmem]; exact e1)
  have hpast : ∀ n : ℕ, ∀ i ∈ range (pre + post + 1),
      withPast (((if F.length = 1 then none else some zf).getD []).drop 1).reverse cs.flatten ((n : ℤ) - i)
        = withPast ((ziFfe.getD []).drop 1).reverse cs.flatten (n - i) := by
    intro n i hi
    by_cases h1 : F.length = 1
    · rw [if_pos h1]
      have : (ziFfe.getD []).drop 1 = [] := by
        cases hz : ziFfe with
        | none => rfl
        | some v =>
          have := a4 v hz
          apply List.eq_nil_of_length_eq_zero
          rw [Option.getD_some, List.length_drop]; omega
      rw [this]; rfl
    · rw [if_neg h1, Option.getD_some]
      cases hz : ziFfe with
      | none =>
        rw [hzf, hz, Option.getD_none, List.drop_replicate, List.reverse_replicate, withPast_zeros]
        rfl
      | some v => rw [hzf, hz]; rfl
  refine ⟨ys, o', d, g1, e3, f3, fun n hn => ?_⟩
  obtain ⟨k1, k2⟩ := f4 n hn
  rw [e4]
  refine ⟨?_, k2⟩
  rw [k1, hFl, hDl]
  congr 1
  · refine sum_congr rfl fun i hi => ?_
    have h := hpast n i hi
    rw [hFl] at h
    rw [h]
  · refine sum_congr rfl fun j hj => ?_
    congr 1
    · cases hz : dfe with
      | none =>
        rw [hD, hz, Option.getD_none, Option.getD_none, List.getD_eq_getElem?_getD, List.getElem?_replicate]
        split_ifs <;> rfl
      | some v => rw [hD, hz]; rfl
    · cases hz : ziDfe with
      | none => rw [Option.getD_some, hzd, hz, Option.getD_none, withPast_zeros]; rfl
      | some v => rw [hzd, hz]; rfl

/-- one feedback tap, as shipped -/
example : (eqInit (K := ℚ) 1 1 1 none (some [1/2]) (some [-3, -1, 1, 3]) none none).isOk = true := by decide
example : ((eqInit (K := ℚ) 1 1 1 none (some [1/2]) (some [-3, -1, 1, 3]) none none >>= fun o =>
    eqCalls o [[1], [3, -3], [2]]).map (fun r => r.1)) = .ok [[0], [3/2, 5/2], [-9/2]] := by decide +kernel

/-- **C75**, feed-forward only (partial: chunks at least as long as the filter; shorter ones raise, see
`C75_negative_short_chunk`): the outputs of successive chunks are the convolution of the whole signal, preceded by the given
memory, with the taps. -/
theorem C75_feed_forward_partial (pre post : ℕ) (hp : 0 < pre + post) (ffe levels ziFfe : Option (List K)) (o : EqObj K)
    (ho : eqInit pre post 0 ffe none levels ziFfe none = .ok o) (cs : List (List K)) (hcs0 : cs ≠ [])
    (hcs : ∀ c ∈ cs, pre + post + 1 ≤ c.length) :
    ∃ (ys : List (List K)) (o' : EqObj K), eqCalls o cs = .ok (ys, o') ∧ ys.map List.length = cs.map List.length ∧
      ∀ n : ℕ, n < cs.flatten.length → ys.flatten.getD n 0
        = ∑ i ∈ range (pre + post + 1), (ffe.getD (List.replicate pre 0 ++ 1 :: List.replicate post 0)).getD i 0
            * withPast ((ziFfe.getD []).drop 1).reverse cs.flatten (n - i) := by
  obtain ⟨a1, a2, a3, a4, a5⟩ := (C75_accepts pre post 0 ffe none levels ziFfe none).1.1 ⟨o, ho⟩
  rw [eqInit_ok ⟨a1, a2, a3, a4, a5⟩] at ho
  cases ho
  set F := ffe.getD (List.replicate pre 0 ++ 1 :: List.replicate post 0) with hF
  set zf := ziFfe.getD (List.replicate (pre + post + 1) 0) with hzf
  have hFl : F.length = pre + post + 1 := orDefault_length a1 (by simp; omega)
  have hzfl : zf.length = pre + post + 1 := orDefault_length a4 (by simp)
  have hF1 : F.length ≠ 1 := by omega
  have hz' : ∀ z, (some zf : Option (List K)) = some z → z.length = F.length := by
    intro z hz; cases hz; rw [hFl, hzfl]
  obtain ⟨ys, y, zo, e1, e2, e3, e4⟩ := C46_chunks_partial F levels 1 0 (some zf) (by omega) hz' cs hcs0
    (fun c hc => by rw [hFl]; exact hcs c hc)
  have hx : 0 < cs.flatten.length := by
    obtain ⟨c, cs', rfl⟩ := List.exists_cons_of_ne_nil hcs0
    have := hcs c (by simp)
    simp only [List.flatten_cons, List.length_append]; omega
  obtain ⟨y', zo', f1, f2, f3, -⟩ := C46_convolution cs.flatten F levels 1 0 (some zf) none (by omega) hz' hx
  rw [e2] at f1
  cases f1
  obtain ⟨o', g1, -⟩ := eqCalls_of ⟨F, 0, (none : Option (List K)).getD (List.replicate 0 0), levels, zf,
    (none : Option (List K)).getD (List.replicate 0 0)⟩ cs ys (some zo, none) (by
      simp only [EqObj.fb, EqObj.mem, if_true, if_neg hF1]; exact e1)
  refine ⟨ys, o', g1, e3, fun n hn => ?_⟩
  rw [e4, f3 n hn, hFl]
  refine sum_congr rfl fun i _ => ?_
  congr 1
  rw [Option.getD_some]
  cases hz : ziFfe with
  | none =>
    rw [hzf, hz, Option.getD_none, List.drop_replicate, List.reverse_replicate, withPast_zeros]
    rfl
  | some v => rw [hzf, hz]; rfl

/-- **C75**, defaults: without taps given, the object delays the signal by the number of precursors. -/
theorem C75_default_delay_partial (pre post : ℕ) (hp : 0 < pre + post) (o : EqObj K)
    (ho : eqInit pre post 0 none none none none none = .ok o) (cs : List (List K)) (hcs0 : cs ≠ [])
    (hcs : ∀ c ∈ cs, pre + post + 1 ≤ c.length) :
    ∃ (ys : List (List K)) (o' : EqObj K), eqCalls o cs = .ok (ys, o') ∧
      ys.flatten = List.replicate pre 0 ++ cs.flatten.take (cs.flatten.length - pre) := by
  obtain ⟨ys, o', h1, h2, h3⟩ := C75_feed_forward_partial pre post hp none none none o ho cs hcs0 hcs
  have hlen : ys.flatten.length = cs.flatten.length := by rw [List.length_flatten, List.length_flatten, h2]
  have hx : pre ≤ cs.flatten.length := by
    obtain ⟨c, cs', rfl⟩ := List.exists_cons_of_ne_nil hcs0
    have := hcs c (by simp)
    simp only [List.flatten_cons, List.length_append]; omega
  refine ⟨ys, o', h1, ext_getD 0 (by rw [hlen, List.length_append, List.length_replicate, List.length_take]; omega) fun n hn => ?_⟩
  rw [h3 n (by omega), sum_eq_single pre]
  · rw [Option.getD_none, Option.getD_none]
    have e1 : (List.replicate pre (0 : K) ++ 1 :: List.replicate post 0).getD pre 0 = 1 := by
      rw [List.getD_eq_getElem?_getD, List.getElem?_append_right (by simp)]
      simp
    rw [e1, one_mul]
    by_cases hlt : n < pre
    · rw [List.getD_eq_getElem?_getD, List.getElem?_append_left (by simpa using hlt)]
      simp only [List.getElem?_replicate, if_pos hlt, Option.getD_some]
      unfold withPast
      rw [if_neg (by omega)]
      simp
    · rw [List.getD_eq_getElem?_getD, List.getElem?_append_right (by simp; omega)]
      unfold withPast
      rw [if_pos (by omega), List.length_replicate, List.getElem?_take, if_pos (by omega), List.getD_eq_getElem?_getD]
      congr 2
      omega
  · intro i hi hne
    rw [Option.getD_none]
    have : (List.replicate pre (0 : K) ++ 1 :: List.replicate post 0).getD i 0 = 0 := by
      rw [List.getD_eq_getElem?_getD]
      by_cases hlt : i < pre
      · rw [List.getElem?_append_left (by simpa using hlt), List.getElem?_replicate]
        split_ifs <;> rfl
      · rw [List.getElem?_append_right (by simp; omega), List.length_replicate]
        obtain ⟨j, hj⟩ : ∃ j, i - pre = j + 1 := ⟨i - pre - 1, by omega⟩
        rw [hj, List.getElem?_cons_succ, List.getElem?_replicate]
        split_ifs <;> rfl
    rw [this, zero_mul]
  · intro hh
    exact absurd (mem_range.2 (by omega)) hh

/-- the shipped sizes: 4 precursors, 27 postcursors, chunks of 64 samples -/
example : 0 < 4 + 27 ∧ 4 + 27 + 1 ≤ 64 := by decide
example : ((eqInit (K := ℚ) 1 1 0 none none none none none >>= fun o => eqCalls o [[1, 2, 3], [4, 5, 6]]).map (fun r => r.1))
    = .ok [[0, 1, 2], [3, 4, 5]] := by decide +kernel

/-- **C75**, *violated* for short chunks: without feedback taps, a chunk shorter than the filter is accepted but leaves a
memory of the wrong length, and the next call raises TypeError. -/
theorem C75_negative_short_chunk (pre post : ℕ) (hp : 0 < pre + post) (c c' : List K) (h0 : 0 < c.length)
    (hc : c.length < pre + post + 1) (o : EqObj K) (ho : eqInit pre post 0 none none none none none = .ok o) :
    (∃ r, eqCalls o [c] = .ok r) ∧ eqCalls o [c, c'] = .error .typeError := by
  rw [eqInit_ok ⟨by simp, by simp, by simp, by simp, by simp⟩] at ho
  cases ho
  set F : List K := (none : Option (List K)).getD (List.replicate pre 0 ++ 1 :: List.replicate post 0) with hF
  have hFl : F.length = pre + post + 1 := by simp [hF]; omega
  have hz : initFfe F (some (List.replicate (pre + post + 1) (0 : K))) = .ok (List.replicate (pre + post) 0) := by
    simp only [initFfe]
    rw [if_pos (by simp [hFl])]
    simp
  have hone := ffeDfe_ffe c F none 1 0 (some (List.replicate (pre + post + 1) (0 : K))) none _ hz (by omega) h0
  obtain ⟨g1, g2⟩ := eqCall_of ⟨F, 0, [], none, List.replicate (pre + post + 1) 0, []⟩ c _ (by
    simp only [EqObj.fb, EqObj.mem, if_true, if_neg (show F.length ≠ 1 by omega)]; exact hone)
  constructor
  · obtain ⟨r, hr⟩ : ∃ r, eqCall ⟨F, 0, [], none, List.replicate (pre + post + 1) 0, []⟩ c = .ok r := ⟨_, g1⟩
    refine ⟨([r.1], r.2), ?_⟩
    show eqCalls ⟨F, 0, [], none, List.replicate (pre + post + 1) 0, []⟩ [c] = _
    simp only [eqCalls, hr, bind, Except.bind]
    rfl
  · show eqCalls ⟨F, 0, [], none, List.replicate (pre + post + 1) 0, []⟩ [c, c'] = _
    simp only [eqCalls, g1, bind, Except.bind]
    have : eqCall (EqObj.update ⟨F, 0, [], none, List.replicate (pre + post + 1) 0, []⟩
        (EqOut.ffe (convValid F (List.replicate (pre + post) 0 ++ c)) (lastN F.length c)).memories) c'
        = .error .typeError := by
      unfold eqCall
      simp only [EqObj.update, EqOut.memories, Option.getD_some, and_true, if_true,
        if_neg (show F.length ≠ 1 by omega)]
      have : ffeDfe c' F none none 1 0 (some (lastN F.length c)) none = .error .typeError := by
        unfold ffeDfe
        simp only []
        rw [if_neg (by omega)]
        simp only [initFfe]
        rw [if_neg (by simp only [lastN, List.length_drop]; omega)]
        rfl
      rw [this]; rfl
    rw [this]

end Verif
