import Verif.Lemmas.GainWitness

/-!
Property C99: the shipped example program. Property C100: its gain control and clock recovery loops.

`RxFull.lms`, `cdr`, `converge` are the control bits of the receiver. The program sets all of them
(`FullLink.start_convergence`); C100 is about the receiver with the LMS bit left out, since the LMS branch calls a function
the library does not have (C99).
-/

namespace Verif

open Spec

/-- states produced one after the other -/
theorem exists_run {α β : Type} (Inv : ℕ → α → Prop) (R : ℕ → α → β → α → Prop)
    (step : ∀ k a, Inv k a → ∃ b a', R k a b a' ∧ Inv (k + 1) a') (a0 : α) (h0 : Inv 0 a0) :
    ∃ (st : ℕ → α) (out : ℕ → β), st 0 = a0 ∧ ∀ k, Inv k (st k) ∧ R k (st k) (out k) (st (k + 1)) := by
  have step' : ∀ k a, ∃ b a', Inv k a → R k a b a' ∧ Inv (k + 1) a' := by
    intro k a
    by_cases h : Inv k a
    · obtain ⟨b, a', hh⟩ := step k a h
      exact ⟨b, a', fun _ => hh⟩
    · obtain ⟨b, a', -⟩ := step 0 a0 h0
      exact ⟨b, a', fun h' => absurd h' h⟩
  choose fb fa hf using step'
  refine ⟨fun k => Nat.rec a0 (fun k a => fa k a) k, fun k => fb k (Nat.rec a0 (fun k a => fa k a) k), rfl, ?_⟩
  have hinv : ∀ k, Inv k (Nat.rec a0 (fun k a => fa k a) k : α) := by
    intro k
    induction k with
    | zero => exact h0
    | succ k ih => exact (hf k _ ih).2
  intro k
  exact ⟨hinv k, (hf k _ (hinv k)).1⟩

/-- **C99 (what holds).** The shipped configuration is accepted, all objects are built, and as long as the convergence bits
are not set every call of the link succeeds, for every channel response, every noise and for ever. But all demapped symbols
are 1 or 2 (the receiver slices with levels of a quarter of a volt and demaps with levels 1 and 3). -/
theorem C99_calls_partial (rnd : Int → Int) (taps : List ℝ) (ht : taps ≠ []) (noise : ℕ → List ℝ)
    (hn : ∀ k, (noise k).length = 4096) :
    ∃ (a : LinkArgs) (st : ℕ → LinkFull) (out : ℕ → LinkOut), shippedConfig rnd taps = .ok a ∧
      simulationStart a 4 27 1 (getLevels .pam4 false) = .ok (st 0) ∧
      ∀ k, linkFullCall a 4 (noise k) (st k) = .ok (some (out k, st (k + 1))) ∧
        (out k).pattern.length = 64 ∧ (out k).symbols.length = 64 ∧ (out k).rx.demapped.length = 64 ∧ (out k).rx.decoded.length = 64 ∧
        (∀ v ∈ (out k).rx.demapped, v = 1 ∨ v = 2) ∧ (∀ q ∈ (out k).rx.decoded, q = 0 ∨ q = 1) ∧
        (st k).rx.gain = 1 ∧ (st k).rx.phase = 32 ∧ (st k).rx.done = false := by
  obtain ⟨fir, tx, s0, hf, htx, hc, hs, hr, c0, d0, g0, p0⟩ := ship_start rnd taps ht
  obtain ⟨st, out, h0, hst⟩ := exists_run
    (fun _ (s : LinkFull) => (∃ h, ShipReady fir s h) ∧ s.rx.converge = false ∧ s.rx.done = false ∧ s.rx.gain = 1 ∧ s.rx.phase = 32)
    (fun k s (o : LinkOut) s' => linkFullCall (shippedArgs rnd fir tx) 4 (noise k) s = .ok (some (o, s')) ∧
        o.pattern.length = 64 ∧ o.symbols.length = 64 ∧ o.rx.demapped.length = 64 ∧ o.rx.decoded.length = 64 ∧
        (∀ v ∈ o.rx.demapped, v = 1 ∨ v = 2) ∧ (∀ q ∈ o.rx.decoded, q = 0 ∨ q = 1))
    (by
      rintro k s ⟨⟨h, hr⟩, c, d, g, p⟩
      obtain ⟨pp, ss, sym, bits, dd, seed', ch', mem', l1, l2, l3, -, l4, l5, l6, l7, l8, l9⟩ :=
        ship_step rnd fir tx hf htx s h hr (noise k) (hn k)
      rw [converge_idle] at l9
      · exact ⟨_, _, ⟨l9, l1, l2, l4, l6, l5, l7⟩, ⟨_, l8⟩, c, d, g, p⟩
      · exact c)
    s0 ⟨⟨_, hr⟩, c0, d0, g0, p0⟩
  refine ⟨_, st, out, hc, by rw [h0]; exact hs, fun k => ?_⟩
  obtain ⟨⟨-, -, d, g, p⟩, r1, r2, r3, r4, r5, r6, r7⟩ := hst k
  exact ⟨r1, r2, r3, r4, r5, r6, r7, g, p, d⟩

/-- **C99 is violated.** The shipped program always ends with an exception: the first chunk passes, the second, processed with
the convergence bits set, reaches the call of `cdsp.rx.lms_grad`, which does not exist. For every channel file, every noise
and every rounding. -/
theorem C99_negative_attribute_error (rnd : Int → Int) (taps : List ℝ) (ht : taps ≠ []) (noise : ℕ → List ℝ)
    (hn : ∀ k, (noise k).length = 4096) (fuel : ℕ) :
    shippedMain rnd taps noise (fuel + 1) = .error .attributeError := by
  obtain ⟨fir, tx, s0, hf, htx, hc, hs, hr, c0, d0, g0, p0⟩ := ship_start rnd taps ht
  obtain ⟨pp, ss, sym, bits, dd, seed', ch', mem', -, -, l3, -, -, -, -, -, l8, l9⟩ :=
    ship_step rnd fir tx hf htx s0 _ hr (noise 0) (hn 0)
  rw [converge_idle _ _ _ _ _ _ _ _ (by exact c0)] at l9
  unfold shippedMain
  rw [hc]
  simp only [bind, Except.bind]
  unfold simulationMain
  rw [hs]
  simp only [bind, Except.bind]
  rw [l9]
  simp only [Except.map]
  unfold mainLoop
  rw [if_neg (by show ¬ s0.rx.done = true; rw [d0]; decide)]
  simp only [bind, Except.bind]
  obtain ⟨s1, hs1⟩ : ∃ s1, s1 = startFull ⟨seed', ch', { s0.rx with mem := mem', adcOut := dd }⟩ := ⟨_, rfl⟩
  have e1 : s1.rx.adcOut.length = 64 := by rw [hs1]; exact l3
  have e2 : s1.rx.converge = true := by rw [hs1]; rfl
  have e3 : s1.rx.lms = true := by rw [hs1]; rfl
  have e4 : ShipReady fir s1 ((List.replicate 4 0 ++ dd).drop 64) := by
    rw [hs1]
    exact ⟨l8.seed, l8.chan, l8.ctle, l8.eq, l8.hist, l8.phase⟩
  rw [← hs1]
  obtain ⟨_, _, _, _, d', _, _, _, -, -, m3, -, -, -, -, -, -, m9⟩ := ship_step rnd fir tx hf htx s1 _ e4 (noise 1) (hn 1)
  rw [converge_attribute _ _ _ _ _ (by exact e2) (by exact e3) e1 m3] at m9
  · rw [m9]
    rfl
  · have := l8.hist
    simp only [List.length_map, List.length_take, List.length_append, m3]
    simp only [List.length_drop, List.length_append, l3] at this ⊢
    omega

/-- **C99 is violated** in every configuration: once `start_convergence` has been called, no call of the link succeeds, in any
state, with any input. The statement after the call in the loop, `gather_memory`, is never reached: the lists of the analyzer
(`Memory`) stay empty for ever. -/
theorem C99_negative_no_history (a : LinkArgs) (pre : ℕ) (nz : List ℝ) (st : LinkFull) (r : LinkOut × LinkFull) :
    linkFullCall a pre nz (startFull st) ≠ .ok (some r) := by
  obtain ⟨s, hs⟩ : ∃ s, s = startFull st := ⟨_, rfl⟩
  have hc : s.rx.converge = true := by rw [hs]; rfl
  have hl : s.rx.lms = true := by rw [hs]; rfl
  rw [← hs]
  intro h
  unfold linkFullCall at h
  simp only [bind, Except.bind] at h
  split at h
  · cases h
  split at h
  · cases h
  rename_i v hv
  rcases v with ⟨cs, chm⟩
  cases cs with
  | nan => cases h
  | pyNone => cases h
  | signal y =>
    simp only [] at h
    unfold receiverFull at h
    simp only [bind, Except.bind] at h
    split at h
    · cases h
    rename_i w hw
    cases w with
    | none => cases h
    | some w =>
      simp only [] at hw h
      split at hw
      · cases hw
      rename_i w1 hw1
      cases w1 with
      | none => cases hw
      | some w1 =>
        simp only [] at hw
        split at hw
        · cases hw
        split at hw
        · cases hw
        split at hw
        · cases hw
        split at hw
        · cases hw
        rename_i d hd e he so hso s2 hs2
        exact converge_lms _ _ _ _ _ _ _ _ (by exact hc) (by exact hl) _ hs2

/-- **C99 is violated** in every configuration: whatever the settings, the channel, the noise and the length of the run, the
convergence loop of the program never ends regularly. -/
theorem C99_negative_never_finishes (a : LinkArgs) (pre post dfe : ℕ) (eqLevels : List ℝ) (noise : ℕ → List ℝ) (fuel n : ℕ) :
    simulationMain a pre post dfe eqLevels noise fuel ≠ .ok (.finished n) := by
  have first : ∀ (nz : List ℝ) (s : LinkFull) (o : LinkOut) (s' : LinkFull), s.rx.converge = false →
      linkFullCall a pre nz s = .ok (some (o, s')) → s'.rx.done = s.rx.done := by
    intro nz s o s' hc h
    unfold linkFullCall at h
    simp only [bind, Except.bind] at h
    split at h
    · cases h
    split at h
    · cases h
    rename_i v hv
    rcases v with ⟨cs, chm⟩
    cases cs with
    | nan => cases h
    | pyNone => cases h
    | signal y =>
      simp only [] at h
      unfold receiverFull at h
      simp only [bind, Except.bind] at h
      split at h
      · cases h
      rename_i w hw
      cases w with
      | none => cases h
      | some w =>
        simp only [] at hw h
        split at hw
        · cases hw
        rename_i w1 hw1
        cases w1 with
        | none => cases hw
        | some w1 =>
          simp only [] at hw
          split at hw
          · cases hw
          split at hw
          · cases hw
          split at hw
          · cases hw
          split at hw
          · cases hw
          rename_i d hd e he so hso s2 hs2
          rw [converge_idle] at hs2
          · split at hw
            · cases hw
            split at hw
            · cases hw
            cases hs2
            simp only [pure, Except.pure, Except.ok.injEq, Option.some.injEq] at hw h
            rw [← hw] at h
            cases h
            rfl
          · exact hc
  intro h
  unfold simulationMain at h
  simp only [bind, Except.bind] at h
  split at h
  · cases h
  rename_i s0 hs0
  have hs0' : s0.rx.converge = false ∧ s0.rx.done = false := by
    unfold simulationStart at hs0
    simp only [bind, Except.bind] at hs0
    split at hs0
    · cases hs0
    split at hs0
    · cases hs0
    split at hs0
    · cases hs0
    cases hs0
    exact ⟨rfl, rfl⟩
  split at h
  · cases h
  rename_i v hv
  cases v with
  | none => cases h
  | some r =>
    have hd := first _ _ _ _ hs0'.1 hv
    have hd' : ¬ (startFull r.2).rx.done = true := by
      show ¬ r.2.rx.done = true
      rw [hd, hs0'.2]
      decide
    cases fuel with
    | zero =>
      simp only [] at h
      unfold mainLoop at h
      rw [if_neg hd'] at h
      cases h
    | succ f =>
      simp only [] at h
      unfold mainLoop at h
      rw [if_neg hd'] at h
      simp only [bind, Except.bind] at h
      split at h
      · cases h
      rename_i v2 hv2
      cases v2 with
      | none => cases h
      | some r2 => exact C99_negative_no_history _ _ _ _ _ hv2

/-- the short channel of example_simulation/config_file.py 28, without noise -/
example : shippedMain (fun x => x) [0, 1 / 50, 3 / 20, 1 / 25] (fun _ => List.replicate 4096 0) 1 = .error .attributeError :=
  C99_negative_attribute_error _ _ (by simp) _ (fun _ => List.length_replicate) 0

/-! ### C100: gain control and clock recovery -/

/-- the state after the first chunk, with the control bits of gain control and clock recovery set (`start_convergence` would
also set the LMS bit) -/
def startCdr (st : LinkFull) : LinkFull := { st with rx := { (startFull st).rx with lms := false } }

/-- **C100.** The shipped link with gain control and clock recovery switched on after the first chunk (LMS off): for every
channel response and every noise all calls succeed; `d k` are the converter samples of chunk `k`, never larger than 127/64;
the equalizer delays them by four symbols, and on its output both loops do what `LoopStep` says. The phase always is one of
the 64 of the converter. The loops end together, and the program loop stops exactly after the first chunk with a timing error
below 1/1000. -/
theorem C100_run (rnd : Int → Int) (taps : List ℝ) (ht : taps ≠ []) (noise : ℕ → List ℝ)
    (hn : ∀ k, (noise k).length = 4096) :
    ∃ (a : LinkArgs) (s0 : LinkFull) (r0 : LinkOut × LinkFull) (st : ℕ → LinkFull) (out : ℕ → LinkOut) (d : ℕ → List ℝ),
      shippedConfig rnd taps = .ok a ∧ simulationStart a 4 27 1 (getLevels .pam4 false) = .ok s0 ∧
      linkFullCall a 4 (noise 0) s0 = .ok (some r0) ∧ st 0 = startCdr r0.2 ∧
      (st 0).rx.gain = 1 ∧ (st 0).rx.phase = 32 ∧ (st 0).rx.converge = true ∧
      (∀ k, (d k).length = 64 ∧ ∀ v ∈ d k, |v| ≤ 127 / 64) ∧
      (∀ k, linkFullCall a 4 (noise (k + 1)) (st k) = .ok (some (out k, st (k + 1))) ∧
        (0 ≤ (st k).rx.phase ∧ (st k).rx.phase < 64) ∧ (st k).rx.done = !(st k).rx.converge ∧
        LoopStep [-(3 / 4), -(1 / 4), 1 / 4, 3 / 4] 64 ((d k).drop 60 ++ (d (k + 1)).take 60)
          (st k).rx.gain (st (k + 1)).rx.gain (st k).rx.phase (st (k + 1)).rx.phase (st k).rx.converge
          (st (k + 1)).rx.converge) ∧
      ∀ fuel, (∀ n, n ≤ fuel → (st n).rx.converge = false → (∀ k, k < n → (st k).rx.converge = true) →
          mainLoop a 4 noise fuel 0 (st 0) = .ok (.finished n)) ∧
        ((∀ k, k ≤ fuel → (st k).rx.converge = true) → mainLoop a 4 noise fuel 0 (st 0) = .ok .running) := by
  obtain ⟨fir, tx, s0, hf, htx, hc, hs, hr, c0, d0, g0, p0⟩ := ship_start rnd taps ht
  obtain ⟨pp, ss, sym, bits, dd, seed', ch', mem', -, -, l3, l3', -, -, -, -, l8, l9⟩ :=
    ship_step rnd fir tx hf htx s0 _ hr (noise 0) (hn 0)
  rw [converge_idle _ _ _ _ _ _ _ _ (by exact c0)] at l9
  have hdrop : ∀ (h d : List ℝ), h.length = 4 → d.length = 64 → (h ++ d).drop 64 = d.drop 60 ∧ (h ++ d).take 64 = h ++ d.take 60 := by
    intro h d h1 h2
    constructor
    · rw [List.drop_append, h1, List.drop_of_length_le (by omega), List.nil_append]
    · rw [List.take_append, h1, List.take_of_length_le (by omega)]
  obtain ⟨s1, hs1⟩ : ∃ s1, s1 = startCdr ⟨seed', ch', { s0.rx with mem := mem', adcOut := dd }⟩ := ⟨_, rfl⟩
  have e4 : ShipReady fir s1 (s1.rx.adcOut.drop 60) := by
    rw [hs1]
    show ShipReady fir _ (dd.drop 60)
    rw [← (hdrop (List.replicate 4 0) dd List.length_replicate l3).1]
    exact ⟨l8.seed, l8.chan, l8.ctle, l8.eq, l8.hist, l8.phase⟩
  obtain ⟨st, out, h0, hst⟩ := exists_run
    (fun _ (s : LinkFull) => ShipReady fir s (s.rx.adcOut.drop 60) ∧ s.rx.adcOut.length = 64 ∧ (∀ v ∈ s.rx.adcOut, |v| ≤ 127 / 64) ∧
      s.rx.lms = false ∧ s.rx.cdr = s.rx.converge ∧ s.rx.done = !s.rx.converge)
    (fun k s (o : LinkOut) s' => linkFullCall (shippedArgs rnd fir tx) 4 (noise (k + 1)) s = .ok (some (o, s')) ∧
      LoopStep shipLevels 64 (s.rx.adcOut.drop 60 ++ s'.rx.adcOut.take 60) s.rx.gain s'.rx.gain s.rx.phase s'.rx.phase
        s.rx.converge s'.rx.converge)
    (by
      rintro k s ⟨hr, a1, a2, a3, a4, a5⟩
      obtain ⟨pp, ss, sym, bits, dd, seed', ch', mem', l1, l2, l3, l3', l4, l5, l6, l7, l8, l9⟩ :=
        ship_step rnd fir tx hf htx s _ hr (noise (k + 1)) (hn (k + 1))
      have hh : (s.rx.adcOut.drop 60).length = 4 := by rw [List.length_drop, a1]
      rw [(hdrop _ dd hh l3).1] at l8
      rw [(hdrop _ dd hh l3).2] at l9
      cases hcv : s.rx.converge with
      | false =>
        rw [converge_idle] at l9
        · refine ⟨_, _, ⟨l9, ?_⟩, l8, l3, l3', a3, a4, a5⟩
          show LoopStep _ _ _ _ _ _ _ _ s.rx.converge
          rw [hcv]
          exact loopStep_idle _ _ _
        · exact hcv
      | true =>
        have hy : s.rx.adcOut.drop 60 ++ dd.take 60 = delayedSamples 4 s.rx.adcOut dd := by
          unfold delayedSamples
          rw [if_pos (by norm_num), a1, l3]
        obtain ⟨s', m1, m2, m3, m4, m5, m6, m7, m8⟩ := converge_cdr s.rx.adcOut dd (s.rx.adcOut.drop 60 ++ dd.take 60)
          { s.rx with mem := mem', adcOut := dd } hcv a3 (a4.trans hcv) (a5.trans (by rw [hcv]; rfl)) a1 l3 hy hr.phase
        have m1' := m1
        rw [m1'] at l9
        simp only at m3
        refine ⟨_, ⟨seed', ch', s'⟩, ⟨l9, ?_⟩, ?_, ?_, ?_, m4, m5, m6⟩
        · show LoopStep _ _ (s.rx.adcOut.drop 60 ++ s'.adcOut.take 60) _ _ _ _ _ _
          rw [m3, ← hcv]
          exact m8
        · show ShipReady _ _ (s'.adcOut.drop 60)
          rw [m3]
          refine ⟨l8.seed, l8.chan, ?_, ?_, l8.hist, m7⟩
          · show s'.mem.ctleZi.length = 3
            rw [m2]
            exact l8.ctle
          · show EqDelay s'.mem.eq _
            rw [m2]
            exact l8.eq
        · show s'.adcOut.length = 64
          rw [m3]
          exact l3
        · show ∀ v ∈ s'.adcOut, _
          rw [m3]
          exact l3')
    s1 ⟨e4, by rw [hs1]; exact l3, by rw [hs1]; exact l3', by rw [hs1]; rfl, by rw [hs1]; rfl, by rw [hs1]; exact d0⟩
  refine ⟨shippedArgs rnd fir tx, s0, _, st, out, fun k => (st k).rx.adcOut, hc, hs, l9, by rw [h0, hs1], by rw [h0, hs1]; exact g0,
    by rw [h0, hs1]; exact p0, by rw [h0, hs1]; rfl, fun k => ⟨(hst k).1.2.1, (hst k).1.2.2.1⟩, fun k => ?_, ?_⟩
  · obtain ⟨⟨b1, b2, b3, b4, b5, b6⟩, b7, b8⟩ := hst k
    exact ⟨b7, b1.phase, b6, b8⟩
  · have hdone : ∀ k, (st k).rx.done = !(st k).rx.converge := fun k => (hst k).1.2.2.2.2.2
    have hcall : ∀ k, linkFullCall (shippedArgs rnd fir tx) 4 (noise (k + 1)) (st k) = .ok (some (out k, st (k + 1))) :=
      fun k => (hst k).2.1
    intro fuel
    have key : ∀ fuel m, (∀ n, m ≤ n → n ≤ m + fuel → (st n).rx.converge = false → (∀ k, k < n → (st k).rx.converge = true) →
          mainLoop (shippedArgs rnd fir tx) 4 noise fuel m (st m) = .ok (.finished n)) ∧
        ((∀ k, k ≤ m + fuel → (st k).rx.converge = true) →
          mainLoop (shippedArgs rnd fir tx) 4 noise fuel m (st m) = .ok .running) := by
      intro fuel
      induction fuel with
      | zero =>
        intro m
        constructor
        · intro n h1 h2 h3 _
          have : n = m := by omega
          subst this
          unfold mainLoop
          rw [if_pos (by rw [hdone, h3]; rfl)]
        · intro h
          unfold mainLoop
          rw [if_neg (by rw [hdone, h m (by omega)]; decide)]
      | succ fuel ih =>
        intro m
        constructor
        · intro n h1 h2 h3 h4
          unfold mainLoop
          rcases Nat.eq_or_lt_of_le h1 with rfl | hlt
          · rw [if_pos (by rw [hdone, h3]; rfl)]
          · rw [if_neg (by rw [hdone, h4 m hlt]; decide)]
            simp only [bind, Except.bind]
            rw [hcall m]
            exact (ih (m + 1)).1 n hlt (by omega) h3 h4
        · intro h
          unfold mainLoop
          rw [if_neg (by rw [hdone, h m (by omega)]; decide)]
          simp only [bind, Except.bind]
          rw [hcall m]
          exact (ih (m + 1)).2 (fun k hk => h k (by omega))
    have := key fuel 0
    simpa using this

/-- **C100.** The gain control works for moderate powers: while the loops run and the power of the equalizer output stays
between `P1` and `P2`, the gain stays positive, below `M`, and comes within a geometrically shrinking distance of the interval
between the gains that are right for `P2` and for `P1`. -/
theorem C100_gain (P1 P2 M : ℝ) (y : ℕ → List ℝ) (g : ℕ → ℝ) (ph : ℕ → ℤ) (run : ℕ → Bool) (n : ℕ)
    (hstep : ∀ k, k < n → LoopStep [-(3 / 4), -(1 / 4), 1 / 4, 3 / 4] 64 (y k) (g k) (g (k + 1)) (ph k) (ph (k + 1)) (run k) (run (k + 1)))
    (hrun : ∀ k, k < n → run k = true) (h1 : 0 < P1) (hP : ∀ k, k < n → P1 ≤ meanSq (y k) ∧ meanSq (y k) ≤ P2)
    (hM : 25 / 128 * P2 * M ≤ 1) (hu : √(5 / 16 / P1) ≤ M) (hg : 0 < g 0) (hgM : g 0 ≤ M) (k : ℕ) (hk : k ≤ n) :
    0 < g k ∧ g k ≤ M ∧
      g k ≤ √(5 / 16 / P1) + (1 - 25 / 256 * √(5 / 16 * P1)) ^ k * max (g 0 - √(5 / 16 / P1)) 0 ∧
      √(5 / 16 / P2) - (1 - 25 / 256 * √(5 / 16 * P2)) ^ k * max (√(5 / 16 / P2) - g 0) 0 ≤ g k := by
  refine gain_run_bounds (25 / 256) (5 / 16) P1 P2 M (fun k => meanSq (y k)) g n (by norm_num) (by norm_num) h1 hP
    (by linarith) hu hg hgM ?_ k hk
  intro k hk
  obtain ⟨r, e, -, -, -, -, h⟩ := hstep k hk
  have := (h (hrun k hk)).1
  have hl : meanSq [-(3 / 4), -(1 / 4), 1 / 4, 3 / 4] = 5 / 16 := ship_level_power
  rw [this, hl]

/-- **C100.** For a constant power the gain converges to the value at which the power at the slicer is the power of the
levels, 5/16. -/
theorem C100_gain_settles (P M : ℝ) (y : ℕ → List ℝ) (g : ℕ → ℝ) (ph : ℕ → ℤ) (run : ℕ → Bool)
    (hstep : ∀ k, LoopStep [-(3 / 4), -(1 / 4), 1 / 4, 3 / 4] 64 (y k) (g k) (g (k + 1)) (ph k) (ph (k + 1)) (run k) (run (k + 1)))
    (hrun : ∀ k, run k = true) (hP : 0 < P) (hy : ∀ k, meanSq (y k) = P)
    (hM : 25 / 128 * P * M ≤ 1) (hu : √(5 / 16 / P) ≤ M) (hg : 0 < g 0) (hgM : g 0 ≤ M) :
    Filter.Tendsto g Filter.atTop (nhds √(5 / 16 / P)) ∧
      Filter.Tendsto (fun k => meanSq ((y k).map (fun v => g k * v))) Filter.atTop (nhds (5 / 16)) := by
  have hb : ∀ k, _ := fun k => C100_gain P P M y g ph run k (fun j _ => hstep j) (fun j _ => hrun j) hP
    (fun j _ => ⟨(hy j).ge, (hy j).le⟩) hM hu hg hgM k (le_refl k)
  have hs : 0 < √(5 / 16 * P) := Real.sqrt_pos.2 (by positivity)
  have hr : √(5 / 16 * P) = √(5 / 16 / P) * P := by
    rw [show 5 / 16 * P = (5 / 16 / P) * P ^ 2 by field_simp, Real.sqrt_mul (by positivity), Real.sqrt_sq hP.le]
  have hr0 : 0 ≤ 1 - 25 / 256 * √(5 / 16 * P) := by
    rw [hr]
    have := mul_le_mul_of_nonneg_right hu hP.le
    nlinarith
  have hpow : Filter.Tendsto (fun k : ℕ => (1 - 25 / 256 * √(5 / 16 * P)) ^ k) Filter.atTop (nhds 0) :=
    tendsto_pow_atTop_nhds_zero_of_lt_one hr0 (by linarith)
  have hg' : Filter.Tendsto g Filter.atTop (nhds √(5 / 16 / P)) := by
    refine tendsto_of_tendsto_of_tendsto_of_le_of_le (g := fun k => √(5 / 16 / P) - (1 - 25 / 256 * √(5 / 16 * P)) ^ k * max (√(5 / 16 / P) - g 0) 0)
      (h := fun k => √(5 / 16 / P) + (1 - 25 / 256 * √(5 / 16 * P)) ^ k * max (g 0 - √(5 / 16 / P)) 0) ?_ ?_
      (fun k => (hb k).2.2.2) (fun k => (hb k).2.2.1)
    · simpa using (hpow.mul_const (max (√(5 / 16 / P) - g 0) 0)).const_sub (√(5 / 16 / P))
    · simpa using (hpow.mul_const (max (g 0 - √(5 / 16 / P)) 0)).const_add (√(5 / 16 / P))
  refine ⟨hg', ?_⟩
  have : (fun k => meanSq ((y k).map (fun v => g k * v))) = fun k => g k ^ 2 * P := by
    funext k
    rw [meanSq_scale, hy]
  rw [this]
  have h2 := (hg'.pow 2).mul_const P
  rw [Real.sq_sqrt (by positivity)] at h2
  rwa [show 5 / 16 / P * P = 5 / 16 by field_simp] at h2

/-- samples 3/10, 6/10, -3/10, -6/10 repeated: the timing error never vanishes, the phase turns round and the gain settles at
the root of 25/18 -/
example : Filter.Tendsto calmGain Filter.atTop (nhds √(5 / 16 / (9 / 40))) :=
  (C100_gain_settles (9 / 40) (6 / 5) (fun _ => mix (3 / 10) (3 / 10)) calmGain (fun k => (-k : ℤ) % 64) (fun _ => true) calm_step
    (fun _ => rfl) (by norm_num) (fun _ => by rw [mix_power]; norm_num) (by norm_num)
    (by rw [Real.sqrt_le_left (by norm_num)]; norm_num) (by norm_num [calmGain]) (by norm_num [calmGain])).1

/-- **C100 is violated** for signals that are quiet first and loud later: there are converter samples (multiples of 1/64 of at
most 127/64) on which no exception occurs, the loops never end, and the gain becomes negative and tends to minus infinity. -/
theorem C100_negative_runaway : ∃ (d : ℕ → List ℝ) (st : ℕ → RxFull),
    (∀ k, (d k).length = 64 ∧ ∀ v ∈ d k, ∃ c : ℤ, v = c / 64 ∧ -127 ≤ c ∧ c ≤ 127) ∧
    (st 0).gain = 1 ∧ (st 0).converge = true ∧ (st 0).cdr = true ∧ (st 0).lms = false ∧ (st 0).phase = 32 ∧
    (∀ k, ∃ sout, sliceChunk (((d k).drop 60 ++ (d (k + 1)).take 60).map (fun v => (st k).gain * v)) [-(3 / 4), -(1 / 4), 1 / 4, 3 / 4] = .ok sout ∧
      convergeStage 4 64 [-(3 / 4), -(1 / 4), 1 / 4, 3 / 4] (d k) (d (k + 1))
      (((d k).drop 60 ++ (d (k + 1)).take 60).map (fun v => (st k).gain * v)) sout (st k) = .ok (st (k + 1))) ∧
    (∀ k, (st k).done = false) ∧ ∀ B : ℝ, ∃ N, ∀ k, N ≤ k → (st k).gain < B := by
  obtain ⟨K, h1, h2, h3⟩ := quietGain_reach
  obtain ⟨o, -⟩ := eqDelay_init
  obtain ⟨st, out, h0, hst⟩ := exists_run (β := Unit)
    (fun k (s : RxFull) => s.gain = witGain K k ∧ s.converge = true ∧ s.cdr = true ∧ s.lms = false ∧ s.done = false ∧
      0 ≤ s.phase ∧ s.phase < 64)
    (fun k s _ s' => convergeStage 4 64 shipLevels (mix (witSize K k) (witSize K k)) (mix (witSize K (k + 1)) (witSize K (k + 1)))
        ((mix (witSize K k) (witSize K (k + 1))).map (fun v => s.gain * v))
        (((mix (witSize K k) (witSize K (k + 1))).map (fun v => s.gain * v)).map (sliceOne shipLevels)) s = .ok s')
    (by
      rintro k s ⟨a1, a2, a3, a4, a5, a6⟩
      have hy : mix (witSize K k) (witSize K (k + 1)) = delayedSamples 4 (mix (witSize K k) (witSize K k))
          (mix (witSize K (k + 1)) (witSize K (k + 1))) := by
        unfold delayedSamples
        rw [if_pos (by norm_num), mix_length, mix_length, mix_join]
      obtain ⟨s', m1, m2, m3, m4, m5, m6, m7, m8⟩ := converge_cdr (mix (witSize K k) (witSize K k))
        (mix (witSize K (k + 1)) (witSize K (k + 1))) _ s a2 a4 a3 a5 (mix_length _ _) (mix_length _ _) hy a6
      have hev : s'.converge = true ∧ s'.gain = witGain K (k + 1) := by
        have hg : s'.gain = witGain K (k + 1) := by
          obtain ⟨r, e, -, -, -, -, q⟩ := m8
          rw [(q a2).1, ship_level_power, mix_power, a1]
          rfl
        refine ⟨?_, hg⟩
        have he := witness_error K k h1 h2 h3
        rw [← a1] at he
        obtain ⟨v, hv, v0, v1, v2⟩ := ship_mm (mix (witSize K k) (witSize K (k + 1)))
          (((mix (witSize K k) (witSize K (k + 1))).map (fun v => s.gain * v)).map (sliceOne shipLevels)) (mix_length _ _)
          (by rw [List.length_map, List.length_map, mix_length])
        rw [mix_length] at v0 v1 v2
        have hv0 : v ≠ 0 := by
          rcases le_abs'.1 he with h | h
          · rw [v2 h]; decide
          · rw [v1 h]; decide
        unfold convergeStage at m1
        rw [if_pos a2] at m1
        simp only [bind, Except.bind] at m1
        unfold cdrUpdate at m1
        rw [if_pos (by exact a3)] at m1
        simp only [bind, Except.bind] at m1
        rw [← hy, hv] at m1
        simp [pure, Except.pure, hv0, a4, a3] at m1
        rw [← m1]
        exact a2
      exact ⟨(), s', m1, hev.2, hev.1, m5.trans hev.1, m4, by rw [m6, hev.1]; rfl, m7⟩)
    { mem := ⟨[], o⟩, gain := 1, phase := 32, converge := true, cdr := true } ⟨rfl, rfl, rfl, rfl, rfl, by norm_num, by norm_num⟩
  refine ⟨fun k => mix (witSize K k) (witSize K k), st, fun k => ⟨mix_length _ _, ?_⟩, by rw [h0], by rw [h0], by rw [h0], by rw [h0],
    by rw [h0], fun k => ⟨((mix (witSize K k) (witSize K (k + 1))).map (fun v => (st k).gain * v)).map (sliceOne shipLevels), ?_, ?_⟩,
    fun k => (hst k).1.2.2.2.2.1, ?_⟩
  · intro v hv
    have hv' : v = witSize K k ∨ v = 2 * witSize K k ∨ v = -witSize K k ∨ v = -(2 * witSize K k) := by
      unfold mix at hv
      simp only [List.mem_append, List.mem_cons, List.not_mem_nil, or_false, List.mem_flatten, List.mem_replicate] at hv
      rcases hv with hv | ⟨l, ⟨-, rfl⟩, hv⟩
      · exact hv
      · simpa using hv
    unfold witSize at hv'
    split_ifs at hv'
    · rcases hv' with h | h | h | h
      · exact ⟨1, by rw [h]; norm_num, by norm_num, by norm_num⟩
      · exact ⟨2, by rw [h]; norm_num, by norm_num, by norm_num⟩
      · exact ⟨-1, by rw [h]; norm_num, by norm_num, by norm_num⟩
      · exact ⟨-2, by rw [h]; norm_num, by norm_num, by norm_num⟩
    · rcases hv' with h | h | h | h
      · exact ⟨63, by rw [h]; norm_num, by norm_num, by norm_num⟩
      · exact ⟨126, by rw [h]; norm_num, by norm_num, by norm_num⟩
      · exact ⟨-63, by rw [h]; norm_num, by norm_num, by norm_num⟩
      · exact ⟨-126, by rw [h]; norm_num, by norm_num, by norm_num⟩
  · rw [mix_join]
    unfold sliceChunk slicer
    simp only [Option.getD_some]
    rw [if_neg (by simp)]
    rfl
  · rw [mix_join]
    exact (hst k).2
  · intro B
    have hP : ∀ k, witGain K (K + 1 + (k + 1)) = witGain K (K + 1 + k) + 25 / 256 * (5 / 16 - witGain K (K + 1 + k) ^ 2 * (19845 / 8192)) := by
      intro k
      rw [← Nat.add_assoc, witGain]
      unfold witSize
      rw [if_neg (by omega), if_neg (by omega)]
      norm_num
    have hneg := witGain_loud K h1 h2 0
    obtain ⟨N, hN⟩ := gain_runaway (25 / 256) (5 / 16) (19845 / 8192) (fun k => witGain K (K + 1 + k)) (by norm_num) (by
      show witGain K (K + 1 + 0) < 0
      linarith) (by
      show 5 / 16 < witGain K (K + 1 + 0) ^ 2 * _
      nlinarith) (by norm_num) hP B
    refine ⟨K + 1 + N, fun k hk => ?_⟩
    rw [(hst k).1.1]
    have := hN (k - (K + 1)) (by omega)
    rwa [show K + 1 + (k - (K + 1)) = k by omega] at this

end Verif
