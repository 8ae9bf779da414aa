import Verif.Model.SimLink
import Verif.Lemmas.Ffe

/-! Lemmas for the equalizer object of the example simulation. -/

set_option linter.unusedSectionVars false

namespace Verif

variable {K : Type} [Field K] [LinearOrder K]

/-- the feedback vector handed to `ffe_dfe` -/
def EqObj.fb (o : EqObj K) : Option (List K) := if o.dfeTaps = 0 then none else some o.dfe

/-- the memories handed to `ffe_dfe` -/
def EqObj.mem (o : EqObj K) : Option (List K) × Option (List K) :=
  (if o.ffe.length = 1 then none else some o.ziFfe, if o.dfeTaps = 0 then none else some o.ziDfe)

/-- the object with the memories returned by `ffe_dfe` -/
def EqObj.update (o : EqObj K) (m : Option (List K) × Option (List K)) : EqObj K :=
  { o with ziFfe := m.1.getD o.ziFfe, ziDfe := m.2.getD o.ziDfe }

theorem ffeDfe_shape (x ffe : List K) (dfe levels : Option (List K)) (osr : ℕ) (phase : ℤ) (zf zd : Option (List K))
    (r : EqOut K) (h : ffeDfe x ffe dfe levels osr phase zf zd = .ok r) :
    (dfe = none ∧ ffe.length = 1 ∧ ∃ y, r = .plain y) ∨ (dfe = none ∧ ffe.length ≠ 1 ∧ ∃ y z, r = .ffe y z) ∨
    (dfe ≠ none ∧ ffe.length = 1 ∧ ∃ y w, r = .dfe y w) ∨
    (dfe ≠ none ∧ ffe.length ≠ 1 ∧ ∃ y z w, r = .both y z w) := by
  unfold ffeDfe at h
  cases dfe with
  | none =>
    simp only [] at h
    by_cases hl : ffe.length = 1
    · rw [if_pos hl] at h
      exact Or.inl ⟨rfl, hl, _, (Except.ok.inj h).symm⟩
    · rw [if_neg hl] at h
      refine Or.inr (Or.inl ⟨rfl, hl, ?_⟩)
      cases hz : initFfe ffe zf with
      | error e => rw [hz] at h; exact absurd h (by simp [bind, Except.bind])
      | ok z =>
        rw [hz] at h
        simp only [bind, Except.bind] at h
        split_ifs at h with h0
        exact ⟨_, _, (Except.ok.inj h).symm⟩
  | some dfe =>
    simp only [bind, Except.bind] at h
    refine Or.inr (Or.inr ?_)
    cases hm : initDfe dfe zd with
    | error e => rw [hm] at h; exact absurd h (by simp)
    | ok mem =>
      rw [hm] at h
      simp only [] at h
      cases hz : initFfe ffe zf with
      | error e => rw [hz] at h; exact absurd h (by simp)
      | ok z =>
        rw [hz] at h
        simp only [] at h
        cases hb : buffer (z ++ x) ffe.length ((ffe.length : Int) - 1) 0 with
        | error e => rw [hb] at h; exact absurd h (by simp)
        | ok frames =>
          rw [hb] at h
          simp only [] at h
          cases hd : dfeLoop ffe dfe levels osr phase 0 [] mem frames with
          | error e => rw [hd] at h; exact absurd h (by simp)
          | ok q =>
            rw [hd] at h
            simp only [] at h
            by_cases hl : ffe.length = 1
            · rw [if_pos hl] at h
              exact Or.inl ⟨by simp, hl, _, _, (Except.ok.inj h).symm⟩
            · rw [if_neg hl] at h
              refine Or.inr ⟨by simp, hl, ?_⟩
              cases hg : frames.getLast? with
              | none => rw [hg] at h; exact absurd h (by simp)
              | some fr => rw [hg] at h; exact ⟨_, _, _, (Except.ok.inj h).symm⟩

theorem eqCall_of (o : EqObj K) (x : List K) (r : EqOut K)
    (h : ffeDfe x o.ffe o.fb o.levels 1 0 o.mem.1 o.mem.2 = .ok r) :
    eqCall o x = .ok (r.signal, o.update r.memories) ∧ (o.update r.memories).mem = r.memories := by
  have hs := ffeDfe_shape _ _ _ _ _ _ _ _ _ h
  by_cases hf : o.ffe.length = 1 <;> by_cases hd : o.dfeTaps = 0
  · simp only [EqObj.fb, EqObj.mem, if_pos hf, if_pos hd] at h hs
    obtain ⟨y, rfl⟩ : ∃ y, r = .plain y := by
      rcases hs with ⟨-, -, h⟩ | ⟨-, h, -⟩ | ⟨h, -⟩ | ⟨h, -⟩
      · exact h
      · exact absurd hf h
      · exact absurd rfl h
      · exact absurd rfl h
    refine ⟨?_, by simp [EqObj.mem, EqObj.update, EqOut.memories, hf, hd]⟩
    unfold eqCall
    simp only [if_pos hd, if_pos (And.intro hf hd), h, bind, Except.bind]
    rfl
  · simp only [EqObj.fb, EqObj.mem, if_pos hf, if_neg hd] at h hs
    obtain ⟨y, w, rfl⟩ : ∃ y w, r = .dfe y w := by
      rcases hs with ⟨h, -⟩ | ⟨-, h, -⟩ | ⟨-, -, h⟩ | ⟨-, h, -⟩
      · exact absurd h (by simp)
      · exact absurd hf h
      · exact h
      · exact absurd hf h
    refine ⟨?_, by simp [EqObj.mem, EqObj.update, EqOut.memories, hf, hd]⟩
    unfold eqCall
    simp only [if_neg hd, if_neg (fun h : _ ∧ _ => hd h.2), if_pos hf, h, bind, Except.bind]
    rfl
  · simp only [EqObj.fb, EqObj.mem, if_neg hf, if_pos hd] at h hs
    obtain ⟨y, z, rfl⟩ : ∃ y z, r = .ffe y z := by
      rcases hs with ⟨-, h, -⟩ | ⟨-, -, h⟩ | ⟨h, -⟩ | ⟨h, -⟩
      · exact absurd h hf
      · exact h
      · exact absurd rfl h
      · exact absurd rfl h
    refine ⟨?_, by simp [EqObj.mem, EqObj.update, EqOut.memories, hf, hd]⟩
    unfold eqCall
    simp only [if_pos hd, if_neg (fun h : _ ∧ _ => hf h.1), if_neg hf, h, bind, Except.bind]
    rfl
  · simp only [EqObj.fb, EqObj.mem, if_neg hf, if_neg hd] at h hs
    obtain ⟨y, z, w, rfl⟩ : ∃ y z w, r = .both y z w := by
      rcases hs with ⟨h, -⟩ | ⟨h, -⟩ | ⟨-, h, -⟩ | ⟨-, -, h⟩
      · exact absurd h (by simp)
      · exact absurd h (by simp)
      · exact absurd h hf
      · exact h
    refine ⟨?_, by simp [EqObj.mem, EqObj.update, EqOut.memories, hf, hd]⟩
    unfold eqCall
    simp only [if_neg hd, if_neg (fun h : _ ∧ _ => hf h.1), if_neg hf, h, bind, Except.bind]
    rfl

theorem eqCalls_of (o : EqObj K) (cs ys : List (List K)) (m : Option (List K) × Option (List K))
    (h : ffeDfeChunks o.ffe o.fb o.levels 1 0 o.mem cs = .ok (ys, m)) :
    ∃ o', eqCalls o cs = .ok (ys, o') ∧ o'.mem = m := by
  induction cs generalizing o ys with
  | nil =>
    simp only [ffeDfeChunks, Except.ok.injEq, Prod.mk.injEq] at h
    obtain ⟨rfl, rfl⟩ := h
    exact ⟨o, rfl, rfl⟩
  | cons c cs ih =>
    rw [ffeDfeChunks] at h
    cases hr : ffeDfe c o.ffe o.fb o.levels 1 0 o.mem.1 o.mem.2 with
    | error e => rw [hr] at h; exact absurd h (by simp [bind, Except.bind])
    | ok r =>
      rw [hr] at h
      simp only [bind, Except.bind] at h
      cases hs : ffeDfeChunks o.ffe o.fb o.levels 1 0 r.memories cs with
      | error e => rw [hs] at h; exact absurd h (by simp)
      | ok q =>
        rw [hs] at h
        simp only [pure, Except.pure, Except.ok.injEq, Prod.mk.injEq] at h
        obtain ⟨rfl, rfl⟩ := h
        obtain ⟨h1, h2⟩ := eqCall_of o c r hr
        rw [← h2] at hs
        obtain ⟨o', g1, g2⟩ := ih (o.update r.memories) q.1 hs
        refine ⟨o', ?_, g2⟩
        simp only [eqCalls, h1, bind, Except.bind, g1]
        rfl

/-- the accepted arguments -/
structure EqArgs (pre post dfeTaps : ℕ) (ffe dfe levels ziFfe ziDfe : Option (List K)) : Prop where
  ffe : ∀ v, ffe = some v → v.length = pre + post + 1
  dfe : ∀ v, dfe = some v → v.length = dfeTaps
  levels : 0 < dfeTaps → levels ≠ none
  ziFfe : ∀ v, ziFfe = some v → v.length = pre + post + 1
  ziDfe : ∀ v, ziDfe = some v → v.length = dfeTaps

theorem orDefault_ok {n : ℕ} {d : List K} {v : Option (List K)} (h : ∀ w, v = some w → w.length = n) :
    orDefault n d v = .ok (v.getD d) := by
  cases v with
  | none => rfl
  | some w => simp only [orDefault]; rw [if_pos (h w rfl)]; rfl

theorem orDefault_length {n : ℕ} {d : List K} {v : Option (List K)} (h : ∀ w, v = some w → w.length = n)
    (hd : d.length = n) : (v.getD d).length = n := by
  cases v with
  | none => exact hd
  | some w => exact h w rfl

theorem orDefault_error {n : ℕ} {d : List K} {v : Option (List K)} (h : ¬ ∀ w, v = some w → w.length = n) :
    orDefault n d v = .error .valueError := by
  cases v with
  | none => exact absurd (by simp) h
  | some w => simp only [orDefault]; rw [if_neg (fun hw => h (fun w' e => by cases e; exact hw))]

theorem eqInit_ok {pre post dfeTaps : ℕ} {ffe dfe levels ziFfe ziDfe : Option (List K)}
    (h : EqArgs pre post dfeTaps ffe dfe levels ziFfe ziDfe) :
    eqInit pre post dfeTaps ffe dfe levels ziFfe ziDfe = .ok
      ⟨ffe.getD (List.replicate pre 0 ++ 1 :: List.replicate post 0), dfeTaps, dfe.getD (List.replicate dfeTaps 0), levels,
        ziFfe.getD (List.replicate (pre + post + 1) 0), ziDfe.getD (List.replicate dfeTaps 0)⟩ := by
  unfold eqInit
  rw [orDefault_ok h.ffe, orDefault_ok h.dfe, orDefault_ok h.ziFfe, orDefault_ok h.ziDfe]
  simp only [bind, Except.bind]
  rw [orDefault_length h.dfe (by simp), if_neg (fun hh => h.levels hh.1 hh.2)]
  rfl

end Verif
