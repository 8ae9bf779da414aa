import Verif.Model.SimState
import Verif.Props.Prbs
import Mathlib.Tactic.Linarith
import Mathlib.Tactic.NormNum
import Mathlib.Tactic.Ring
import Mathlib.Algebra.BigOperators.Group.List.Basic

/-!
# The state of the example simulation: tap history, shared tap arrays, seeds (C111)
-/

namespace Verif

namespace Spec

/-- the array the equalizer of a simulation uses for its FFE (`false`) or DFE (`true`) taps -/
def tapArray (dfe : Bool) (o : SimObj) : ℕ := if dfe then o.dfe else o.ffe

/-- the arrays of the tap history of a simulation -/
def histArrays (dfe : Bool) (o : SimObj) : List ℕ := if dfe then o.histDfe else o.histFfe

/-- the taps the equalizer of simulation `i` has now -/
def tapsNow (dfe : Bool) (i : ℕ) (w : World) : List ℝ :=
  match w.sims[i]? with
  | none => []
  | some o => w.store.read (tapArray dfe o)

/-- what the history of simulation `i` reads as now -/
def historyNow (dfe : Bool) (i : ℕ) (w : World) : List (List ℝ) :=
  match w.sims[i]? with
  | none => []
  | some o => (histArrays dfe o).map w.store.read

/-- the tap vectors that simulation `i` had when `gather_memory` was called for it, since the last `reset` -/
noncomputable def recorded (dfe : Bool) (i : ℕ) : World → List SimOp → List (List ℝ) → List (List ℝ)
  | _, [], acc => acc
  | w, op :: ops, acc =>
    let acc' := match op with
      | .gather j => if j = i then acc ++ [tapsNow dfe i w] else acc
      | .reset j => if j = i then [] else acc
      | _ => acc
    match simStep w op with
    | .ok w' => recorded dfe i w' ops acc'
    | .error _ => acc'

/-- the arrays that an operation hands over to an equalizer -/
def handed : SimOp → List ℕ
  | .create d => [d.ffe, d.dfe]
  | .setFfe _ r => [r]
  | .setDfe _ r => [r]
  | _ => []

/-- all arrays in the histories -/
def histories (w : World) : List ℕ := w.sims.flatMap (fun o => o.histFfe ++ o.histDfe)

/-- the arrays that are handed over exist -/
def ArraysExist : World → List SimOp → Prop
  | _, [] => True
  | w, op :: ops => (∀ r ∈ handed op, r < w.store.length) ∧ ∀ w', simStep w op = .ok w' → ArraysExist w' ops

/-- no array of a history is handed over to an equalizer -/
def HistoryKept : World → List SimOp → Prop
  | _, [] => True
  | w, op :: ops => (∀ r ∈ handed op, r ∉ histories w) ∧ ∀ w', simStep w op = .ok w' → HistoryKept w' ops

end Spec

open Spec

theorem plusAssign_spec {s s' : Store} {r : ℕ} {b : List ℝ} (h : plusAssign s r b = .ok s') :
    s'.length = s.length ∧ (∀ q, q ≠ r → s'.read q = s.read q) ∧ ∀ q, (s'.read q).length = (s.read q).length := by
  have key : ∀ v : List ℝ, v.length = (s.read r).length →
      (s.set r v).length = s.length ∧ (∀ q, q ≠ r → Store.read (s.set r v) q = s.read q) ∧
        ∀ q, (Store.read (s.set r v) q).length = (s.read q).length := by
    intro v hv
    refine ⟨List.length_set, ?_, ?_⟩
    · intro q hq
      simp only [Store.read, List.getD_eq_getElem?_getD]
      rw [List.getElem?_set_ne (Ne.symm hq)]
    · intro q
      by_cases hq : q = r
      · subst hq
        by_cases hl : q < s.length
        · rw [← hv]
          simp only [Store.read, List.getD_eq_getElem?_getD]
          rw [List.getElem?_set_self hl]; rfl
        · simp only [Store.read, List.getD_eq_getElem?_getD]
          rw [List.getElem?_eq_none (by rw [List.length_set]; omega), List.getElem?_eq_none (by omega)]
      · simp only [Store.read, List.getD_eq_getElem?_getD]
        rw [List.getElem?_set_ne (Ne.symm hq)]
  unfold plusAssign at h
  split_ifs at h with h1 h2
  · cases h
    exact key _ (by rw [List.length_zipWith, h1]; omega)
  · cases h
    exact key _ (List.length_map _)

theorem read_append (s t : Store) (q : ℕ) (h : q < s.length) : Store.read (s ++ t) q = s.read q := by
  simp only [Store.read, List.getD_eq_getElem?_getD]
  rw [List.getElem?_append_left h]

theorem simUpdate_spec {w w' : World} {o : SimObj} {gf gd : List ℝ} (h : simUpdate w o gf gd = .ok w') :
    w'.sims = w.sims ∧ w'.store.length = w.store.length ∧
      (∀ q, q ≠ o.ffe → q ≠ o.dfe → w'.store.read q = w.store.read q) ∧
      ∀ q, (w'.store.read q).length = (w.store.read q).length := by
  unfold simUpdate at h
  cases e1 : plusAssign w.store o.ffe (gf.map (fun g => -1 * (1 / 2 ^ 10) * g)) with
  | error _ => rw [e1] at h; cases h
  | ok s1 =>
    rw [e1] at h
    change (plusAssign s1 o.dfe (gd.map (fun g => -1 * (1 / 2 ^ 10) * g))).bind _ = _ at h
    cases e2 : plusAssign s1 o.dfe (gd.map (fun g => -1 * (1 / 2 ^ 10) * g)) with
    | error _ => rw [e2] at h; cases h
    | ok s2 =>
      rw [e2] at h
      cases h
      obtain ⟨a1, a2, a3⟩ := plusAssign_spec e1
      obtain ⟨b1, b2, b3⟩ := plusAssign_spec e2
      exact ⟨rfl, by rw [b1, a1], fun q h1 h2 => by rw [b2 q h2, a2 q h1], fun q => by rw [b3, a3]⟩

/-- every array in use exists and no equalizer uses an array of a history -/
structure Separate (w : World) : Prop where
  taps : ∀ o ∈ w.sims, ∀ b, tapArray b o < w.store.length ∧ tapArray b o ∉ histories w
  hist : ∀ r ∈ histories w, r < w.store.length

theorem mem_histories {w : World} {r : ℕ} : r ∈ histories w ↔ ∃ o ∈ w.sims, ∃ b, r ∈ histArrays b o := by
  unfold histories
  simp only [List.mem_flatMap, List.mem_append]
  constructor
  · rintro ⟨o, ho, h | h⟩
    · exact ⟨o, ho, false, h⟩
    · exact ⟨o, ho, true, h⟩
  · rintro ⟨o, ho, b, h⟩
    cases b
    · exact ⟨o, ho, Or.inl h⟩
    · exact ⟨o, ho, Or.inr h⟩

theorem mem_set_cases {α : Type} {l : List α} {i : ℕ} {a x : α} (h : x ∈ l.set i a) : x ∈ l ∨ x = a :=
  List.mem_or_eq_of_mem_set h

/-- one operation keeps the arrays separate and the history as recorded -/
theorem simStep_keeps {w w' : World} {op : SimOp} (h : simStep w op = .ok w') (hs : Separate w)
    (he : ∀ r ∈ handed op, r < w.store.length) (hk : ∀ r ∈ handed op, r ∉ histories w) :
    Separate w' ∧ ∀ b i, historyNow b i w' = (match op with
      | .gather j => if j = i then historyNow b i w ++ [tapsNow b i w] else historyNow b i w
      | .reset j => if j = i then [] else historyNow b i w
      | _ => historyNow b i w) := by
  cases op with
  | create d =>
    simp only [simStep, Except.ok.injEq] at h
    subst h
    have hh : histories (simCreate w d) = histories w := by simp [histories, simCreate]
    refine ⟨⟨?_, ?_⟩, ?_⟩
    · intro o ho b
      rw [hh]
      simp only [simCreate, List.mem_append, List.mem_singleton] at ho
      rcases ho with ho | ho
      · exact hs.taps o ho b
      · subst ho
        have : tapArray b ⟨d.dfeTaps, d.ffe, d.dfe, [], []⟩ ∈ handed (.create d) := by cases b <;> simp [tapArray, handed]
        exact ⟨he _ this, hk _ this⟩
    · rw [hh]; exact hs.hist
    · intro b i
      dsimp only
      unfold historyNow simCreate
      dsimp only
      rcases lt_trichotomy i w.sims.length with hi | hi | hi
      · rw [List.getElem?_append_left hi]
      · subst hi
        rw [List.getElem?_append_right le_rfl, Nat.sub_self, List.getElem?_eq_none le_rfl]
        cases b <;> rfl
      · rw [List.getElem?_eq_none (by rw [List.length_append, List.length_singleton]; omega),
          List.getElem?_eq_none (by omega)]
  | gather j =>
    simp only [simStep] at h
    cases e : w.sims[j]? with
    | none => rw [e] at h; cases h
    | some o =>
      rw [e] at h
      simp only [Except.ok.injEq] at h
      subst h
      have hj : j < w.sims.length := (List.getElem?_eq_some_iff.1 e).1
      have hoj : w.sims[j] = o := (List.getElem?_eq_some_iff.1 e).2
      have ho : o ∈ w.sims := hoj ▸ List.getElem_mem hj
      have hmem : ∀ r, r ∈ histories (simGather w j o) → r ∈ histories w ∨ r = w.store.length ∨ r = w.store.length + 1 := by
        intro r hr
        obtain ⟨o', ho', b, hb⟩ := mem_histories.1 hr
        rcases mem_set_cases ho' with h1 | h1
        · exact Or.inl (mem_histories.2 ⟨o', h1, b, hb⟩)
        · subst h1
          cases b
          · simp only [histArrays, Bool.false_eq_true, if_false, List.mem_append, List.mem_singleton] at hb
            rcases hb with hb | hb
            · exact Or.inl (mem_histories.2 ⟨o, ho, false, hb⟩)
            · exact Or.inr (Or.inl hb)
          · simp only [histArrays, if_true, List.mem_append, List.mem_singleton] at hb
            rcases hb with hb | hb
            · exact Or.inl (mem_histories.2 ⟨o, ho, true, hb⟩)
            · exact Or.inr (Or.inr hb)
      have hlen : (simGather w j o).store.length = w.store.length + 2 := by simp [simGather]
      refine ⟨⟨?_, ?_⟩, ?_⟩
      · intro o' ho' b
        have h2 : tapArray b o' < w.store.length ∧ tapArray b o' ∉ histories w := by
          rcases mem_set_cases ho' with h1 | h1
          · exact hs.taps o' h1 b
          · subst h1
            have := hs.taps o ho b
            cases b <;> exact this
        refine ⟨by rw [hlen]; omega, fun hc => ?_⟩
        rcases hmem _ hc with h3 | h3 | h3
        · exact h2.2 h3
        · omega
        · omega
      · intro r hr
        rw [hlen]
        rcases hmem _ hr with h3 | h3 | h3
        · have := hs.hist r h3; omega
        · omega
        · omega
      · intro b i
        have hold : ∀ o' ∈ w.sims, (histArrays b o').map (Store.read (simGather w j o).store) =
            (histArrays b o').map w.store.read := by
          intro o' ho'
          refine List.map_congr_left fun r hr => ?_
          exact read_append _ _ _ (hs.hist r (mem_histories.2 ⟨o', ho', b, hr⟩))
        dsimp only
        by_cases hji : j = i
        · subst hji
          rw [if_pos rfl]
          unfold historyNow tapsNow
          rw [e]
          have : (simGather w j o).sims[j]? = some { o with histFfe := o.histFfe ++ [w.store.length], histDfe := o.histDfe ++ [w.store.length + 1] } :=
            List.getElem?_set_self hj
          rw [this]
          dsimp only
          have n1 : Store.read (simGather w j o).store w.store.length = w.store.read o.ffe := by
            simp [Store.read, simGather]
          have n2 : Store.read (simGather w j o).store (w.store.length + 1) = w.store.read o.dfe := by
            simp [Store.read, simGather]
          have := hold o ho
          cases b
          · simp only [histArrays, tapArray, Bool.false_eq_true, if_false, List.map_append, List.map_cons, List.map_nil, n1] at this ⊢
            rw [this]
          · simp only [histArrays, tapArray, if_true, List.map_append, List.map_cons, List.map_nil, n2] at this ⊢
            rw [this]
        · rw [if_neg hji]
          unfold historyNow
          have : (simGather w j o).sims[i]? = w.sims[i]? := List.getElem?_set_ne hji
          rw [this]
          cases e2 : w.sims[i]? with
          | none => rfl
          | some o' =>
            exact hold o' ((List.getElem?_eq_some_iff.1 e2).2 ▸ List.getElem_mem _)
  | reset j =>
    simp only [simStep] at h
    cases e : w.sims[j]? with
    | none => rw [e] at h; cases h
    | some o =>
      rw [e] at h
      simp only [Except.ok.injEq] at h
      subst h
      have hj : j < w.sims.length := (List.getElem?_eq_some_iff.1 e).1
      have ho : o ∈ w.sims := (List.getElem?_eq_some_iff.1 e).2 ▸ List.getElem_mem hj
      have hmem : ∀ r, r ∈ histories (⟨w.store, w.sims.set j { o with histFfe := [], histDfe := [] }⟩ : World) → r ∈ histories w := by
        intro r hr
        obtain ⟨o', ho', b, hb⟩ := mem_histories.1 hr
        rcases mem_set_cases ho' with h1 | h1
        · exact mem_histories.2 ⟨o', h1, b, hb⟩
        · subst h1
          cases b <;> simp [histArrays] at hb
      refine ⟨⟨?_, fun r hr => hs.hist r (hmem r hr)⟩, ?_⟩
      · intro o' ho' b
        have h2 : tapArray b o' < w.store.length ∧ tapArray b o' ∉ histories w := by
          rcases mem_set_cases ho' with h1 | h1
          · exact hs.taps o' h1 b
          · subst h1
            have := hs.taps o ho b
            cases b <;> exact this
        exact ⟨h2.1, fun hc => h2.2 (hmem _ hc)⟩
      · intro b i
        dsimp only
        by_cases hji : j = i
        · subst hji
          rw [if_pos rfl]
          unfold historyNow
          dsimp only
          rw [List.getElem?_set_self hj]
          cases b <;> rfl
        · rw [if_neg hji]
          unfold historyNow
          dsimp only
          rw [List.getElem?_set_ne hji]
  | update j gf gd =>
    simp only [simStep] at h
    cases e : w.sims[j]? with
    | none => rw [e] at h; cases h
    | some o =>
      rw [e] at h
      simp only at h
      have ho : o ∈ w.sims := (List.getElem?_eq_some_iff.1 e).2 ▸ List.getElem_mem _
      obtain ⟨u1, u2, u3, -⟩ := simUpdate_spec h
      have hh : histories w' = histories w := by unfold histories; rw [u1]
      refine ⟨⟨?_, ?_⟩, ?_⟩
      · rw [u1, u2, hh]; exact hs.taps
      · rw [u2, hh]; exact hs.hist
      · intro b i
        dsimp only
        unfold historyNow
        rw [u1]
        cases e2 : w.sims[i]? with
        | none => rfl
        | some o' =>
          refine List.map_congr_left fun r hr => ?_
          have hr' : r ∈ histories w :=
            mem_histories.2 ⟨o', (List.getElem?_eq_some_iff.1 e2).2 ▸ List.getElem_mem _, b, hr⟩
          refine u3 r ?_ ?_
          · rintro rfl; exact (hs.taps o ho false).2 hr'
          · rintro rfl; exact (hs.taps o ho true).2 hr'
  | setFfe j r =>
    simp only [simStep] at h
    cases e : w.sims[j]? with
    | none => rw [e] at h; cases h
    | some o =>
      rw [e] at h
      simp only [simSetFfe] at h
      split_ifs at h
      cases h
      have hj : j < w.sims.length := (List.getElem?_eq_some_iff.1 e).1
      have ho : o ∈ w.sims := (List.getElem?_eq_some_iff.1 e).2 ▸ List.getElem_mem hj
      have hmem : ∀ q, q ∈ histories (⟨w.store, w.sims.set j { o with ffe := r }⟩ : World) → q ∈ histories w := by
        intro q hq
        obtain ⟨o', ho', b, hb⟩ := mem_histories.1 hq
        rcases mem_set_cases ho' with h1 | h1
        · exact mem_histories.2 ⟨o', h1, b, hb⟩
        · subst h1
          refine mem_histories.2 ⟨o, ho, b, ?_⟩
          cases b <;> exact hb
      refine ⟨⟨?_, fun q hq => hs.hist q (hmem q hq)⟩, ?_⟩
      · intro o' ho' b
        have h2 : tapArray b o' < w.store.length ∧ tapArray b o' ∉ histories w := by
          rcases mem_set_cases ho' with h1 | h1
          · exact hs.taps o' h1 b
          · subst h1
            cases b
            · exact ⟨he r (by simp [handed]), hk r (by simp [handed])⟩
            · exact hs.taps o ho true
        exact ⟨h2.1, fun hc => h2.2 (hmem _ hc)⟩
      · intro b i
        dsimp only
        unfold historyNow
        dsimp only
        by_cases hji : j = i
        · subst hji
          rw [List.getElem?_set_self hj, e]
          cases b <;> rfl
        · rw [List.getElem?_set_ne hji]
  | setDfe j r =>
    simp only [simStep] at h
    cases e : w.sims[j]? with
    | none => rw [e] at h; cases h
    | some o =>
      rw [e] at h
      simp only [simSetDfe] at h
      split_ifs at h
      cases h
      have hj : j < w.sims.length := (List.getElem?_eq_some_iff.1 e).1
      have ho : o ∈ w.sims := (List.getElem?_eq_some_iff.1 e).2 ▸ List.getElem_mem hj
      have hmem : ∀ q, q ∈ histories (⟨w.store, w.sims.set j { o with dfe := r }⟩ : World) → q ∈ histories w := by
        intro q hq
        obtain ⟨o', ho', b, hb⟩ := mem_histories.1 hq
        rcases mem_set_cases ho' with h1 | h1
        · exact mem_histories.2 ⟨o', h1, b, hb⟩
        · subst h1
          refine mem_histories.2 ⟨o, ho, b, ?_⟩
          cases b <;> exact hb
      refine ⟨⟨?_, fun q hq => hs.hist q (hmem q hq)⟩, ?_⟩
      · intro o' ho' b
        have h2 : tapArray b o' < w.store.length ∧ tapArray b o' ∉ histories w := by
          rcases mem_set_cases ho' with h1 | h1
          · exact hs.taps o' h1 b
          · subst h1
            cases b
            · exact hs.taps o ho false
            · exact ⟨he r (by simp [handed]), hk r (by simp [handed])⟩
        exact ⟨h2.1, fun hc => h2.2 (hmem _ hc)⟩
      · intro b i
        dsimp only
        unfold historyNow
        dsimp only
        by_cases hji : j = i
        · subst hji
          rw [List.getElem?_set_self hj, e]
          cases b <;> rfl
        · rw [List.getElem?_set_ne hji]

theorem simRun_cons {w w' : World} {op : SimOp} {ops : List SimOp} (h : simRun w (op :: ops) = .ok w') :
    ∃ w1, simStep w op = .ok w1 ∧ simRun w1 ops = .ok w' := by
  simp only [simRun] at h
  cases e : simStep w op with
  | error _ => rw [e] at h; cases h
  | ok w1 => rw [e] at h; exact ⟨w1, rfl, h⟩

theorem simRun_history (b : Bool) (i : ℕ) : ∀ (ops : List SimOp) (w w' : World), simRun w ops = .ok w' → Separate w →
    ArraysExist w ops → HistoryKept w ops → historyNow b i w' = recorded b i w ops (historyNow b i w) := by
  intro ops
  induction ops with
  | nil => intro w w' h _ _ _; cases h; rfl
  | cons op ops ih =>
    intro w w' h hs he hk
    obtain ⟨w1, h1, h2⟩ := simRun_cons h
    obtain ⟨s1, s2⟩ := simStep_keeps h1 hs he.1 hk.1
    rw [ih w1 w' h2 s1 (he.2 w1 h1) (hk.2 w1 h1), s2 b i]
    simp only [recorded, h1]
    cases op <;> rfl

/-- **C111** (partial: no array of a history is handed over to an equalizer, see `C111_negative_history`). For every program
that creates simulations, gathers, resets, updates taps and sets taps in any order, the history of each simulation reads at
the end as the tap vectors its equalizer had at the times of gathering: later updates, which work in place, do not reach it. -/
theorem C111_history_partial (s : Store) (ops : List SimOp) (w : World) (h : simRun ⟨s, []⟩ ops = .ok w)
    (he : ArraysExist ⟨s, []⟩ ops) (hk : HistoryKept ⟨s, []⟩ ops) (dfe : Bool) (i : ℕ) :
    historyNow dfe i w = recorded dfe i ⟨s, []⟩ ops [] :=
  simRun_history dfe i ops _ _ h
    ⟨fun o ho => absurd ho List.not_mem_nil, fun r hr => absurd hr (by simp [histories])⟩ he hk

/-- every array in use exists -/
def Exist (w : World) : Prop := ∀ o ∈ w.sims, ∀ b, tapArray b o < w.store.length

/-- what stays fixed for a simulation: the numbers of taps -/
def SameShape (w : World) (o : SimObj) (w' : World) (o' : SimObj) : Prop :=
  (w'.store.read o'.ffe).length = (w.store.read o.ffe).length ∧ o'.dfeTaps = o.dfeTaps ∧
    ((w.store.read o.dfe).length = o.dfeTaps → (w'.store.read o'.dfe).length = o'.dfeTaps)

theorem simStep_shape {w w' : World} {op : SimOp} (h : simStep w op = .ok w') (hs : Exist w)
    (he : ∀ r ∈ handed op, r < w.store.length) :
    Exist w' ∧ ∀ (i : ℕ) (o : SimObj), w.sims[i]? = some o → ∃ o', w'.sims[i]? = some o' ∧ SameShape w o w' o' := by
  have upd : ∀ (s : Store) (j : ℕ) (o n : SimObj), w.sims[j]? = some o → w.store.length ≤ s.length →
      (∀ q, q < w.store.length → (s.read q).length = (w.store.read q).length) →
      (∀ b, tapArray b n < w.store.length) → SameShape w o ⟨s, w.sims.set j n⟩ n →
      Exist ⟨s, w.sims.set j n⟩ ∧
        ∀ (i : ℕ) (o : SimObj), w.sims[i]? = some o → ∃ o', (w.sims.set j n)[i]? = some o' ∧ SameShape w o ⟨s, w.sims.set j n⟩ o' := by
    intro s j o n e hl hq hn hsh
    have hj : j < w.sims.length := (List.getElem?_eq_some_iff.1 e).1
    constructor
    · intro o' ho' b
      rcases mem_set_cases ho' with h1 | h1
      · have := hs o' h1 b; dsimp only; omega
      · subst h1; have := hn b; dsimp only; omega
    · intro i oi hi
      by_cases hji : j = i
      · subst hji
        rw [e] at hi; cases hi
        exact ⟨n, List.getElem?_set_self hj, hsh⟩
      · refine ⟨oi, by rw [List.getElem?_set_ne hji]; exact hi, ?_, rfl, ?_⟩
        · exact hq _ (hs oi ((List.getElem?_eq_some_iff.1 hi).2 ▸ List.getElem_mem _) false)
        · intro hd
          exact (hq _ (hs oi ((List.getElem?_eq_some_iff.1 hi).2 ▸ List.getElem_mem _) true)).trans hd
  have mem : ∀ {j : ℕ} {o : SimObj}, w.sims[j]? = some o → o ∈ w.sims :=
    fun e => (List.getElem?_eq_some_iff.1 e).2 ▸ List.getElem_mem _
  cases op with
  | create d =>
    simp only [simStep, Except.ok.injEq] at h
    subst h
    constructor
    · intro o ho b
      simp only [simCreate, List.mem_append, List.mem_singleton] at ho
      rcases ho with ho | ho
      · exact hs o ho b
      · subst ho
        exact he _ (by cases b <;> simp [tapArray, handed])
    · intro i o hi
      refine ⟨o, ?_, rfl, rfl, fun hd => hd⟩
      show (w.sims ++ _)[i]? = some o
      rw [List.getElem?_append_left (List.getElem?_eq_some_iff.1 hi).1]; exact hi
  | gather j =>
    simp only [simStep] at h
    cases e : w.sims[j]? with
    | none => rw [e] at h; cases h
    | some o =>
      rw [e] at h
      simp only [Except.ok.injEq] at h
      subst h
      refine upd _ j o _ e (by simp) (fun q hq => by rw [read_append _ _ _ hq])
        (fun b => by have := hs o (mem e) b; cases b <;> exact this) ⟨?_, rfl, ?_⟩
      · exact congrArg _ (read_append _ _ _ (hs o (mem e) false))
      · intro hd
        exact (congrArg _ (read_append _ _ _ (hs o (mem e) true))).trans hd
  | reset j =>
    simp only [simStep] at h
    cases e : w.sims[j]? with
    | none => rw [e] at h; cases h
    | some o =>
      rw [e] at h
      simp only [Except.ok.injEq] at h
      subst h
      exact upd _ j o _ e le_rfl (fun q _ => rfl) (fun b => by have := hs o (mem e) b; cases b <;> exact this)
        ⟨rfl, rfl, fun hd => hd⟩
  | update j gf gd =>
    simp only [simStep] at h
    cases e : w.sims[j]? with
    | none => rw [e] at h; cases h
    | some o =>
      rw [e] at h
      simp only at h
      obtain ⟨u1, u2, -, u4⟩ := simUpdate_spec h
      refine ⟨?_, ?_⟩
      · intro o' ho' b; rw [u2]; rw [u1] at ho'; exact hs o' ho' b
      · intro i oi hi
        refine ⟨oi, by rw [u1]; exact hi, u4 _, rfl, fun hd => by rw [u4]; exact hd⟩
  | setFfe j r =>
    simp only [simStep] at h
    cases e : w.sims[j]? with
    | none => rw [e] at h; cases h
    | some o =>
      rw [e] at h
      simp only [simSetFfe] at h
      split_ifs at h with hlen
      cases h
      refine upd _ j o _ e le_rfl (fun q _ => rfl) (fun b => ?_) ⟨hlen, rfl, fun hd => hd⟩
      cases b
      · exact he r (by simp [handed])
      · exact hs o (mem e) true
  | setDfe j r =>
    simp only [simStep] at h
    cases e : w.sims[j]? with
    | none => rw [e] at h; cases h
    | some o =>
      rw [e] at h
      simp only [simSetDfe] at h
      split_ifs at h with hlen
      cases h
      refine upd _ j o _ e le_rfl (fun q _ => rfl) (fun b => ?_) ⟨rfl, rfl, fun _ => hlen⟩
      cases b
      · exact hs o (mem e) false
      · exact he r (by simp [handed])

theorem simRun_shape : ∀ (ops : List SimOp) (w w' : World), simRun w ops = .ok w' → Exist w → ArraysExist w ops →
    ∀ (i : ℕ) (o : SimObj), w.sims[i]? = some o → ∃ o', w'.sims[i]? = some o' ∧ SameShape w o w' o' := by
  intro ops
  induction ops with
  | nil => intro w w' h _ _ i o hi; cases h; exact ⟨o, hi, rfl, rfl, fun hd => hd⟩
  | cons op ops ih =>
    intro w w' h hs he i o hi
    obtain ⟨w1, h1, h2⟩ := simRun_cons h
    obtain ⟨s1, s2⟩ := simStep_shape h1 hs he.1
    obtain ⟨o1, e1, a1, a2, a3⟩ := s2 i o hi
    obtain ⟨o2, e2, b1, b2, b3⟩ := ih w1 w' h2 s1 (he.2 w1 h1) i o1 e1
    exact ⟨o2, e2, b1.trans a1, b2.trans a2, fun hd => b3 (a3 hd)⟩

/-- the data object refers to existing arrays of the right lengths -/
theorem eqDataInit_spec {s s' : Store} {pre post n : ℕ} {ffe dfe : Option ℕ} {lv : Bool} {d : EqData}
    (h : eqDataInit s pre post n ffe dfe lv = .ok (d, s')) (hf : ∀ r ∈ ffe, r < s.length) (hd : ∀ r ∈ dfe, r < s.length) :
    d.pre = pre ∧ d.post = post ∧ d.dfeTaps = n ∧ d.ffe < s'.length ∧ d.dfe < s'.length ∧
      (s'.read d.ffe).length = pre + post + 1 ∧ (s'.read d.dfe).length = n := by
  have arr : ∀ (s : Store) (n : ℕ) (dflt : List ℝ) (o : Option ℕ) (r : ℕ) (t : Store), dflt.length = n →
      (∀ r ∈ o, r < s.length) → arrayOr s n dflt o = .ok (r, t) →
      r < t.length ∧ (Store.read t r).length = n ∧ s.length ≤ t.length ∧ ∀ q, q < s.length → Store.read t q = s.read q := by
    intro s n dflt o r t hl ho e
    cases o with
    | none =>
      simp only [arrayOr, Except.ok.injEq, Prod.mk.injEq] at e
      obtain ⟨rfl, rfl⟩ := e
      refine ⟨by simp, ?_, by simp, fun q hq => read_append _ _ _ hq⟩
      rw [← hl]; simp [Store.read]
    | some a =>
      simp only [arrayOr] at e
      split_ifs at e with hla
      simp only [Except.ok.injEq, Prod.mk.injEq] at e
      obtain ⟨rfl, rfl⟩ := e
      exact ⟨ho _ rfl, hla, le_rfl, fun q _ => rfl⟩
  unfold eqDataInit at h
  cases e1 : arrayOr s (pre + post + 1) (List.replicate pre 0 ++ 1 :: List.replicate post 0) ffe with
  | error _ => rw [e1] at h; cases h
  | ok f =>
    obtain ⟨r1, s1⟩ := f
    rw [e1] at h
    change (arrayOr s1 n (List.replicate n 0) dfe).bind _ = _ at h
    obtain ⟨a1, a2, a3, -⟩ := arr _ _ _ _ _ _ (by simp; omega) hf e1
    cases e2 : arrayOr s1 n (List.replicate n 0) dfe with
    | error _ => rw [e2] at h; cases h
    | ok g =>
      obtain ⟨r2, s2⟩ := g
      rw [e2] at h
      obtain ⟨b1, b2, b3, b4⟩ := arr _ _ _ _ _ _ (by simp) (fun r hr => lt_of_lt_of_le (hd r hr) a3) e2
      change (if _ then _ else _) = _ at h
      split_ifs at h
      cases h
      exact ⟨rfl, rfl, rfl, lt_of_lt_of_le a1 b3, b1, by rw [b4 _ a1]; exact a2, b2⟩

/-- **C111** setting taps: at any time in any program, `set_ffe` of a simulation accepts exactly the arrays with
`ffe_precursors + ffe_postcursors + 1` elements and `set_dfe` exactly those with `dfe_taps` elements, as they were given to
its `FfeDfeData`; everything else is a ValueError. (`set_ffe` compares with the present tap vector instead of the
parameters; no sequence of operations makes these differ.) -/
theorem C111_set (s s' : Store) (pre post n : ℕ) (ffe dfe : Option ℕ) (lv : Bool) (d : EqData)
    (hd : eqDataInit s pre post n ffe dfe lv = .ok (d, s')) (hf : ∀ r ∈ ffe, r < s.length) (hdf : ∀ r ∈ dfe, r < s.length)
    (sims : List SimObj) (hsims : ∀ o ∈ sims, o.ffe < s'.length ∧ o.dfe < s'.length) (ops : List SimOp) (w : World)
    (h : simRun ⟨s', sims⟩ (.create d :: ops) = .ok w) (he : ArraysExist ⟨s', sims⟩ (.create d :: ops)) (r : ℕ) :
    ((∃ w', simStep w (.setFfe sims.length r) = .ok w') ↔ (w.store.read r).length = pre + post + 1) ∧
    ((∃ w', simStep w (.setDfe sims.length r) = .ok w') ↔ (w.store.read r).length = n) ∧
    ((w.store.read r).length ≠ pre + post + 1 → simStep w (.setFfe sims.length r) = .error .valueError) ∧
    ((w.store.read r).length ≠ n → simStep w (.setDfe sims.length r) = .error .valueError) ∧
    (tapsNow false sims.length w).length = pre + post + 1 ∧ (tapsNow true sims.length w).length = n := by
  obtain ⟨-, -, d3, d4, d5, d6, d7⟩ := eqDataInit_spec hd hf hdf
  obtain ⟨w1, h1, h2⟩ := simRun_cons h
  have hw1 : simCreate ⟨s', sims⟩ d = w1 := by simpa [simStep] using h1
  have hex : Exist w1 := by
    refine (simStep_shape h1 ?_ he.1).1
    intro o ho b
    cases b
    · exact (hsims o ho).1
    · exact (hsims o ho).2
  have hnew : w1.sims[sims.length]? = some ⟨d.dfeTaps, d.ffe, d.dfe, [], []⟩ := by rw [← hw1]; simp [simCreate]
  obtain ⟨o, e, a1, a2, a3⟩ := simRun_shape ops w1 w h2 hex (he.2 w1 h1) _ _ hnew
  have hst : w1.store = s' := by rw [← hw1]; rfl
  rw [hst] at a1 a3
  have l1 : (w.store.read o.ffe).length = pre + post + 1 := a1.trans d6
  have l2 : o.dfeTaps = n := a2.trans d3
  have l3 : (w.store.read o.dfe).length = n := (a3 (d7.trans d3.symm)).trans l2
  have s1 : simStep w (.setFfe sims.length r) = simSetFfe w sims.length o r := by simp only [simStep, e]
  have s2 : simStep w (.setDfe sims.length r) = simSetDfe w sims.length o r := by simp only [simStep, e]
  rw [s1, s2]
  unfold simSetFfe simSetDfe
  rw [l1, l2]
  refine ⟨?_, ?_, ?_, ?_, ?_, ?_⟩
  · constructor
    · rintro ⟨w', hw'⟩; split_ifs at hw' with hh; exact hh
    · intro hh; rw [if_pos hh]; exact ⟨_, rfl⟩
  · constructor
    · rintro ⟨w', hw'⟩; split_ifs at hw' with hh; exact hh
    · intro hh; rw [if_pos hh]; exact ⟨_, rfl⟩
  · intro hh; rw [if_neg hh]
  · intro hh; rw [if_neg hh]
  · simp only [tapsNow, e]; exact l1
  · simp only [tapsNow, e]; exact l3

/-- the content of an array after one update by a gradient of the same length -/
theorem plusAssign_value (s : Store) (r : ℕ) (g : List ℝ) (hr : r < s.length) (hg : g.length = (s.read r).length) :
    ∃ s', plusAssign s r (g.map (fun g => -1 * (1 / 2 ^ 10) * g)) = .ok s' ∧ s'.length = s.length ∧
      (∀ q, q ≠ r → s'.read q = s.read q) ∧ (∀ q, (s'.read q).length = (s.read q).length) ∧
      ∀ j : ℕ, (s'.read r).getD j 0 = (s.read r).getD j 0 - 1 / 2 ^ 10 * g.getD j 0 := by
  have e : plusAssign s r (g.map (fun g => -1 * (1 / 2 ^ 10) * g)) =
      .ok (s.set r (List.zipWith (· + ·) (s.read r) (g.map (fun g => -1 * (1 / 2 ^ 10) * g)))) := by
    unfold plusAssign
    rw [if_pos (by rw [List.length_map]; exact hg)]
  obtain ⟨a, b, c⟩ := plusAssign_spec e
  refine ⟨_, e, a, b, c, fun j => ?_⟩
  have h1 : Store.read (s.set r (List.zipWith (· + ·) (s.read r) (g.map (fun g => -1 * (1 / 2 ^ 10) * g)))) r =
      List.zipWith (· + ·) (s.read r) (g.map (fun g => -1 * (1 / 2 ^ 10) * g)) := by
    unfold Store.read
    rw [List.getD_eq_getElem?_getD, List.getElem?_set_self hr]
    rfl
  rw [h1]
  by_cases hj : j < (s.read r).length
  · simp only [List.getD_eq_getElem?_getD, List.getElem?_zipWith, List.getElem?_map]
    rw [List.getElem?_eq_getElem hj, List.getElem?_eq_getElem (by rw [hg]; exact hj)]
    simp only [Option.map_some, Option.getD_some]
    ring
  · simp only [List.getD_eq_getElem?_getD, List.getElem?_zipWith, List.getElem?_map]
    rw [List.getElem?_eq_none (by omega), List.getElem?_eq_none (by omega)]
    simp

/-- the sum of one entry over a list of gradients -/
def Spec.gradSum (gs : List (List ℝ)) (j : ℕ) : ℝ := (gs.map (fun g => g.getD j 0)).sum

/-- updates of a simulation whose equalizer refers to the arrays `f` and `d` -/
theorem updates_value (f d : ℕ) (hfd : f ≠ d) : ∀ (gs : List (ℕ × List ℝ × List ℝ)) (w : World),
    f < w.store.length → d < w.store.length →
    (∀ g ∈ gs, ∃ o, w.sims[g.1]? = some o ∧ o.ffe = f ∧ o.dfe = d) →
    (∀ g ∈ gs, g.2.1.length = (w.store.read f).length ∧ g.2.2.length = (w.store.read d).length) →
    ∃ w', simRun w (gs.map (fun g => .update g.1 g.2.1 g.2.2)) = .ok w' ∧ w'.sims = w.sims ∧
      w'.store.length = w.store.length ∧ (∀ q, (w'.store.read q).length = (w.store.read q).length) ∧
      (∀ j : ℕ, (w'.store.read f).getD j 0 = (w.store.read f).getD j 0 - 1 / 2 ^ 10 * gradSum (gs.map (fun g => g.2.1)) j) ∧
      ∀ j : ℕ, (w'.store.read d).getD j 0 = (w.store.read d).getD j 0 - 1 / 2 ^ 10 * gradSum (gs.map (fun g => g.2.2)) j := by
  intro gs
  induction gs with
  | nil => intro w _ _ _ _; exact ⟨w, rfl, rfl, rfl, fun _ => rfl, by simp [gradSum], by simp [gradSum]⟩
  | cons g gs ih =>
    intro w hf hd ho hl
    obtain ⟨o, e, o1, o2⟩ := ho g List.mem_cons_self
    obtain ⟨l1, l2⟩ := hl g List.mem_cons_self
    obtain ⟨s1, e1, a1, a2, a3, a4⟩ := plusAssign_value w.store f g.2.1 hf l1
    obtain ⟨s2, e2, b1, b2, b3, b4⟩ := plusAssign_value s1 d g.2.2 (by rw [a1]; exact hd) (by rw [a3]; exact l2)
    have hstep : simStep w (.update g.1 g.2.1 g.2.2) = .ok ⟨s2, w.sims⟩ := by
      simp only [simStep, e, simUpdate, o1, o2, e1]
      change (plusAssign s1 d _).bind _ = _
      rw [e2]; rfl
    have hlen : ∀ q, (s2.read q).length = (w.store.read q).length := fun q => by rw [b3, a3]
    obtain ⟨w', r1, r2, r3, r4, r5, r6⟩ := ih ⟨s2, w.sims⟩ (by dsimp only; rw [b1, a1]; exact hf) (by dsimp only; rw [b1, a1]; exact hd)
      (fun g hg => ho g (List.mem_cons_of_mem _ hg))
      (fun g hg => by dsimp only; rw [hlen, hlen]; exact hl g (List.mem_cons_of_mem _ hg))
    refine ⟨w', ?_, r2, by rw [r3]; dsimp only; rw [b1, a1], fun q => by rw [r4]; exact hlen q, ?_, ?_⟩
    · simp only [List.map_cons, simRun, hstep]
      exact r1
    · intro j
      rw [r5 j]
      dsimp only
      rw [b2 f hfd, a4 j]
      simp only [gradSum, List.map_cons, List.sum_cons]
      ring
    · intro j
      rw [r6 j]
      dsimp only
      rw [b4 j, a2 d (Ne.symm hfd)]
      simp only [gradSum, List.map_cons, List.sum_cons]
      ring

theorem simRun_append (w : World) (a b : List SimOp) :
    simRun w (a ++ b) = (simRun w a).bind (fun w' => simRun w' b) := by
  induction a generalizing w with
  | nil => rfl
  | cons op a ih =>
    simp only [List.cons_append, simRun]
    cases e : simStep w op with
    | error _ => rfl
    | ok w1 => exact ih w1

/-- **C111** *violated*: the equalizer keeps the arrays of its data object and updates them in place. For every data object
and all gradients: after a simulation was trained (`us`), a second simulation made from the same data starts with the
trained taps instead of the configured ones, and from then on both have one set of taps, whichever of the two is trained
(`vs`). The configured taps are lost. -/
theorem C111_negative_shared (s : Store) (d : EqData) (hf : d.ffe < s.length) (hd : d.dfe < s.length) (hne : d.ffe ≠ d.dfe)
    (us : List (List ℝ × List ℝ)) (vs : List (ℕ × List ℝ × List ℝ)) (hv : ∀ v ∈ vs, v.1 < 2)
    (hl : ∀ g ∈ us ++ vs.map (fun v => v.2), g.1.length = (s.read d.ffe).length ∧ g.2.length = (s.read d.dfe).length) :
    ∃ w, simRun ⟨s, []⟩ (.create d :: us.map (fun g => .update 0 g.1 g.2) ++ .create d ::
        vs.map (fun v => .update v.1 v.2.1 v.2.2)) = .ok w ∧
      (∀ b, tapsNow b 1 w = tapsNow b 0 w) ∧
      (∀ b i, i < 2 → tapsNow b i w = w.store.read (if b then d.dfe else d.ffe)) ∧
      ∀ (i j : ℕ), i < 2 →
        (tapsNow false i w).getD j 0 =
          (s.read d.ffe).getD j 0 - 1 / 2 ^ 10 * gradSum (us.map (fun g => g.1) ++ vs.map (fun v => v.2.1)) j ∧
        (tapsNow true i w).getD j 0 =
          (s.read d.dfe).getD j 0 - 1 / 2 ^ 10 * gradSum (us.map (fun g => g.2) ++ vs.map (fun v => v.2.2)) j := by
  set o : SimObj := ⟨d.dfeTaps, d.ffe, d.dfe, [], []⟩ with ho
  obtain ⟨w1, r1, r2, r3, r4, r5, r6⟩ := updates_value d.ffe d.dfe hne (us.map (fun g => (0, g.1, g.2))) ⟨s, [o]⟩ hf hd
    (by
      intro g hg
      obtain ⟨u, -, rfl⟩ := List.mem_map.1 hg
      exact ⟨o, rfl, rfl, rfl⟩)
    (by
      intro g hg
      obtain ⟨u, hu, rfl⟩ := List.mem_map.1 hg
      exact hl u (List.mem_append_left _ hu))
  obtain ⟨w2, t1, t2, t3, t4, t5, t6⟩ := updates_value d.ffe d.dfe hne vs (simCreate w1 d) (by simp only [simCreate]; rw [r3]; exact hf)
    (by simp only [simCreate]; rw [r3]; exact hd)
    (by
      intro g hg
      have hsims : (simCreate w1 d).sims = [o, o] := by simp only [simCreate, r2]; rfl
      rw [hsims]
      have := hv g hg
      rcases Nat.lt_or_ge g.1 1 with h | h
      · rw [show g.1 = 0 by omega]; exact ⟨o, rfl, rfl, rfl⟩
      · rw [show g.1 = 1 by omega]; exact ⟨o, rfl, rfl, rfl⟩)
    (by
      intro g hg
      simp only [simCreate]
      rw [r4, r4]
      exact hl g.2 (List.mem_append_right _ (List.mem_map_of_mem hg)))
  have hsims : w2.sims = [o, o] := by rw [t2]; simp only [simCreate, r2]; rfl
  have htaps : ∀ b i, i < 2 → tapsNow b i w2 = w2.store.read (if b then d.dfe else d.ffe) := by
    intro b i hi
    have : w2.sims[i]? = some o := by
      rw [hsims]
      rcases Nat.lt_or_ge i 1 with h | h
      · rw [show i = 0 by omega]; rfl
      · rw [show i = 1 by omega]; rfl
    simp only [tapsNow, this, tapArray, ho]
  refine ⟨w2, ?_, ?_, htaps, ?_⟩
  · rw [List.cons_append]
    simp only [simRun, simStep]
    change simRun ⟨s, [] ++ [o]⟩ _ = _
    rw [List.nil_append, simRun_append]
    rw [show (us.map (fun g => SimOp.update 0 g.1 g.2)) =
      (us.map (fun g => (0, g.1, g.2))).map (fun g => SimOp.update g.1 g.2.1 g.2.2) by rw [List.map_map]; rfl, r1]
    simp only [Except.bind, simRun, simStep]
    exact t1
  · intro b
    rw [htaps b 1 (by norm_num), htaps b 0 (by norm_num)]
  · intro i j hi
    rw [htaps false i hi, htaps true i hi]
    simp only [if_true, Bool.false_eq_true, if_false]
    rw [t5 j, t6 j]
    simp only [simCreate]
    rw [r5 j, r6 j]
    simp only [gradSum, List.map_append, List.sum_append, List.map_map, Function.comp_def]
    constructor <;> ring

/-- **C111** *violated* for the history: setting the taps back to an entry of the history (`set_ffe(lms_ffe_vecs[k])`) makes
the equalizer use that very array, and the next update changes the recorded vector. For every world, simulation and entry. -/
theorem C111_negative_history (w : World) (i r : ℕ) (o : SimObj) (ho : w.sims[i]? = some o) (hr : r ∈ o.histFfe)
    (hw : ∀ o ∈ w.sims, ∀ q ∈ o.histFfe, q < w.store.length) (hd : o.dfe < w.store.length) (hrd : r ≠ o.dfe)
    (hlen : (w.store.read r).length = (w.store.read o.ffe).length)
    (g h : List ℝ) (hg : g.length = (w.store.read r).length) (hh : h.length = (w.store.read o.dfe).length) :
    ∃ w' o', simRun w [.setFfe i r, .update i g h] = .ok w' ∧ w'.sims[i]? = some o' ∧ r ∈ o'.histFfe ∧
      ∀ j : ℕ, (w'.store.read r).getD j 0 = (w.store.read r).getD j 0 - 1 / 2 ^ 10 * g.getD j 0 := by
  have hi : i < w.sims.length := (List.getElem?_eq_some_iff.1 ho).1
  have hmem : o ∈ w.sims := (List.getElem?_eq_some_iff.1 ho).2 ▸ List.getElem_mem _
  have h1 : simStep w (.setFfe i r) = .ok ⟨w.store, w.sims.set i { o with ffe := r }⟩ := by
    simp only [simStep, ho, simSetFfe, hlen, if_true]
  obtain ⟨w', r1, r2, -, -, r5, -⟩ := updates_value r o.dfe hrd [(i, g, h)] ⟨w.store, w.sims.set i { o with ffe := r }⟩
    (hw o hmem r hr) hd
    (by
      intro g' hg'
      rw [List.mem_singleton] at hg'
      subst hg'
      exact ⟨{ o with ffe := r }, List.getElem?_set_self hi, rfl, rfl⟩)
    (by
      intro g' hg'
      rw [List.mem_singleton] at hg'
      subst hg'
      exact ⟨hg, hh⟩)
  refine ⟨w', { o with ffe := r }, ?_, ?_, hr, ?_⟩
  · simp only [simRun, h1]
    exact r1
  · rw [r2]; exact List.getElem?_set_self hi
  · intro j
    have := r5 j
    simpa [gradSum] using this

/-- **C111** the pattern generator: after any number of chunks, `get_seed` is the seed with which `prbs_gen` continues the
stream: the bits drawn so far followed by any number of bits generated from it are the stream of the first seed. -/
theorem C111_seed (p : PrbsEnum) (chunk k m : ℕ) (seed : Option (List Int)) (hs : ∀ s ∈ seed, s.length = p.value) :
    ∃ bits o next rest fin, prbsObjDraw k (prbsObjInit p chunk seed) = .ok (bits, o) ∧ prbsObjSeed o = .ok next ∧
      prbsGenerator (getPolynomial p) next m = .ok (rest, fin) ∧
      prbsGenerator (getPolynomial p) (seed.getD (List.replicate p.value 1)) ((k * chunk + m : ℕ) : Int) = .ok (bits ++ rest, fin) := by
  have hpl := poly_length p
  have key : ∀ (k : ℕ) (o : PrbsObj), o.poly = getPolynomial p → o.chunk = chunk → o.seed.length = p.value →
      ∃ bits o' rest fin, prbsObjDraw k o = .ok (bits, o') ∧ prbsGenerator (getPolynomial p) o'.seed m = .ok (rest, fin) ∧
        prbsGenerator (getPolynomial p) o.seed ((k * chunk + m : ℕ) : Int) = .ok (bits ++ rest, fin) := by
    intro k
    induction k with
    | zero =>
      intro o h1 h2 h3
      refine ⟨[], o, _, _, rfl, prbsGenerator_supported p o.seed h3 m, ?_⟩
      rw [Nat.zero_mul, Nat.zero_add, List.nil_append]
      exact prbsGenerator_supported p o.seed h3 m
    | succ k ih =>
      intro o h1 h2 h3
      have e1 := prbsGenerator_supported p o.seed h3 chunk
      have hv := value_pos p
      obtain ⟨bits, o', rest, fin, i1, i2, i3⟩ := ih { o with seed := reg (getPolynomial p) o.seed chunk } h1 h2
        (by dsimp only; rw [reg_length _ _ _ (by omega), h3])
      refine ⟨(List.range chunk).map (bitAt (getPolynomial p) o.seed) ++ bits, o', rest, fin, ?_, i2, ?_⟩
      · have hn : prbsObjNext o = .ok ((List.range chunk).map (bitAt (getPolynomial p) o.seed),
            { o with seed := reg (getPolynomial p) o.seed chunk }) := by
          unfold prbsObjNext
          rw [h1, h2, e1]
          rfl
        simp only [prbsObjDraw, hn]
        change (prbsObjDraw k { o with seed := reg (getPolynomial p) o.seed chunk }).bind _ = _
        rw [i1]; rfl
      · have := C02_prbs_resumable p o.seed h3 [chunk, k * chunk + m]
        simp only [prbsChunks, e1, bind, Except.bind, pure, Except.pure, i3] at this
        rw [show ((k + 1) * chunk + m : ℕ) = [chunk, k * chunk + m].sum by simp; ring, ← this]
        simp
  have hlen : (prbsObjInit p chunk seed).seed.length = p.value := by
    cases seed with
    | none => simp [prbsObjInit, hpl]
    | some s => exact hs s rfl
  obtain ⟨bits, o, rest, fin, a, b, c⟩ := key k (prbsObjInit p chunk seed) rfl rfl hlen
  refine ⟨bits, o, o.seed, rest, fin, a, rfl, b, ?_⟩
  simpa [prbsObjInit, hpl] using c

/-- **C111** *violated*: `get_prev_seed` raises AttributeError, whatever was drawn before. -/
theorem C111_negative_prev_seed (p : PrbsEnum) (chunk k : ℕ) (seed : Option (List Int)) (bits : List Int) (o : PrbsObj)
    (h : prbsObjDraw k (prbsObjInit p chunk seed) = .ok (bits, o)) : prbsObjPrevSeed o = .error .attributeError := by
  have key : ∀ (k : ℕ) (o o' : PrbsObj) (bits : List Int), o.seedPrev = none → prbsObjDraw k o = .ok (bits, o') → o'.seedPrev = none := by
    intro k
    induction k with
    | zero => intro o o' bits h1 h2; cases h2; exact h1
    | succ k ih =>
      intro o o' bits h1 h2
      simp only [prbsObjDraw, prbsObjNext] at h2
      cases e1 : prbsGenerator o.poly o.seed o.chunk with
      | error _ => rw [e1] at h2; cases h2
      | ok r =>
        rw [e1] at h2
        change (prbsObjDraw k { o with seed := r.2 }).bind _ = _ at h2
        cases e2 : prbsObjDraw k { o with seed := r.2 } with
        | error _ => rw [e2] at h2; cases h2
        | ok t =>
          rw [e2] at h2
          cases h2
          exact ih { o with seed := r.2 } _ t.1 h1 e2
  unfold prbsObjPrevSeed
  rw [key k _ o bits rfl h]

/-! ### Examples -/

/-- a data object with one precursor, one postcursor and one DFE tap; a simulation that gathers, is trained and gathers again:
the history holds the taps before and after -/
example : ∃ d s w, eqDataInit [] 1 1 1 none none true = .ok (d, s) ∧
    simRun ⟨s, []⟩ [.create d, .gather 0, .update 0 [1024, 0, -1024] [512], .gather 0] = .ok w ∧
    historyNow false 0 w = [[0, 1, 0], [-1, 1, 1]] ∧ historyNow true 0 w = [[0], [-1 / 2]] := by
  refine ⟨_, _, _, rfl, rfl, ?_, ?_⟩ <;>
    norm_num [historyNow, histArrays, simGather, simCreate, Store.read, List.zipWith]

/-- the same program meets the conditions of `C111_history_partial` -/
example : ArraysExist ⟨[[0, 1, 0], [0]], []⟩ [.create ⟨1, 1, 1, 0, 1⟩, .gather 0, .update 0 [1024, 0, -1024] [512], .gather 0] ∧
    HistoryKept ⟨[[0, 1, 0], [0]], []⟩ [.create ⟨1, 1, 1, 0, 1⟩, .gather 0, .update 0 [1024, 0, -1024] [512], .gather 0] := by
  constructor
  · exact ⟨by simp [handed], fun _ _ => ⟨by simp [handed], fun _ _ => ⟨by simp [handed], fun _ _ => ⟨by simp [handed], fun _ _ => trivial⟩⟩⟩⟩
  · exact ⟨by simp [histories], fun _ _ => ⟨by simp [handed], fun _ _ => ⟨by simp [handed], fun _ _ => ⟨by simp [handed], fun _ _ => trivial⟩⟩⟩⟩

/-- setting taps in a fresh simulation: an array with three elements (here the array of the data object itself) is accepted -/
example : ∃ d s w w', eqDataInit [] 1 1 1 none none true = .ok (d, s) ∧ simRun ⟨s, []⟩ [.create d] = .ok w ∧
    simStep w (.setFfe 0 0) = .ok w' := by
  obtain ⟨w', h⟩ := (C111_set [] [[0, 1, 0], [0]] 1 1 1 none none true ⟨1, 1, 1, 0, 1⟩ rfl (by simp) (by simp) [] (by simp) []
    ⟨[[0, 1, 0], [0]], [⟨1, 0, 1, [], []⟩]⟩ rfl ⟨by simp [handed], fun _ _ => trivial⟩ 0).1.2 rfl
  exact ⟨_, _, _, w', rfl, rfl, h⟩

/-- going back to the first entry of the history and training on: the entry is changed -/
example : ∃ w w' o', simRun ⟨[[0, 1, 0], [0]], []⟩ [.create ⟨1, 1, 1, 0, 1⟩, .gather 0] = .ok w ∧
    simRun w [.setFfe 0 2, .update 0 [1024, 0, 0] [0]] = .ok w' ∧ w'.sims[0]? = some o' ∧ 2 ∈ o'.histFfe ∧
    (w.store.read 2).getD 0 0 = 0 ∧ (w'.store.read 2).getD 0 0 = -1 := by
  obtain ⟨w', o', h1, h2, h3, h4⟩ := C111_negative_history ⟨[[0, 1, 0], [0], [0, 1, 0], [0]], [⟨1, 0, 1, [2], [3]⟩]⟩ 0 2
    ⟨1, 0, 1, [2], [3]⟩ rfl (by simp) (by simp) (by simp) (by decide) rfl [1024, 0, 0] [0] rfl rfl
  refine ⟨_, w', o', rfl, h1, h2, h3, by norm_num [Store.read, simGather, simCreate], ?_⟩
  rw [h4 0]
  norm_num [Store.read]

/-- the shared arrays: one training step, then a second simulation from the same data -/
example : ∃ w, simRun ⟨[[0, 1, 0], [0]], []⟩ [.create ⟨1, 1, 1, 0, 1⟩, .update 0 [1024, 0, 0] [0], .create ⟨1, 1, 1, 0, 1⟩] = .ok w ∧
    (tapsNow false 1 w).getD 0 0 = -1 := by
  obtain ⟨w, h1, -, -, h2⟩ := C111_negative_shared [[0, 1, 0], [0]] ⟨1, 1, 1, 0, 1⟩ (by decide) (by decide) (by decide)
    [([1024, 0, 0], [0])] [] (by simp) (by simp [Store.read])
  refine ⟨w, h1, ?_⟩
  rw [(h2 1 0 (by norm_num)).1]
  norm_num [gradSum, Store.read]

/-- the shipped generator: two chunks of 64 bits of PRBS13, then 10 bits from `get_seed` -/
example : ∃ bits o next rest fin, prbsObjDraw 2 (prbsObjInit .prbs13 64 none) = .ok (bits, o) ∧ prbsObjSeed o = .ok next ∧
    prbsGenerator (getPolynomial .prbs13) next (10 : ℕ) = .ok (rest, fin) ∧
    prbsGenerator (getPolynomial .prbs13) (List.replicate 13 1) ((2 * 64 + 10 : ℕ) : Int) = .ok (bits ++ rest, fin) :=
  C111_seed .prbs13 64 2 10 none (by simp)

end Verif
