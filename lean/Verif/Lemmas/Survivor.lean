import Verif.Lemmas.ViterbiCode
import Verif.Spec.Survivor
import Verif.Model.ConvErr

/-! Lemmas: which paths survive the forward pass of the Viterbi decoder. -/

namespace Verif
open Spec

theorem wordNum_append (a : List Int) (x : Int) : wordNum (a ++ [x]) = 2 * wordNum a + x := by
  unfold wordNum
  rw [List.foldl_append]
  rfl

theorem wordNum_eq (u : List Int) : wordNum u = leVal u.reverse := by
  induction u using List.reverseRecOn with
  | nil => rfl
  | append_singleton a x ih =>
    rw [wordNum_append, List.reverse_append, ih]
    simp [leVal]
    ring

theorem wordNum_inj {k : ℕ} {a b : List Int} (ha : Word k a) (hb : Word k b) (h : wordNum a = wordNum b) : a = b := by
  obtain ⟨x, _, hx, e⟩ := word_index k a ha
  obtain ⟨y, _, hy, e'⟩ := word_index k b hb
  rw [wordNum_eq, wordNum_eq, ← hx, ← hy] at h
  have : x = y := by exact_mod_cast h
  rw [← e, ← e', this]

theorem wordNum_state {k i : ℕ} (hi : i < (getBinPerm k).length) : wordNum ((getBinPerm k).getD i []) = i := by
  rw [getBinPerm_length] at hi
  rw [getBinPerm_eq, getD_map_lt _ 0 [] _ (by simpa using hi), getD_of_lt 0 (List.range _) (by simpa using hi),
    List.getElem_range, wordNum_eq, List.reverse_reverse, leVal_symBits _ _ (by omega) (by exact_mod_cast hi)]

section
variable {nO : ℕ} {G : ConvG} {fb : ConvFb} {uf : ConvUf}

/-- the transition from `m` with output `o` is the best into `e` -/
def BestStep (G : ConvG) (fb : ConvFb) (uf : ConvUf) (c m o e : List Int) : Prop :=
  ∀ m' u', Word (memSizes G).sum m' → Word G.length u' → (trellisStep G fb uf m' u').2 = e →
    hammingDist c o < hammingDist c (trellisStep G fb uf m' u').1 ∨
      hammingDist c o = hammingDist c (trellisStep G fb uf m' u').1 ∧ wordNum m ≤ wordNum m'

/-- surviving path: chunks, start, inputs, distance, end -/
inductive Greedy (G : ConvG) (fb : ConvFb) (uf : ConvUf) :
    List (List Int) → List Int → List (List Int) → Int → List Int → Prop
  | nil (s) : Word (memSizes G).sum s → Greedy G fb uf [] s [] 0 s
  | snoc {cs s us d m c u o e} : Greedy G fb uf cs s us d m → Word G.length u → trellisStep G fb uf m u = (o, e) →
      BestStep G fb uf c m o e → Greedy G fb uf (cs ++ [c]) s (us ++ [u]) (hammingDist c o + d) e

theorem greedy_word (h : GoodTrellis nO G fb uf) {cs s us d e} (hp : Greedy G fb uf cs s us d e) :
    Word (memSizes G).sum s ∧ Word (memSizes G).sum e ∧ us.length = cs.length ∧ ∀ u ∈ us, Word G.length u := by
  induction hp with
  | nil s hs => exact ⟨hs, hs, rfl, by simp⟩
  | snoc hp hu hst hb ih =>
    obtain ⟨h1, h2, h3, h4⟩ := ih
    have := (h.out _ _ h2 hu).2
    rw [hst] at this
    refine ⟨h1, this, by simp [h3], ?_⟩
    intro x hx
    rw [List.mem_append, List.mem_singleton] at hx
    rcases hx with hx | rfl
    · exact h4 x hx
    · exact hu

/-- a state has one surviving path -/
theorem greedy_unique (h : GoodTrellis nO G fb uf) {cs s us d e s' us' d'} (hp : Greedy G fb uf cs s us d e)
    (hp' : Greedy G fb uf cs s' us' d' e) : s = s' ∧ us = us' ∧ d = d' := by
  induction hp generalizing s' us' d' with
  | nil s hs =>
    generalize hcs : ([] : List (List Int)) = cs at hp'
    cases hp' with
    | nil => exact ⟨rfl, rfl, rfl⟩
    | snoc => simp at hcs
  | @snoc cs s us d m c u o e hp hu hst hb ih =>
    generalize hcs : cs ++ [c] = cs' at hp'
    cases hp' with
    | nil => simp at hcs
    | @snoc cs' s' us' d' m' c' u' o' _ hp' hu' hst' hb' =>
      obtain ⟨rfl, hcc⟩ := List.append_inj' hcs rfl
      have hcc' : c = c' := by simpa using hcc
      subst hcc'
      have w1 := (greedy_word h hp).2.1
      have w2 := (greedy_word h hp').2.1
      have a1 := hb m' u' w2 hu' (by rw [hst'])
      have a2 := hb' m u w1 hu (by rw [hst])
      rw [hst'] at a1
      rw [hst] at a2
      simp only [] at a1 a2
      have hm : m = m' := wordNum_inj w1 w2 (by omega)
      subst hm
      have hu2 := h.simple m u u' w1 hu hu' (by rw [hst, hst'])
      subst hu2
      rw [hst] at hst'
      have ho : o = o' := congrArg Prod.fst hst'
      obtain ⟨i1, i2, i3⟩ := ih hp'
      exact ⟨i1, by rw [i2], by rw [i3, ho]⟩

/-- every state is reached by a transition that is not further away than the entries without transition -/
def Reached (nO : ℕ) (G : ConvG) (fb : ConvFb) (uf : ConvUf) : Prop :=
  ∀ e c, Word (memSizes G).sum e → Word nO c → ∃ m u, Word (memSizes G).sum m ∧ Word G.length u ∧
    (trellisStep G fb uf m u).2 = e ∧ hammingDist c (trellisStep G fb uf m u).1 < nO

/-- the argmin of one forward step is the best transition -/
theorem best_pred (hnO : nOut G = nO) (h : GoodTrellis nO G fb uf) (hr : Reached nO G fb uf) (c : List Int) (hc : Word nO c)
    (jj : ℕ) (hjj : jj < (trellisStates G).length) :
    let step := (List.range (trellisStates G).length).map (fun ii => hammingDist c (outputTensor G fb uf ii jj))
    argmin step < (trellisStates G).length ∧
    ∃ u o, inputTensor G fb uf (argmin step) jj = u ∧ Word G.length u ∧
      trellisStep G fb uf ((trellisStates G).getD (argmin step) []) u = (o, (trellisStates G).getD jj []) ∧
      step.getD (argmin step) 0 = hammingDist c o ∧
      BestStep G fb uf c ((trellisStates G).getD (argmin step) []) o ((trellisStates G).getD jj []) := by
  intro step
  have hws : ∀ i < (trellisStates G).length, Word (memSizes G).sum ((trellisStates G).getD i []) :=
    fun i hi => (mem_getBinPerm _ _).1 (mem_of_getD [] _ hi)
  have hlen : step.length = (trellisStates G).length := by simp [step]
  have hg : ∀ ii < (trellisStates G).length, step.getD ii 0 = hammingDist c (outputTensor G fb uf ii jj) := by
    intro ii hii
    show ((List.range (trellisStates G).length).map _).getD ii 0 = _
    rw [getD_map_lt _ 0 0 _ (by simpa using hii), getD_of_lt 0 (List.range _) (by simpa using hii), List.getElem_range]
  have hne : step ≠ [] := by
    intro e
    have := congrArg List.length e
    rw [hlen] at this
    exact states_ne (G := G) (List.length_eq_zero_iff.1 this)
  obtain ⟨h1, h2, h3⟩ := argmin_getD_spec 0 step hne
  rw [hlen] at h1 h2
  have htab : ∀ m u, Word (memSizes G).sum m → Word G.length u → (trellisStep G fb uf m u).2 = (trellisStates G).getD jj [] →
      ∃ ii < (trellisStates G).length, (trellisStates G).getD ii [] = m ∧ outputTensor G fb uf ii jj = (trellisStep G fb uf m u).1 := by
    intro m u hm hu he
    obtain ⟨ii, hii, e⟩ := state_exists m hm
    refine ⟨ii, hii, e, ?_⟩
    have := lookup_of_step h m u hm hu
    unfold outputTensor
    rw [e, ← he, this]
  refine ⟨h1, ?_⟩
  cases hl : ioLookup G fb uf ((trellisStates G).getD (argmin step) []) ((trellisStates G).getD jj []) with
  | none =>
    exfalso
    obtain ⟨m, u, hm, hu, he, hlt⟩ := hr _ c (hws jj hjj) hc
    obtain ⟨ii, hii, _, ho⟩ := htab m u hm hu he
    have a := h2 ii hii
    rw [hg _ h1, hg _ hii, ho] at a
    unfold outputTensor at a
    rw [hl] at a
    simp only [] at a
    rw [hnO, hammingDist_neg nO c hc] at a
    have := hammingDist_nonneg c (List.replicate nO 0)
    omega
  | some io =>
    obtain ⟨o1, o2⟩ := step_of_lookup hl
    have hin : inputTensor G fb uf (argmin step) jj = io.1 := by unfold inputTensor; rw [hl]
    have hou : outputTensor G fb uf (argmin step) jj = io.2 := by unfold outputTensor; rw [hl]
    refine ⟨io.1, io.2, hin, o1, o2, by rw [hg _ h1, hou], ?_⟩
    intro m' u' hm' hu' he
    obtain ⟨ii, hii, e, ho⟩ := htab m' u' hm' hu' he
    have a := h2 ii hii
    rw [hg _ h1, hg _ hii, ho, hou] at a
    rcases lt_or_eq_of_le a with a | a
    · exact Or.inl a
    · refine Or.inr ⟨a, ?_⟩
      rw [← e]
      have k1 : wordNum ((trellisStates G).getD (argmin step) []) = argmin step := wordNum_state h1
      have k2 : wordNum ((trellisStates G).getD ii []) = ii := wordNum_state hii
      rw [k1, k2]
      by_contra hcon
      have := h3 ii (by omega)
      rw [hg _ h1, hg _ hii, ho, hou] at this
      omega

/-- the forward pass holds the surviving path of every state -/
theorem forward_greedy (hnO : nOut G = nO) (h : GoodTrellis nO G fb uf) (hr : Reached nO G fb uf)
    (cs : List (List Int)) (hne : cs ≠ []) (hcs : ∀ c ∈ cs, Word nO c) :
    ∃ L, viterbiForward G fb uf cs = some L ∧ L.length = (trellisStates G).length ∧
      ∀ jj < (trellisStates G).length, ∃ s us, Greedy G fb uf cs s us (L.getD jj (0, [])).1 ((trellisStates G).getD jj []) ∧
        (L.getD jj (0, [])).2 = us.flatten := by
  induction cs using List.reverseRecOn with
  | nil => exact absurd rfl hne
  | append_singleton cs c ih =>
    have hc : Word nO c := hcs c (by simp)
    have hws : ∀ i < (trellisStates G).length, Word (memSizes G).sum ((trellisStates G).getD i []) :=
      fun i hi => (mem_getBinPerm _ _).1 (mem_of_getD [] _ hi)
    have hg : ∀ prev, ∀ jj < (trellisStates G).length,
        ((List.range (trellisStates G).length).map (viterbiStep G fb uf c prev)).getD jj (0, []) = viterbiStep G fb uf c prev jj := by
      intro prev jj hjj
      rw [getD_map_lt _ 0 (0, []) _ (by simpa using hjj), getD_of_lt 0 (List.range _) (by simpa using hjj), List.getElem_range]
    unfold viterbiForward
    rw [List.foldl_append]
    simp only [List.foldl_cons, List.foldl_nil]
    rcases List.eq_nil_or_concat cs with rfl | ⟨_, _, e⟩
    · refine ⟨_, rfl, by simp, fun jj hjj => ?_⟩
      obtain ⟨h1, u, o, hu, hw, hst, hd, hb⟩ := best_pred hnO h hr c hc jj hjj
      have := Greedy.snoc (Greedy.nil _ (hws _ h1)) hw hst hb
      rw [← hd, add_zero] at this
      refine ⟨(trellisStates G).getD (argmin ((List.range (trellisStates G).length).map
        (fun ii => hammingDist c (outputTensor G fb uf ii jj)))) [], [] ++ [u], ?_, ?_⟩
      · rw [List.foldl_nil, hg none jj hjj]
        exact this
      · rw [List.foldl_nil, hg none jj hjj]
        simp only [viterbiStep, List.nil_append, List.flatten_singleton]
        exact hu
    · have hcsne : cs ≠ [] := by rw [e]; simp
      obtain ⟨L, hL, hll, hS⟩ := ih hcsne (fun x hx => hcs x (by simp [hx]))
      unfold viterbiForward at hL
      rw [hL]
      refine ⟨_, rfl, by simp, fun jj hjj => ?_⟩
      obtain ⟨h1, u, o, hu, hw, hst, hd, hb⟩ := best_pred hnO h hr c hc jj hjj
      obtain ⟨s, us, hp, hbits⟩ := hS _ h1
      have := Greedy.snoc hp hw hst hb
      rw [← hd] at this
      refine ⟨s, us ++ [u], ?_, ?_⟩
      · rw [hg (some L) jj hjj]
        exact this
      · rw [hg (some L) jj hjj]
        simp only [viterbiStep]
        rw [hbits, hu]
        simp

end

end Verif
