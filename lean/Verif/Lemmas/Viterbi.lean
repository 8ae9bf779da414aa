import Verif.Lemmas.ConvStream

/-! Lemmas: survivors of the Viterbi forward pass. -/

namespace Verif
open Spec

theorem hammingDist_neg_pos (n : ℕ) (hn : 0 < n) (c : List Int) (hc : Word n c) :
    0 < hammingDist c (List.replicate n (-1)) := by
  cases c with
  | nil => have := hc.1; simp at this; omega
  | cons a c =>
    obtain ⟨m, rfl⟩ : ∃ m, n = m + 1 := ⟨n - 1, by omega⟩
    have ha := hc.2 a (by simp)
    rw [List.replicate_succ]
    have : hammingDist (a :: c) ((-1) :: List.replicate m (-1)) = |a - (-1)| + hammingDist c (List.replicate m (-1)) := by
      unfold hammingDist
      rw [List.zipWith_cons_cons, List.sum_cons]
    rw [this]
    have h2 := hammingDist_nonneg c (List.replicate m (-1))
    have : 0 < |a - (-1)| := by rcases ha with rfl | rfl <;> decide
    omega

/-- a path through the trellis: start, inputs, outputs, end -/
inductive Path (G : ConvG) (fb : ConvFb) (uf : ConvUf) (s : List Int) :
    List (List Int) → List (List Int) → List Int → Prop
  | nil : Path G fb uf s [] [] s
  | snoc {us cs m u c e} : Path G fb uf s us cs m → Word G.length u → trellisStep G fb uf m u = (c, e) →
      Path G fb uf s (us ++ [u]) (cs ++ [c]) e

section
variable {G : ConvG} {fb : ConvFb} {uf : ConvUf}

theorem trellisWalk_snoc (s u : List Int) (us : List (List Int)) :
    trellisWalk G fb uf s (us ++ [u]) =
      ((trellisWalk G fb uf s us).1 ++ (trellisStep G fb uf (trellisWalk G fb uf s us).2 u).1,
        (trellisStep G fb uf (trellisWalk G fb uf s us).2 u).2) := by
  induction us generalizing s with
  | nil => simp [trellisWalk]
  | cons a us ih => simp [trellisWalk, ih]

theorem path_walk {s e : List Int} {us cs : List (List Int)} (h : Path G fb uf s us cs e) :
    trellisWalk G fb uf s us = (cs.flatten, e) ∧ us.length = cs.length ∧ ∀ u ∈ us, Word G.length u := by
  induction h with
  | nil => exact ⟨rfl, rfl, by simp⟩
  | snoc hp hu hstep ih =>
    obtain ⟨h1, h2, h3⟩ := ih
    refine ⟨?_, by simp [h2], ?_⟩
    · rw [trellisWalk_snoc, h1]
      simp only []
      rw [hstep]
      simp
    · intro u' hu'
      rw [List.mem_append, List.mem_singleton] at hu'
      rcases hu' with h | rfl
      · exact h3 u' h
      · exact hu

/-- properties of the trellis used by the decoder -/
structure GoodTrellis (nO : ℕ) (G : ConvG) (fb : ConvFb) (uf : ConvUf) : Prop where
  out : ∀ s u, Word (memSizes G).sum s → Word G.length u →
    (trellisStep G fb uf s u).1.length = nO ∧ Word (memSizes G).sum (trellisStep G fb uf s u).2
  simple : ∀ s u u', Word (memSizes G).sum s → Word G.length u → Word G.length u' →
    (trellisStep G fb uf s u).2 = (trellisStep G fb uf s u').2 → u = u'

theorem lookup_of_step {nO : ℕ} (h : GoodTrellis nO G fb uf) (s u : List Int) (hs : Word (memSizes G).sum s)
    (hu : Word G.length u) :
    ioLookup G fb uf s (trellisStep G fb uf s u).2 = some (u, (trellisStep G fb uf s u).1) := by
  unfold ioLookup
  cases hf : (getBinPerm G.length).reverse.find? (fun u' => (trellisStep G fb uf s u').2 == (trellisStep G fb uf s u).2) with
  | none =>
    rw [List.find?_eq_none] at hf
    have := hf u (by rw [List.mem_reverse]; exact (mem_getBinPerm _ _).2 hu)
    simp at this
  | some u' =>
    have h1 := List.find?_some hf
    have h2 := List.mem_of_find?_eq_some hf
    rw [List.mem_reverse] at h2
    have := h.simple s u' u hs ((mem_getBinPerm _ _).1 h2) hu (by simpa using h1)
    subst this
    rfl

theorem step_of_lookup {s t : List Int} {io : List Int × List Int} (h : ioLookup G fb uf s t = some io) :
    Word G.length io.1 ∧ trellisStep G fb uf s io.1 = (io.2, t) := by
  unfold ioLookup at h
  rw [Option.map_eq_some_iff] at h
  obtain ⟨u, hu, rfl⟩ := h
  have h1 := List.find?_some hu
  have h2 := List.mem_of_find?_eq_some hu
  rw [List.mem_reverse] at h2
  refine ⟨(mem_getBinPerm _ _).1 h2, ?_⟩
  simp only [beq_iff_eq] at h1
  rw [← h1]

end

section
variable {nO : ℕ} {G : ConvG} {fb : ConvFb} {uf : ConvUf}

/-- a transition at distance zero exists and produces the chunk -/
theorem zero_step (hpos : 0 < nO) (hnO : nOut G = nO) (h : GoodTrellis nO G fb uf) (c : List Int) (hc : Word nO c) (ii jj : ℕ)
    (hii : ii < (trellisStates G).length)
    (h0 : hammingDist c (outputTensor G fb uf ii jj) = 0) :
    Word G.length (inputTensor G fb uf ii jj) ∧
    trellisStep G fb uf ((trellisStates G).getD ii []) (inputTensor G fb uf ii jj) = (c, (trellisStates G).getD jj []) := by
  unfold inputTensor
  unfold outputTensor at h0
  cases hl : ioLookup G fb uf ((trellisStates G).getD ii []) ((trellisStates G).getD jj []) with
  | none =>
    rw [hl] at h0
    simp only [] at h0
    rw [hnO] at h0
    have := hammingDist_neg_pos nO hpos c hc
    omega
  | some io =>
    rw [hl] at h0
    simp only [] at h0 ⊢
    obtain ⟨h1, h2⟩ := step_of_lookup hl
    have hs : Word (memSizes G).sum ((trellisStates G).getD ii []) :=
      (mem_getBinPerm _ _).1 (mem_of_getD [] _ hii)
    have hlen := (h.out _ io.1 hs h1).1
    rw [h2] at hlen
    simp only [] at hlen
    have := hammingDist_eq_zero c io.2 (by rw [hc.1, hlen]) h0
    rw [this]
    exact ⟨h1, h2⟩

theorem step_zero (h : GoodTrellis nO G fb uf) (c u : List Int) (ii jj : ℕ)
    (hii : ii < (trellisStates G).length) (hu : Word G.length u)
    (hs : trellisStep G fb uf ((trellisStates G).getD ii []) u = (c, (trellisStates G).getD jj [])) :
    hammingDist c (outputTensor G fb uf ii jj) = 0 := by
  have hw : Word (memSizes G).sum ((trellisStates G).getD ii []) :=
      (mem_getBinPerm _ _).1 (mem_of_getD [] _ hii)
  have hl := lookup_of_step h _ u hw hu
  rw [hs] at hl
  unfold outputTensor
  rw [hl]
  exact hammingDist_self c

/-- invariant of the forward pass after the chunks `cs` -/
structure Survives (G : ConvG) (fb : ConvFb) (uf : ConvUf) (cs : List (List Int)) (L : List (Int × List Int)) : Prop where
  len : L.length = (trellisStates G).length
  nonneg : ∀ jj < (trellisStates G).length, 0 ≤ (L.getD jj (0, [])).1
  sound : ∀ jj < (trellisStates G).length, (L.getD jj (0, [])).1 = 0 →
    ∃ s us, Word (memSizes G).sum s ∧ Path G fb uf s us cs ((trellisStates G).getD jj []) ∧ (L.getD jj (0, [])).2 = us.flatten
  complete : ∀ jj < (trellisStates G).length, ∀ s us, Word (memSizes G).sum s →
    Path G fb uf s us cs ((trellisStates G).getD jj []) → (L.getD jj (0, [])).1 = 0

/-- the transitions into a state have different outputs -/
def DistinctIn (G : ConvG) (fb : ConvFb) (uf : ConvUf) : Prop :=
  ∀ s s' u u', Word (memSizes G).sum s → Word (memSizes G).sum s' → Word G.length u → Word G.length u' →
    trellisStep G fb uf s u = trellisStep G fb uf s' u' → s = s'

theorem states_ne : trellisStates G ≠ [] := by
  intro h
  have : List.replicate (memSizes G).sum (0:Int) ∈ trellisStates G :=
    (mem_getBinPerm _ _).2 ⟨by simp, fun x hx => Or.inl (List.eq_of_mem_replicate hx)⟩
  rw [h] at this
  simp at this

theorem state_exists (s : List Int) (hs : Word (memSizes G).sum s) :
    ∃ ii < (trellisStates G).length, (trellisStates G).getD ii [] = s := by
  have : s ∈ trellisStates G := (mem_getBinPerm _ _).2 hs
  obtain ⟨i, hi, e⟩ := List.getElem_of_mem this
  exact ⟨i, hi, by rw [getD_of_lt [] _ hi, e]⟩

/-- distances of all transitions into `jj` -/
theorem step_argmin (c : List Int) (jj : ℕ) :
    let step := (List.range (trellisStates G).length).map (fun ii => hammingDist c (outputTensor G fb uf ii jj))
    argmin step < (trellisStates G).length ∧
    step.getD (argmin step) 0 = hammingDist c (outputTensor G fb uf (argmin step) jj) ∧
    ∀ ii < (trellisStates G).length, step.getD (argmin step) 0 ≤ hammingDist c (outputTensor G fb uf ii jj) := by
  intro step
  have hlen : step.length = (trellisStates G).length := by simp [step]
  have hg : ∀ ii < (trellisStates G).length, step.getD ii 0 = hammingDist c (outputTensor G fb uf ii jj) := by
    intro ii hii
    show ((List.range (trellisStates G).length).map _).getD ii 0 = _
    rw [getD_map_lt _ 0 0 _ (by simpa using hii), getD_of_lt 0 (List.range _) (by simpa using hii), List.getElem_range]
  have hne : step ≠ [] := by
    intro e
    have := congrArg List.length e
    rw [hlen] at this
    exact states_ne (G := G) (List.length_eq_zero_iff.1 this)
  obtain ⟨h1, h2, _⟩ := argmin_getD_spec 0 step hne
  rw [hlen] at h1 h2
  exact ⟨h1, hg _ h1, fun ii hii => by rw [← hg ii hii]; exact h2 ii hii⟩

theorem path_state {nO : ℕ} (h : GoodTrellis nO G fb uf) {s e : List Int} {us cs : List (List Int)} (hs : Word (memSizes G).sum s)
    (hp : Path G fb uf s us cs e) : Word (memSizes G).sum e := by
  induction hp with
  | nil => exact hs
  | snoc hp hu hstep ih =>
    have := (h.out _ _ ih hu).2
    rw [hstep] at this
    exact this

theorem survives_first (hpos : 0 < nO) (hnO : nOut G = nO) (h : GoodTrellis nO G fb uf) (c : List Int) (hc : Word nO c) :
    Survives G fb uf [c] ((List.range (trellisStates G).length).map (viterbiStep G fb uf c none)) := by
  have hg : ∀ jj < (trellisStates G).length,
      ((List.range (trellisStates G).length).map (viterbiStep G fb uf c none)).getD jj (0, []) = viterbiStep G fb uf c none jj := by
    intro jj hjj
    rw [getD_map_lt _ 0 (0, []) _ (by simpa using hjj), getD_of_lt 0 (List.range _) (by simpa using hjj), List.getElem_range]
  refine ⟨by simp, fun jj hjj => ?_, fun jj hjj h0 => ?_, fun jj hjj s us hs hp => ?_⟩
  · rw [hg jj hjj]
    obtain ⟨_, h2, _⟩ := step_argmin (G := G) (fb := fb) (uf := uf) c jj
    unfold viterbiStep
    simp only []
    rw [h2]
    exact hammingDist_nonneg _ _
  · rw [hg jj hjj] at h0 ⊢
    obtain ⟨h1, h2, _⟩ := step_argmin (G := G) (fb := fb) (uf := uf) c jj
    unfold viterbiStep at h0 ⊢
    simp only [] at h0 ⊢
    rw [h2] at h0
    obtain ⟨hu, hst⟩ := zero_step hpos hnO h c hc _ jj h1 h0
    refine ⟨_, _, (mem_getBinPerm _ _).1 (mem_of_getD [] _ h1), Path.snoc Path.nil hu hst, by simp⟩
  · rw [hg jj hjj]
    obtain ⟨_, h2, h3⟩ := step_argmin (G := G) (fb := fb) (uf := uf) c jj
    unfold viterbiStep
    simp only []
    generalize hcs : [c] = cs at hp
    generalize he : (trellisStates G).getD jj [] = e at hp
    cases hp with
    | nil => simp at hcs
    | @snoc us cs m u c' _ hp hu hstep =>
      have hcs' : cs = [] ∧ c' = c := by
        cases cs with
        | nil => simp at hcs; exact ⟨rfl, hcs.symm⟩
        | cons a cs => simp at hcs
      obtain ⟨rfl, rfl⟩ := hcs'
      obtain ⟨ii, hii, hm⟩ := state_exists m (path_state h hs hp)
      have h0 := step_zero h c' u ii jj hii hu (by rw [hm, he]; exact hstep)
      have := h3 ii hii
      rw [h0] at this
      have h4 := hammingDist_nonneg c' (outputTensor G fb uf (argmin ((List.range (trellisStates G).length).map (fun ii => hammingDist c' (outputTensor G fb uf ii jj)))) jj)
      rw [← h2] at h4
      omega

theorem survives_next (hpos : 0 < nO) (hnO : nOut G = nO) (h : GoodTrellis nO G fb uf) (hd : DistinctIn G fb uf)
    (cs : List (List Int)) (c : List Int) (hc : Word nO c) (L : List (Int × List Int)) (hL : Survives G fb uf cs L) :
    Survives G fb uf (cs ++ [c]) ((List.range (trellisStates G).length).map (viterbiStep G fb uf c (some L))) := by
  have hg : ∀ jj < (trellisStates G).length,
      ((List.range (trellisStates G).length).map (viterbiStep G fb uf c (some L))).getD jj (0, []) = viterbiStep G fb uf c (some L) jj := by
    intro jj hjj
    rw [getD_map_lt _ 0 (0, []) _ (by simpa using hjj), getD_of_lt 0 (List.range _) (by simpa using hjj), List.getElem_range]
  refine ⟨by simp, fun jj hjj => ?_, fun jj hjj h0 => ?_, fun jj hjj s us hs hp => ?_⟩
  · rw [hg jj hjj]
    obtain ⟨h1, h2, _⟩ := step_argmin (G := G) (fb := fb) (uf := uf) c jj
    unfold viterbiStep
    simp only []
    rw [h2]
    exact add_nonneg (hammingDist_nonneg _ _) (hL.nonneg _ h1)
  · rw [hg jj hjj] at h0 ⊢
    obtain ⟨h1, h2, _⟩ := step_argmin (G := G) (fb := fb) (uf := uf) c jj
    unfold viterbiStep at h0 ⊢
    simp only [] at h0 ⊢
    rw [h2] at h0
    have p1 := hammingDist_nonneg c (outputTensor G fb uf (argmin ((List.range (trellisStates G).length).map (fun ii => hammingDist c (outputTensor G fb uf ii jj)))) jj)
    have p2 := hL.nonneg _ h1
    obtain ⟨s, us, hs, hp, hbits⟩ := hL.sound _ h1 (by omega)
    obtain ⟨hu, hst⟩ := zero_step hpos hnO h c hc _ jj h1 (by omega)
    refine ⟨s, _, hs, Path.snoc hp hu hst, by rw [hbits]; simp⟩
  · rw [hg jj hjj]
    obtain ⟨h1, h2, h3⟩ := step_argmin (G := G) (fb := fb) (uf := uf) c jj
    unfold viterbiStep
    simp only []
    generalize hcs : cs ++ [c] = cs' at hp
    generalize he : (trellisStates G).getD jj [] = e at hp
    cases hp with
    | nil => simp at hcs
    | @snoc us cs' m u c' _ hp hu hstep =>
      have hcs' := List.append_inj' hcs rfl
      obtain ⟨rfl, hcc⟩ := hcs'
      have hcc' : c = c' := by simpa using hcc
      subst hcc'
      obtain ⟨ii, hii, hm⟩ := state_exists m (path_state h hs hp)
      have h0 := step_zero h c u ii jj hii hu (by rw [hm, he]; exact hstep)
      have h3' := h3 ii hii
      rw [h0] at h3'
      have h4 := hammingDist_nonneg c (outputTensor G fb uf (argmin ((List.range (trellisStates G).length).map (fun ii => hammingDist c (outputTensor G fb uf ii jj)))) jj)
      rw [h2] at h3'
      have hz := le_antisymm h3' h4
      obtain ⟨hu2, hst2⟩ := zero_step hpos hnO h c hc _ jj h1 hz
      have hmm : m = (trellisStates G).getD (argmin ((List.range (trellisStates G).length).map (fun ii => hammingDist c (outputTensor G fb uf ii jj)))) [] := by
        refine hd _ _ u _ (path_state h hs hp) ((mem_getBinPerm _ _).1 (mem_of_getD [] _ h1)) hu hu2 ?_
        rw [hstep, hst2, he]
      rw [h2, hz, zero_add]
      exact hL.complete _ h1 s us hs (by rw [← hmm]; exact hp)

theorem viterbiForward_survives (hpos : 0 < nO) (hnO : nOut G = nO) (h : GoodTrellis nO G fb uf) (hd : DistinctIn G fb uf)
    (cs : List (List Int)) (hne : cs ≠ []) (hcs : ∀ c ∈ cs, Word nO c) :
    ∃ L, viterbiForward G fb uf cs = some L ∧ Survives G fb uf cs L := by
  induction cs using List.reverseRecOn with
  | nil => exact absurd rfl hne
  | append_singleton cs c ih =>
    have hc : Word nO c := hcs c (by simp)
    unfold viterbiForward
    rw [List.foldl_append]
    simp only [List.foldl_cons, List.foldl_nil]
    rcases List.eq_nil_or_concat cs with rfl | ⟨_, _, e⟩
    · exact ⟨_, rfl, survives_first hpos hnO h c hc⟩
    · have hcsne : cs ≠ [] := by rw [e]; simp
      obtain ⟨L, hL, hS⟩ := ih hcsne (fun x hx => hcs x (by simp [hx]))
      unfold viterbiForward at hL
      rw [hL]
      exact ⟨_, rfl, survives_next hpos hnO h hd cs c hc L hS⟩

/-- a block that is a path is decoded to the inputs of a path with the same output -/
theorem viterbiBlock_path (hpos : 0 < nO) (hnO : nOut G = nO) (h : GoodTrellis nO G fb uf) (hd : DistinctIn G fb uf)
    (b : List Int) (hb : IsBinary b) (hl : nO ≤ b.length) (s e : List Int) (us : List (List Int))
    (hs : Word (memSizes G).sum s) (hp : Path G fb uf s us (rows nO b) e) :
    ∃ v last s' us' e', viterbiBlock G fb uf b = .ok (v, last) ∧ Word (memSizes G).sum s' ∧
      Path G fb uf s' us' (rows nO b) e' ∧ v = us'.flatten := by
  have hne : rows nO b ≠ [] := by
    intro e
    have := congrArg List.length e
    rw [rows_length] at this
    have h2 : 0 < b.length / nO := Nat.div_pos hl hpos
    simp at this
    omega
  obtain ⟨L, hL, hS⟩ := viterbiForward_survives hpos hnO h hd (rows nO b) hne (rows_word nO hb)
  unfold viterbiBlock
  rw [hnO, hL]
  simp only []
  have hml : (L.map (·.1)).length = (trellisStates G).length := by simp [hS.len]
  have hmne : L.map (·.1) ≠ [] := by
    intro e
    have := congrArg List.length e
    rw [hml] at this
    exact states_ne (G := G) (List.length_eq_zero_iff.1 this)
  obtain ⟨h1, h2, _⟩ := argmin_getD_spec 0 (L.map (·.1)) hmne
  rw [hml] at h1 h2
  have hg : ∀ i < (trellisStates G).length, (L.map (·.1)).getD i 0 = (L.getD i (0, [])).1 := fun i hi =>
    getD_map_lt _ (0, []) 0 _ (by rw [hS.len]; exact hi)
  obtain ⟨ii, hii, he⟩ := state_exists e (path_state h hs hp)
  have hz := hS.complete ii hii s us hs (by rw [he]; exact hp)
  have hle := h2 ii hii
  rw [hg _ h1, hg ii hii, hz] at hle
  have := hS.nonneg _ h1
  obtain ⟨s', us', hs', hp', hbits⟩ := hS.sound _ h1 (by omega)
  exact ⟨_, _, s', us', _, rfl, hs', hp', hbits⟩

end

end Verif
