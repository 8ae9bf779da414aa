import Verif.Lemmas.Viterbi

/-! Lemmas: the trellis of a described code meets the conditions of the Viterbi lemmas. -/

namespace Verif
open Spec

section
variable {nO : ℕ} {G : ConvG} {fb : Fb}

theorem word_inBit (u : List Int) (_hu : Word G.length u) (i : ℕ) : inBit u G.length i 0 = u.getD i 0 := by
  simp [inBit]

/-- a trellis step from a state written with registers -/
theorem step_registers (h : GoodCode nO G fb) (hpos : 0 < nO) (hf : Fits nO G fb) (u s : List Int)
    (hu : Word G.length u) (hs : Word (memSizes G).sum s) :
    ∃ w : ℕ → ℤ → Int,
      (∀ i < G.length, IsRegister (poly fb i) (inBit u G.length i) (w i) ∧ ∀ t < 0, w i t = 0 ∨ w i t = 1) ∧
      stateAt G w 0 = s ∧
      trellisStep G (fb.map Prod.fst) (fb.map Prod.snd) s u
        = ((List.range nO).map (fun j => encBit G.length (tf G) (fun i j => isDirect fb i j = true)
            (inBit u G.length) w j 0), stateAt G w 1) := by
  obtain ⟨w, hw, hst⟩ := state_registers h u s hs
  refine ⟨w, hw, hst, ?_⟩
  rw [← hst, trellisStep_eq (goodCode_fits h hpos hf) (fb.map Prod.snd) (inBit u G.length) w 0 le_rfl u
    (fun i _ => word_inBit u hu i) (fun i _ => inBit_binary hu.2 _ _ _) (fun i hi => by rw [fbAt_spec]; exact (hw i hi).1)]
  refine Prod.ext ?_ rfl
  simp only []
  apply List.map_congr_left
  intro j _
  exact encBit_congr _ _ _ _ _ _ _ _ (fun i _ => direct_spec fb i j)

theorem stateAt_inj {w w' : ℕ → ℤ → Int} {t t' : ℤ} (h : stateAt G w t = stateAt G w' t') (i : ℕ) (hi : i < G.length)
    (k : ℕ) (hk : k < memOf G i) : w i (t - 1 - k) = w' i (t' - 1 - k) := by
  have h1 := splitMem_stateAt G w t i hi
  rw [h, splitMem_stateAt G w' t' i hi] at h1
  have h2 := congrArg (fun l => l.getD k 0) h1
  unfold cells at h2
  rw [getD_map_lt _ 0 0 _ (by simpa using hk), getD_map_lt _ 0 0 _ (by simpa using hk),
    getD_of_lt 0 (List.range _) (by simpa using hk), List.getElem_range] at h2
  exact h2.symm

theorem stateAt_congr {w w' : ℕ → ℤ → Int} {t t' : ℤ}
    (h : ∀ i < G.length, ∀ k < memOf G i, w i (t - 1 - k) = w' i (t' - 1 - k)) : stateAt G w t = stateAt G w' t' := by
  unfold stateAt
  congr 1
  apply List.map_congr_left
  intro i hi
  unfold cells
  apply List.map_congr_left
  intro k hk
  exact h i (List.mem_range.1 hi) k (List.mem_range.1 hk)

theorem memOf_lt (h : GoodCode nO G fb) (_hpos : 0 < nO) (i j : ℕ) (hi : i < G.length) (hj : j < nO) :
    memOf G i + 1 = (tf G i j).length := by
  obtain ⟨h1, h2⟩ := goodG_len h.1 hi hj
  show cols (G.getD i []) - 1 + 1 = (gAt G i j).length
  omega

theorem goodTrellis (h : GoodCode nO G fb) (hpos : 0 < nO) (hf : Fits nO G fb) (hm : HasMemory nO G) :
    GoodTrellis nO G (fb.map Prod.fst) (fb.map Prod.snd) := by
  refine ⟨fun s u hs hu => ?_, fun s u u' hs hu hu' he => ?_⟩
  · obtain ⟨w, hw, _, e⟩ := step_registers h hpos hf u s hu hs
    rw [e]
    exact ⟨by simp, stateAt_word G w 1 (fun i hi t _ => register_binary (hw i hi).1 (hw i hi).2 t)⟩
  · obtain ⟨w, hw, hst, e⟩ := step_registers h hpos hf u s hu hs
    obtain ⟨w', hw', hst', e'⟩ := step_registers h hpos hf u' s hu' hs
    rw [e, e'] at he
    simp only [] at he
    apply ext_getD 0 (by rw [hu.1, hu'.1])
    intro i hi
    rw [hu.1] at hi
    have hmem : 0 < memOf G i := by
      have h1 := memOf_lt h hpos i 0 hi hpos
      have h2 := hm i 0 hi hpos
      omega
    have h0 := stateAt_inj he i hi 0 hmem
    simp only [sub_self, Nat.cast_zero] at h0
    rw [(hw i hi).1 0 le_rfl, (hw' i hi).1 0 le_rfl, word_inBit u hu, word_inBit u' hu'] at h0
    have hsum : ∀ d ∈ Finset.range ((poly fb i).length - 1), (poly fb i).getD (d + 1) 0 * w i (0 - (d + 1))
        = (poly fb i).getD (d + 1) 0 * w' i (0 - (d + 1)) := by
      intro d hd
      rw [Finset.mem_range] at hd
      have hlen : (poly fb i).length ≤ memOf G i + 1 := by
        rw [memOf_lt h hpos i 0 hi hpos]
        match fb, hf, hd with
        | none, _, hd => simp [poly] at hd
        | some (l, fl), hf, hd =>
          have := (hf l fl rfl i 0 hi hpos).1
          unfold poly polyOf
          unfold poly polyOf at hd
          simp only [] at hd ⊢
          cases hl : l.getD i none with
          | none => rw [hl] at hd; simp at hd
          | some f => rw [Option.getD_some, this f hl]
      have := stateAt_inj (hst.trans hst'.symm) i hi d (by omega)
      rw [show (0:ℤ) - (↑d + 1) = 0 - 1 - ↑d by ring, this]
    rw [Finset.sum_congr rfl hsum] at h0
    have b1 := binary_getD hu.2 i
    have b2 := binary_getD hu'.2 i
    rcases b1 with b1 | b1 <;> rcases b2 with b2 | b2 <;> rw [b1, b2] at h0 ⊢ <;> omega

theorem distinctIn (h : GoodCode nO G fb) (hpos : 0 < nO) (hf : Fits nO G fb) (hid : Identified nO G fb) :
    DistinctIn G (fb.map Prod.fst) (fb.map Prod.snd) := by
  intro s s' u u' hs hs' hu hu' he
  obtain ⟨w, hw, hst, e⟩ := step_registers h hpos hf u s hu hs
  obtain ⟨w', hw', hst', e'⟩ := step_registers h hpos hf u' s' hu' hs'
  rw [e, e'] at he
  have he1 := congrArg Prod.fst he
  have he2 := congrArg Prod.snd he
  simp only [] at he1 he2
  have := (hid u u' w w' hu hu' hw hw' (fun j hj => by
      have := congrArg (fun l => l.getD j 0) he1
      rwa [getD_map_lt _ 0 0 _ (by simpa using hj), getD_map_lt _ 0 0 _ (by simpa using hj),
        getD_of_lt 0 (List.range _) (by simpa using hj), List.getElem_range] at this)
    (fun i hi k hk => by
      have := stateAt_inj he2 i hi k (by rw [← memOf_lt h hpos i 0 hi hpos] at hk; omega)
      simpa using this)).1
  rw [← hst, ← hst']
  apply stateAt_congr
  intro i hi k hk
  have := this i hi k (by rw [← memOf_lt h hpos i 0 hi hpos]; omega)
  simpa using this

/-- a walk is a path -/
theorem walk_path {fb : ConvFb} {uf : ConvUf} (hg : GoodTrellis nO G fb uf) (s : List Int) (hs : Word (memSizes G).sum s) (us : List (List Int))
    (hus : ∀ u ∈ us, Word G.length u) :
    ∃ cs, Path G fb uf s us cs (trellisWalk G fb uf s us).2 ∧ (trellisWalk G fb uf s us).1 = cs.flatten ∧
      ∀ c ∈ cs, c.length = nO := by
  induction us using List.reverseRecOn with
  | nil => exact ⟨[], Path.nil, rfl, by simp⟩
  | append_singleton us u ih =>
    obtain ⟨cs, h1, h2, h3⟩ := ih (fun x hx => hus x (by simp [hx]))
    have hu := hus u (by simp)
    rw [trellisWalk_snoc]
    refine ⟨cs ++ [(trellisStep G fb uf (trellisWalk G fb uf s us).2 u).1], Path.snoc h1 hu rfl, by
      rw [List.flatten_append, List.flatten_singleton, h2], ?_⟩
    intro c hc
    rw [List.mem_append, List.mem_singleton] at hc
    rcases hc with hc | rfl
    · exact h3 c hc
    · exact (hg.out _ u (path_state hg hs h1) hu).1

/-- an error-free block is decoded to data with the same output -/
theorem viterbiBlock_code (h : GoodCode nO G fb) (hpos : 0 < nO) (hf : Fits nO G fb) (hm : HasMemory nO G)
    (hid : Identified nO G fb) {n : ℕ} (hn : 0 < n) (b v : List Int) (hb : IsBinary b) (hbl : b.length / nO = n)
    (hv : Word (G.length * n) v) (c : ℕ → Int) (hc : IsCode nO n G fb v c) (hcb : ∀ i < n * nO, c i = b.getD i 0) :
    ∃ v' last, viterbiBlock G (fb.map Prod.fst) (fb.map Prod.snd) b = .ok (v', last) ∧ Word (G.length * n) v' ∧
      IsCode nO n G fb v' c := by
  have hG : 0 < G.length := List.length_pos_of_ne_nil h.1.1
  have hgt := goodTrellis h hpos hf hm
  have hdi := distinctIn h hpos hf hid
  obtain ⟨s, hs, hq⟩ := isCode_cw h hpos hf 0 v c hv hc
  have hus : ∀ u ∈ rows G.length v, Word G.length u := rows_word _ hv.2
  obtain ⟨cs, p1, p2, p3⟩ := walk_path hgt s hs (rows G.length v) hus
  have hlen : (rows G.length v).length = n := by rw [rows_length, hv.1, Nat.mul_div_cancel_left _ hG]
  have hcsl : cs.length = n := by rw [← (path_walk p1).2.1, hlen]
  have hrows : rows nO b = cs := by
    have hbl' : (rows nO b).length = n := by rw [rows_length, hbl]
    apply ext_getD [] (by rw [hbl', hcsl])
    intro r hr
    rw [hbl'] at hr
    have hl1 : ((rows nO b).getD r []).length = nO := mem_rows_length _ _ _ (mem_of_getD [] _ (by omega))
    have hl2 : (cs.getD r []).length = nO := p3 _ (mem_of_getD [] _ (by omega))
    apply ext_getD 0 (by rw [hl1, hl2])
    intro j hj
    rw [hl1] at hj
    have hidx : r * nO + j < n * nO := by
      calc r * nO + j < r * nO + nO := by omega
        _ = (r + 1) * nO := by ring
        _ ≤ n * nO := Nat.mul_le_mul_right _ hr
    rw [rows_getD 0 _ _ r j (by omega) hj, ← hcb _ hidx, ← hq]
    unfold seq cw
    rw [List.replicate_zero, List.append_nil, p2, flatten_getD 0 nO cs p3 r j (by omega) hj]
  have hnl : nO ≤ b.length := by
    by_contra hcon
    rw [Nat.div_eq_of_lt (by omega)] at hbl
    omega
  rw [← hrows] at p1
  obtain ⟨v', last, s', us', e', h1, h2, h3, h4⟩ := viterbiBlock_path hpos (goodG_nOut h.1) hgt hdi b hb hnl s _ _ hs p1
  obtain ⟨w1, w2, w3⟩ := path_walk h3
  have hul : us'.length = n := by rw [w2, rows_length, hbl]
  have huu : ∀ r ∈ us', r.length = G.length := fun r hr => (w3 r hr).1
  have hv' : Word (G.length * n) v' := by
    rw [h4]
    refine ⟨by rw [flatten_uniform_length _ _ huu, hul, Nat.mul_comm], ?_⟩
    intro x hx
    rw [List.mem_flatten] at hx
    obtain ⟨r, hr, hx⟩ := hx
    exact (w3 r hr).2 x hx
  refine ⟨v', last, h1, hv', ?_⟩
  have hcode := (cw_isCode h hpos hf 0 s' v' h2 hv').1
  have : seq (cw G (fb.map Prod.fst) (fb.map Prod.snd) 0 s' v') = c := by
    funext q
    rw [← hq q]
    unfold seq cw
    rw [h4, rows_flatten _ hG _ huu, w1, hrows, p2]
  rwa [this] at hcode

end

end Verif

namespace Verif
open Spec

section
variable {nO : ℕ} {G : ConvG} {fb : Fb}

theorem hammingDist_neg (n : ℕ) (c : List Int) (hc : Word n c) :
    hammingDist c (List.replicate n (-1)) = n + hammingDist c (List.replicate n 0) := by
  induction n generalizing c with
  | zero => have := List.length_eq_zero_iff.1 hc.1; subst this; simp [hammingDist]
  | succ n ih =>
    cases c with
    | nil => have := hc.1; simp at this
    | cons a c =>
      have ha := hc.2 a (by simp)
      have h2 := ih c ⟨by simpa using hc.1, fun x hx => hc.2 x (by simp [hx])⟩
      unfold hammingDist at h2 ⊢
      rw [List.replicate_succ, List.replicate_succ, List.zipWith_cons_cons, List.zipWith_cons_cons, List.sum_cons,
        List.sum_cons, h2]
      have : |a - (-1)| = 1 + |a - 0| := by rcases ha with rfl | rfl <;> decide
      rw [this]
      push_cast
      ring

/-- the zero transition -/
theorem step_zeros (h : GoodCode nO G fb) (hpos : 0 < nO) (hf : Fits nO G fb) :
    trellisStep G (fb.map Prod.fst) (fb.map Prod.snd) (List.replicate (memSizes G).sum 0) (List.replicate G.length 0)
      = (List.replicate nO 0, List.replicate (memSizes G).sum 0) := by
  have hz := stateAt_zero G (fun _ _ => 0) (fun _ _ _ _ => rfl)
  have e := trellisStep_eq (goodCode_fits h hpos hf) (fb.map Prod.snd) (fun _ _ => 0) (fun _ _ => 0) 0 le_rfl
    (List.replicate G.length 0) (fun i _ => by simp [List.getD_eq_getElem?_getD, List.getElem?_replicate]; split <;> rfl)
    (fun _ _ => Or.inl rfl) (fun i _ t _ => by simp)
  rw [hz] at e
  rw [e]
  refine Prod.ext ?_ ?_
  · simp only []
    apply List.ext_getElem (by simp)
    intro j _ _
    simp [encBit, tapSum]
  · simp only []
    rw [← hz]
    apply stateAt_congr
    intros
    rfl

/-- a block of one chunk is decoded to the best transition -/
theorem viterbiBlock_single (h : GoodCode nO G fb) (hpos : 0 < nO) (hf : Fits nO G fb) (hm : HasMemory nO G)
    (b : List Int) (hb : IsBinary b) (hbl : b.length / nO = 1) :
    ∃ v last s, viterbiBlock G (fb.map Prod.fst) (fb.map Prod.snd) b = .ok (v, last) ∧ Word G.length v ∧
      Word (memSizes G).sum s ∧
      ∀ s' v', Word (memSizes G).sum s' → Word G.length v' →
        hammingDist (b.take nO) (trellisStep G (fb.map Prod.fst) (fb.map Prod.snd) s v).1 ≤
          hammingDist (b.take nO) (trellisStep G (fb.map Prod.fst) (fb.map Prod.snd) s' v').1 := by
  have hgt := goodTrellis h hpos hf hm
  have hrows : rows nO b = [b.take nO] := by
    unfold rows
    rw [hbl]
    simp
  have hc : Word nO (b.take nO) := rows_word nO hb _ (by rw [hrows]; simp)
  set c := b.take nO with hcdef
  unfold viterbiBlock
  rw [goodG_nOut h.1, hrows]
  simp only [viterbiForward, List.foldl_cons, List.foldl_nil]
  set fb' := fb.map Prod.fst
  set uf' := fb.map Prod.snd
  set L := (List.range (trellisStates G).length).map (viterbiStep G fb' uf' c none) with hL
  have hg : ∀ jj < (trellisStates G).length, L.getD jj (0, []) = viterbiStep G fb' uf' c none jj := by
    intro jj hjj
    rw [hL, getD_map_lt _ 0 (0, []) _ (by simpa using hjj), getD_of_lt 0 (List.range _) (by simpa using hjj), List.getElem_range]
  have hml : (L.map (·.1)).length = (trellisStates G).length := by simp [hL]
  have hmne : L.map (·.1) ≠ [] := by
    intro e
    have := congrArg List.length e
    rw [hml] at this
    exact states_ne (G := G) (List.length_eq_zero_iff.1 this)
  obtain ⟨h1, h2, _⟩ := argmin_getD_spec 0 (L.map (·.1)) hmne
  rw [hml] at h1 h2
  have hg1 : ∀ i < (trellisStates G).length, (L.map (·.1)).getD i 0 = (viterbiStep G fb' uf' c none i).1 := fun i hi => by
    rw [← hg i hi]
    exact getD_map_lt _ (0, []) 0 _ (by simp [hL]; exact hi)
  set jj := argmin (L.map (·.1)) with hjj
  obtain ⟨ii, hii⟩ : ∃ ii, ii = argmin ((List.range (trellisStates G).length).map (fun ii => hammingDist c (outputTensor G fb' uf' ii jj))) := ⟨_, rfl⟩
  obtain ⟨a1, a2, a3⟩ := step_argmin (G := G) (fb := fb') (uf := uf') c jj
  rw [← hii] at a1 a2
  -- the chosen transition is the best of all
  have hbest : ∀ i < (trellisStates G).length, ∀ j < (trellisStates G).length,
      hammingDist c (outputTensor G fb' uf' ii jj) ≤ hammingDist c (outputTensor G fb' uf' i j) := by
    intro i hi j hj
    have := h2 j hj
    rw [hg1 j hj, hg1 jj h1] at this
    obtain ⟨_, _, b3⟩ := step_argmin (G := G) (fb := fb') (uf := uf') c j
    have h5 := b3 i hi
    have h6 : (viterbiStep G fb' uf' c none jj).1 = hammingDist c (outputTensor G fb' uf' ii jj) := by
      unfold viterbiStep
      simp only []
      rw [← hii]
      exact a2
    rw [← h6]
    exact this.trans h5
  have hbits : (L.getD jj (0, [])).2 = inputTensor G fb' uf' ii jj := by
    rw [hg jj h1, hii]
    rfl
  rw [hbits]
  have hws : ∀ i < (trellisStates G).length, Word (memSizes G).sum ((trellisStates G).getD i []) :=
    fun i hi => (mem_getBinPerm _ _).1 (mem_of_getD [] _ hi)
  -- transitions and their table entries
  have htab : ∀ s' v', Word (memSizes G).sum s' → Word G.length v' →
      hammingDist c (outputTensor G fb' uf' ii jj) ≤ hammingDist c (trellisStep G fb' uf' s' v').1 := by
    intro s' v' hs' hv'
    obtain ⟨i, hi, ei⟩ := state_exists s' hs'
    obtain ⟨j, hj, ej⟩ := state_exists _ (hgt.out s' v' hs' hv').2
    have hl := lookup_of_step hgt s' v' hs' hv'
    have : outputTensor G fb' uf' i j = (trellisStep G fb' uf' s' v').1 := by
      unfold outputTensor
      rw [ei, ej, hl]
    rw [← this]
    exact hbest i hi j hj
  have hsome : ∃ io, ioLookup G fb' uf' ((trellisStates G).getD ii []) ((trellisStates G).getD jj []) = some io := by
    cases hl : ioLookup G fb' uf' ((trellisStates G).getD ii []) ((trellisStates G).getD jj []) with
    | some io => exact ⟨io, rfl⟩
    | none =>
      exfalso
      have hz := htab (List.replicate (memSizes G).sum 0) (List.replicate G.length 0)
        ⟨by simp, fun x hx => Or.inl (List.eq_of_mem_replicate hx)⟩ ⟨by simp, fun x hx => Or.inl (List.eq_of_mem_replicate hx)⟩
      rw [step_zeros h hpos hf] at hz
      unfold outputTensor at hz
      rw [hl] at hz
      simp only [] at hz
      rw [goodG_nOut h.1, hammingDist_neg nO c hc] at hz
      omega
  obtain ⟨io, hio⟩ := hsome
  obtain ⟨o1, o2⟩ := step_of_lookup hio
  have hin : inputTensor G fb' uf' ii jj = io.1 := by unfold inputTensor; rw [hio]
  have hou : outputTensor G fb' uf' ii jj = io.2 := by unfold outputTensor; rw [hio]
  refine ⟨_, _, (trellisStates G).getD ii [], rfl, by rw [hin]; exact o1, hws ii a1, fun s' v' hs' hv' => ?_⟩
  rw [hin, o2]
  have := htab s' v' hs' hv'
  rw [hou] at this
  exact this

theorem decodingConvViterbi_eq (h : GoodCode nO G fb) (hpos : 0 < nO) (hf : Fits nO G fb)
    {p : List Int} (hp : IsBinary p) (tb : ℕ) (htb : 0 < tb) (bl : List (List Int × Nat))
    (hb : (rows tb p).mapM (viterbiBlock G (fb.map Prod.fst) (fb.map Prod.snd)) = .ok bl) (x : List Int × Nat)
    (hx : bl.getLast? = some x) :
    decodingConvViterbi p G tb (fb.map Prod.fst) (fb.map Prod.snd) = .ok ((bl.map (·.1)).flatten, x.2) := by
  have hG : 0 < G.length := List.length_pos_of_ne_nil h.1.1
  unfold decodingConvViterbi
  rw [goodCode_check h hp]
  simp only [bind, Except.bind]
  rw [if_neg (by omega), goodG_nOut h.1, if_neg (by omega), trellisCheck_ok (goodCode_fits h hpos hf)]
  simp only []
  rw [hb]
  simp only []
  rw [hx]
  rfl

end

end Verif
