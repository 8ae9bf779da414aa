import Verif.Lemmas.ConvCode

/-! Lemmas: the codebook of the exhaustive decoder is the set of register outputs. -/

namespace Verif
open Spec

theorem splitMem_lengths (ms : List ℕ) (s : List Int) (h : s.length = ms.sum) :
    (splitMem ms s).map List.length = ms ∧ (splitMem ms s).flatten = s := by
  induction ms generalizing s with
  | nil =>
    rw [List.sum_nil, List.length_eq_zero_iff] at h
    subst h
    exact ⟨rfl, rfl⟩
  | cons m ms ih =>
    rw [List.sum_cons] at h
    obtain ⟨h1, h2⟩ := ih (s.drop m) (by simp; omega)
    constructor
    · simp only [splitMem, List.map_cons, List.length_take, h1]
      congr 1
      omega
    · simp only [splitMem, List.flatten_cons, h2]
      exact List.take_append_drop m s

/-- every binary state vector is the state of some registers with binary past -/
theorem state_registers {nO : ℕ} {G : ConvG} {fb : Fb} (_h : GoodCode nO G fb) (v s : List Int)
    (hs : Word (memSizes G).sum s) :
    ∃ w : ℕ → ℤ → Int, (∀ i < G.length, IsRegister (poly fb i) (inBit v G.length i) (w i) ∧
      ∀ t < 0, w i t = 0 ∨ w i t = 1) ∧ stateAt G w 0 = s := by
  obtain ⟨h1, h2⟩ := splitMem_lengths (memSizes G) s hs.1
  set mems := splitMem (memSizes G) s with hm
  have : ∀ i, ∃ w : ℤ → Int, IsRegister (poly fb i) (inBit v G.length i) w ∧ ∀ k : ℕ, w (-1 - k) = (mems.getD i []).getD k 0 :=
    fun i => exists_register _ _ _
  choose w hw using this
  have hbin : ∀ m ∈ mems, IsBinary m := by
    intro m hm' x hx
    apply hs.2
    rw [← h2, List.mem_flatten]
    exact ⟨m, hm', hx⟩
  have hml : mems.length = G.length := by
    have := congrArg List.length h1
    simpa [memSizes] using this
  refine ⟨w, fun i hi => ⟨(hw i).1, fun t ht => ?_⟩, ?_⟩
  · have := (hw i).2 (-1 - t).toNat
    rw [show (-1 : ℤ) - ((-1 - t).toNat : ℤ) = t by omega] at this
    rw [this]
    exact binary_getD (hbin _ (mem_of_getD [] _ (by rw [hml]; exact hi))) _
  · unfold stateAt
    rw [← h2]
    congr 1
    apply ext_getD [] (by simp [hml])
    intro i hi
    have hi' : i < G.length := by simpa using hi
    rw [getD_map_lt _ 0 [] _ (by simpa using hi'), getD_of_lt 0 (List.range _) (by simpa using hi'), List.getElem_range]
    have hlen : (mems.getD i []).length = memOf G i := by
      have e : (mems.map List.length).getD i 0 = (mems.getD i []).length := getD_map_lt _ [] 0 _ (by omega)
      rw [← e, h1, memSizes_eq, getD_map_lt _ 0 0 _ (by simpa using hi'),
        getD_of_lt 0 (List.range _) (by simpa using hi'), List.getElem_range]
    apply ext_getD 0 (by rw [hlen]; simp [cells])
    intro k hk
    have hk' : k < memOf G i := by simpa [cells] using hk
    unfold cells
    rw [getD_map_lt _ 0 0 _ (by simpa using hk'), getD_of_lt 0 (List.range _) (by simpa using hk'), List.getElem_range,
      ← (hw i).2 k]
    congr 1

theorem stateAt_word (G : ConvG) (w : ℕ → ℤ → Int) (t : ℤ) (hw : ∀ i < G.length, ∀ s < t, w i s = 0 ∨ w i s = 1) :
    Word (memSizes G).sum (stateAt G w t) := by
  constructor
  · unfold stateAt
    rw [List.length_flatten, List.map_map, memSizes_eq]
    congr 1
    apply List.map_congr_left
    intro i _
    simp [cells]
  · intro x hx
    unfold stateAt at hx
    rw [List.mem_flatten] at hx
    obtain ⟨r, hr, hx⟩ := hx
    rw [List.mem_map] at hr
    obtain ⟨i, hi, rfl⟩ := hr
    rw [List.mem_range] at hi
    unfold cells at hx
    rw [List.mem_map] at hx
    obtain ⟨k, _, rfl⟩ := hx
    exact hw i hi _ (by omega)

theorem register_binary {f : List Int} {x w : ℤ → Int} (h : IsRegister f x w) (h0 : ∀ t < 0, w t = 0 ∨ w t = 1) (t : ℤ) :
    w t = 0 ∨ w t = 1 := by
  rcases lt_or_ge t 0 with ht | ht
  · exact h0 t ht
  · rw [h t ht]
    exact Int.emod_two_eq_zero_or_one _

/-- codeword of a start state and data as in the codebook -/
def cw (G : ConvG) (fb : ConvFb) (uf : ConvUf) (rest : ℕ) (s v : List Int) : List Int :=
  (trellisWalk G fb uf s (rows G.length v)).1 ++ List.replicate rest 0

theorem getD_append_zeros (l : List Int) (r q : ℕ) : (l ++ List.replicate r 0).getD q 0 = l.getD q 0 := by
  rcases Nat.lt_or_ge q l.length with h | h
  · simp [List.getD_eq_getElem?_getD, List.getElem?_append_left h]
  · rw [getD_of_le 0 l h]
    simp only [List.getD_eq_getElem?_getD]
    rw [List.getElem?_append_right h, List.getElem?_replicate]
    split <;> rfl

section
variable {nO n : ℕ} {G : ConvG} {fb : Fb}

theorem padTo_word {nIn : ℕ} (hG : 0 < nIn) {v : List Int} (hv : v.length = nIn * n) :
    padTo nIn v = v ∧ nBlocks v.length nIn = n := by
  have h0 : v.length % nIn = 0 := by rw [hv]; simp
  constructor
  · unfold padTo
    rw [nBlocks_of_mod _ _ hG, if_neg (by omega)]
    simp
  · have := nBlocks_of_mod v.length nIn hG
    rw [if_neg (by omega)] at this
    have h1 := (nBlocks_mul_ge v.length nIn hG).1
    have h2 : nBlocks v.length nIn * nIn = nIn * n := by omega
    rw [Nat.mul_comm] at h2
    exact Nat.eq_of_mul_eq_mul_left hG h2

/-- the walk from the state of given registers, as a sequence -/
theorem cw_getD (h : GoodCode nO G fb) (hpos : 0 < nO) (hf : Fits nO G fb) (rest : ℕ) (v : List Int)
    (hv : Word (G.length * n) v) (w : ℕ → ℤ → Int)
    (hw : ∀ i < G.length, IsRegister (poly fb i) (inBit v G.length i) (w i)) :
    (cw G (fb.map Prod.fst) (fb.map Prod.snd) rest (stateAt G w 0) v).length = n * nO + rest ∧
    (∀ t j, t < n → j < nO →
      (cw G (fb.map Prod.fst) (fb.map Prod.snd) rest (stateAt G w 0) v).getD (t * nO + j) 0
        = encBit G.length (tf G) (fun i j => isDirect fb i j = true) (inBit v G.length) w j t) ∧
    ∀ q, n * nO ≤ q → (cw G (fb.map Prod.fst) (fb.map Prod.snd) rest (stateAt G w 0) v).getD q 0 = 0 := by
  have hG : 0 < G.length := List.length_pos_of_ne_nil h.1.1
  obtain ⟨e1, e2⟩ := padTo_word hG hv.1
  have hwalk := walk_code h hpos hf v hv.2 w hw
  rw [e1, e2] at hwalk
  have huni : ∀ r ∈ (List.range n).map (fun (k : ℕ) => (List.range nO).map (fun j =>
      encBit G.length (tf G) (fun i j => isDirect fb i j = true) (inBit v G.length) w j k)), r.length = nO := by
    intro r hr
    rw [List.mem_map] at hr
    obtain ⟨k, _, rfl⟩ := hr
    simp
  have hl : (trellisWalk G (fb.map Prod.fst) (fb.map Prod.snd) (stateAt G w 0) (rows G.length v)).1.length = n * nO := by
    rw [hwalk]
    simp only []
    rw [flatten_uniform_length nO _ huni]
    simp
  unfold cw
  refine ⟨by rw [List.length_append, hl]; simp, fun t j ht hj => ?_, fun q hq => ?_⟩
  · rw [getD_append_zeros, hwalk]
    simp only []
    rw [flatten_getD 0 nO _ huni _ _ (by simpa using ht) hj,
      getD_map_lt _ 0 [] _ (by simpa using ht), getD_of_lt 0 (List.range _) (by simpa using ht), List.getElem_range,
      getD_map_lt _ 0 0 _ (by simpa using hj), getD_of_lt 0 (List.range _) (by simpa using hj), List.getElem_range]
  · rw [getD_append_zeros, getD_of_le 0 _ (by rw [hl]; exact hq)]

theorem encBit_bin (nIn : ℕ) (g : ℕ → ℕ → List Int) (d : ℕ → ℕ → Prop) [∀ i j, Decidable (d i j)]
    (x w : ℕ → ℤ → Int) (j : ℕ) (t : ℤ) : encBit nIn g d x w j t = 0 ∨ encBit nIn g d x w j t = 1 :=
  Int.emod_two_eq_zero_or_one _

/-- codewords of the codebook are binary words and register outputs -/
theorem cw_isCode (h : GoodCode nO G fb) (hpos : 0 < nO) (hf : Fits nO G fb) (rest : ℕ) (s v : List Int)
    (hs : Word (memSizes G).sum s) (hv : Word (G.length * n) v) :
    IsCode nO n G fb v (seq (cw G (fb.map Prod.fst) (fb.map Prod.snd) rest s v)) ∧
    Word (n * nO + rest) (cw G (fb.map Prod.fst) (fb.map Prod.snd) rest s v) := by
  obtain ⟨w, hw, rfl⟩ := state_registers h v s hs
  obtain ⟨h1, h2, h3⟩ := cw_getD h hpos hf rest v hv w (fun i hi => (hw i hi).1)
  refine ⟨⟨w, hw, h2, h3⟩, h1, ?_⟩
  intro x hx
  obtain ⟨q, hq, rfl⟩ := List.getElem_of_mem hx
  rw [← getD_of_lt 0 _ hq]
  rcases Nat.lt_or_ge q (n * nO) with hq' | hq'
  · have hj : q % nO < nO := Nat.mod_lt _ hpos
    have ht : q / nO < n := Nat.div_lt_of_lt_mul (by rwa [Nat.mul_comm])
    have hij : q / nO * nO + q % nO = q := by rw [Nat.mul_comm]; exact Nat.div_add_mod q nO
    rw [← hij, h2 _ _ ht hj]
    exact encBit_bin _ _ _ _ _ _ _
  · rw [h3 q hq']; exact Or.inl rfl

/-- every register output occurs in the codebook -/
theorem isCode_cw (h : GoodCode nO G fb) (hpos : 0 < nO) (hf : Fits nO G fb) (rest : ℕ) (v : List Int) (c : ℕ → Int)
    (hv : Word (G.length * n) v) (hc : IsCode nO n G fb v c) :
    ∃ s, Word (memSizes G).sum s ∧ ∀ q, seq (cw G (fb.map Prod.fst) (fb.map Prod.snd) rest s v) q = c q := by
  obtain ⟨w, hw, hc1, hc2⟩ := hc
  obtain ⟨h1, h2, h3⟩ := cw_getD h hpos hf rest v hv w (fun i hi => (hw i hi).1)
  refine ⟨stateAt G w 0, stateAt_word G w 0 (fun i hi => (hw i hi).2), fun q => ?_⟩
  unfold seq
  rcases Nat.lt_or_ge q (n * nO) with hq' | hq'
  · have hj : q % nO < nO := Nat.mod_lt _ hpos
    have ht : q / nO < n := Nat.div_lt_of_lt_mul (by rwa [Nat.mul_comm])
    have hij : q / nO * nO + q % nO = q := by rw [Nat.mul_comm]; exact Nat.div_add_mod q nO
    rw [← hij, h2 _ _ ht hj, hc1 _ _ ht hj]
  · rw [h3 q hq', hc2 q hq']

end

/-- all pairs of start state and input word -/
def convPairs (G : ConvG) (n : ℕ) : List (List Int × List Int) :=
  (trellisStates G).flatMap (fun s => (getBinPerm (G.length * n)).map (fun v => (s, v)))

theorem mem_convPairs (G : ConvG) (n : ℕ) (s v : List Int) :
    (s, v) ∈ convPairs G n ↔ Word (memSizes G).sum s ∧ Word (G.length * n) v := by
  unfold convPairs trellisStates
  simp only [List.mem_flatMap, List.mem_map, Prod.mk.injEq]
  constructor
  · rintro ⟨s', hs, v', hv, rfl, rfl⟩
    exact ⟨(mem_getBinPerm _ _).1 hs, (mem_getBinPerm _ _).1 hv⟩
  · rintro ⟨hs, hv⟩
    exact ⟨s, (mem_getBinPerm _ _).2 hs, v, (mem_getBinPerm _ _).2 hv, rfl, rfl⟩

theorem codebook_eq (G : ConvG) (fb : ConvFb) (uf : ConvUf) (tb : ℕ) :
    convCodebook G fb uf tb = (convPairs G (tb / nOut G)).map
      (fun x => cw G fb uf (tb - nOut G * (tb / nOut G)) x.1 x.2) := by
  unfold convCodebook convPairs cw
  rw [List.map_flatMap]
  congr 1
  funext s
  rw [List.map_map]
  rfl

theorem tile_eq (G : ConvG) (n : ℕ) :
    tile (getBinPerm (G.length * n)) (trellisStates G).length = (convPairs G n).map Prod.snd := by
  unfold tile convPairs
  rw [List.map_flatMap]
  simp only [List.map_map]
  induction (trellisStates G) with
  | nil => rfl
  | cons a l ih =>
    rw [List.length_cons, List.replicate_succ, List.flatten_cons, ih, List.flatMap_cons]
    congr 1
    exact (List.map_id _).symm.trans rfl

/-- the block decoder picks a pair whose codeword is nearest -/
theorem convMl_pick {nO : ℕ} {G : ConvG} {fb : Fb} (h : GoodCode nO G fb) (hpos : 0 < nO) (hf : Fits nO G fb) (tb : ℕ)
    (b : List Int) (hb : Word tb b) :
    ∃ v, Word (G.length * (tb / nO)) v ∧
      (tile (getBinPerm (G.length * (tb / nOut G))) (trellisStates G).length).getD
        (argmin ((convCodebook G (fb.map Prod.fst) (fb.map Prod.snd) tb).map (fun c => hammingDist c b))) [] = v ∧
      ∃ c, IsCode nO (tb / nO) G fb v c ∧
        ∀ v' c', Word (G.length * (tb / nO)) v' → IsCode nO (tb / nO) G fb v' c' →
          dist tb c (seq b) ≤ dist tb c' (seq b) := by
  rw [codebook_eq, tile_eq, goodG_nOut h.1]
  set n := tb / nO with hn
  have hrest : n * nO + (tb - nO * n) = tb := by
    have : nO * n ≤ tb := Nat.mul_div_le tb nO
    rw [Nat.mul_comm n nO]; omega
  set F := (fun x : List Int × List Int => cw G (fb.map Prod.fst) (fb.map Prod.snd) (tb - nO * n) x.1 x.2) with hF
  have hz : (List.replicate (memSizes G).sum (0:Int), List.replicate (G.length * n) (0:Int)) ∈ convPairs G n := by
    rw [mem_convPairs]
    exact ⟨⟨by simp, fun x hx => Or.inl (List.eq_of_mem_replicate hx)⟩, ⟨by simp, fun x hx => Or.inl (List.eq_of_mem_replicate hx)⟩⟩
  have hne : (convPairs G n).map F ≠ [] := by
    intro e
    rw [List.map_eq_nil_iff] at e
    rw [e] at hz
    simp at hz
  obtain ⟨i, hi, he, hmin, _⟩ := ml_pick ((convPairs G n).map F) ((convPairs G n).map F) rfl hne b
  rw [he]
  rw [List.length_map] at hi hmin
  have hmem := mem_of_getD ([], []) _ hi
  obtain ⟨x, hx⟩ : ∃ x, x = (convPairs G n).getD i ([], []) := ⟨_, rfl⟩
  rw [← hx] at hmem
  obtain ⟨hs, hv⟩ := (mem_convPairs G n x.1 x.2).1 hmem
  have hg : ((convPairs G n).map F).getD i [] = F x := by
    rw [hx]; exact getD_map_lt _ ([], []) [] _ hi
  refine ⟨x.2, hv, by rw [hx]; exact getD_map_lt _ ([], []) [] _ hi, seq (F x), (cw_isCode h hpos hf _ _ _ hs hv).1, ?_⟩
  intro v' c' hv' hc'
  obtain ⟨s', hs', hq⟩ := isCode_cw h hpos hf (tb - nO * n) v' c' hv' hc'
  have hm' := (mem_convPairs G n s' v').2 ⟨hs', hv'⟩
  obtain ⟨j, hj, hje⟩ := List.getElem_of_mem hm'
  have := hmin j hj
  rw [hg, getD_map_lt _ ([], []) [] _ hj, getD_of_lt ([], []) _ hj, hje] at this
  have w1 := (cw_isCode h hpos hf (tb - nO * n) _ _ hs hv).2
  have w2 := (cw_isCode h hpos hf (tb - nO * n) _ _ hs' hv').2
  rw [hrest] at w1 w2
  rw [hF] at this
  simp only [] at this
  rw [hammingDist_eq tb _ _ w1 hb, hammingDist_eq tb _ _ w2 hb] at this
  rw [dist_congr tb (a := c') (fun q _ => (hq q).symm) (fun _ _ => rfl)]
  exact_mod_cast this

end Verif
