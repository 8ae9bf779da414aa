import Verif.Lemmas.Conv

/-! Lemmas: closed form of the convolutional encoder. -/

namespace Verif
open Spec

theorem forM_ok {α : Type*} (f : α → Py Unit) (l : List α) (h : ∀ a ∈ l, f a = .ok ()) : l.forM f = .ok () := by
  induction l with
  | nil => rfl
  | cons a as ih =>
    show (f a >>= fun _ => as.forM f) = _
    rw [h a (by simp)]
    exact ih (fun b hb => h b (by simp [hb]))

theorem mapM_okP {α β : Type*} (f : α → Py β) (g : α → β) (l : List α) (h : ∀ a ∈ l, f a = .ok (g a)) :
    l.mapM f = .ok (l.map g) := by
  induction l with
  | nil => rfl
  | cons a as ih =>
    rw [List.mapM_cons, h a (by simp), ih (fun b hb => h b (by simp [hb]))]
    rfl

theorem foldlM_okP {α β : Type*} (f : β → α → Py β) (g : β → α → β) (l : List α) (b : β)
    (h : ∀ b, ∀ a ∈ l, f b a = .ok (g b a)) : l.foldlM f b = .ok (l.foldl g b) := by
  induction l generalizing b with
  | nil => rfl
  | cons a as ih =>
    rw [List.foldlM_cons, h b a (by simp)]
    exact ih (g b a) (fun b c hc => h b c (by simp [hc]))

theorem goodG_getD {nO : ℕ} {G : ConvG} (h : GoodG nO G) {i : ℕ} (hi : i < G.length) :
    (G.getD i []).length = nO ∧ ∃ L, 0 < L ∧ ∀ r ∈ G.getD i [], r.length = L ∧ IsBinary r :=
  h.2 _ (mem_of_getD [] _ hi)

theorem goodG_nOut {nO : ℕ} {G : ConvG} (h : GoodG nO G) : nOut G = nO := by
  have : 0 < G.length := List.length_pos_of_ne_nil h.1
  exact (goodG_getD h this).1

theorem goodG_binary {nO : ℕ} {G : ConvG} (h : GoodG nO G) {i j : ℕ} (hi : i < G.length) (hj : j < nO) :
    IsBinary (gAt G i j) := by
  obtain ⟨h1, L, _, h2⟩ := goodG_getD h hi
  exact (h2 _ (mem_of_getD [] _ (by rw [h1]; exact hj))).2

theorem goodG_len {nO : ℕ} {G : ConvG} (h : GoodG nO G) {i j : ℕ} (hi : i < G.length) (hj : j < nO) :
    (gAt G i j).length = cols (G.getD i []) ∧ 0 < cols (G.getD i []) := by
  obtain ⟨h1, L, hL, h2⟩ := goodG_getD h hi
  have a := (h2 _ (mem_of_getD [] _ (show j < _ by rw [h1]; exact hj))).1
  have b := (h2 _ (mem_of_getD [] _ (show 0 < (G.getD i []).length by omega))).1
  unfold gAt cols
  rw [a, b]
  exact ⟨rfl, hL⟩

theorem binary_sum_nonneg {l : List Int} (h : IsBinary l) : 0 ≤ l.sum :=
  List.sum_nonneg (fun x hx => by rcases h x hx with h | h <;> omega)

theorem binary_sum_zero {l : List Int} (h : IsBinary l) (hs : l.sum = 0) (i : ℕ) : l.getD i 0 = 0 := by
  induction l generalizing i with
  | nil => simp
  | cons a l ih =>
    have h' : IsBinary l := fun x hx => h x (by simp [hx])
    have := binary_sum_nonneg h'
    have ha := h a (by simp)
    rw [List.sum_cons] at hs
    cases i with
    | zero => simp; omega
    | succ i => rw [List.getD_cons_succ]; exact ih h' (by omega) i

theorem sum_zero_of_getD {l : List Int} (h : ∀ i, l.getD i 0 = 0) : l.sum = 0 := by
  induction l with
  | nil => rfl
  | cons a l ih =>
    have h0 := h 0
    rw [List.getD_cons_zero] at h0
    rw [List.sum_cons, h0, ih (fun i => by have := h (i + 1); rwa [List.getD_cons_succ] at this)]
    rfl

theorem checkValidConv_none {nO : ℕ} {G : ConvG} (hG : GoodG nO G) {p : List Int} (hp : IsBinary p) (uf : ConvUf) :
    checkValidConv p G none uf = .ok () := by
  unfold checkValidConv
  rw [checkBinary_ok hp]
  apply forM_ok
  intro i hi
  rw [List.mem_range] at hi
  unfold checkInput
  rw [checkBinary_ok]
  · rfl
  · intro x hx
    rw [List.mem_flatten] at hx
    obtain ⟨r, hr, hx⟩ := hx
    obtain ⟨_, L, _, h2⟩ := goodG_getD hG hi
    exact (h2 r hr).2 x hx

theorem checkValidConv_some {nO : ℕ} {G : ConvG} (hG : GoodG nO G) {p : List Int} (hp : IsBinary p)
    {l : List (Option (List Int))} {u : List (List Int)} (hF : GoodFb nO G l u) :
    checkValidConv p G (some l) (some u) = .ok () := by
  unfold checkValidConv
  rw [checkBinary_ok hp]
  apply forM_ok
  intro i hi
  rw [List.mem_range] at hi
  have hpos : 0 < G.length := by omega
  obtain ⟨h1, L, _, h2⟩ := goodG_getD hG hi
  unfold checkInput
  rw [checkBinary_ok]
  · simp only [bind, Except.bind]
    rw [if_neg]
    · rw [forM_ok]
      · apply forM_ok
        intro j hj
        rw [List.mem_range, h1] at hj
        unfold checkEntry
        rw [if_neg, if_neg]
        · rintro ⟨ha, hb, hc, hd⟩
          have := hF.unused i j hi hj ha hb
          have hz : ((gAt G i j).drop 1).sum = 0 := by
            apply sum_zero_of_getD
            intro d
            rw [drop_getD]
            exact this (1 + d) (by omega)
          omega
        · rintro ⟨ha, hb⟩
          exact hF.used i j hi hj ha hb
      · intro f hf
        match f with
        | none => rfl
        | some f => exact checkBinary_ok (hF.poly f hf).1
    · push Not
      refine ⟨hF.shape.1, ?_⟩
      rw [goodG_nOut hG]
      exact hF.shape.2 _ (mem_of_getD [] _ (by rw [hF.shape.1]; exact hpos))
  · intro x hx
    rw [List.mem_flatten] at hx
    obtain ⟨r, hr, hx⟩ := hx
    exact (h2 r hr).2 x hx

/-- input sequence `i` of the reshaped pattern -/
def inSeq (p : List Int) (nIn i : ℕ) : List Int := (rows nIn (padTo nIn p)).map (fun b => b.getD i 0)

theorem inSeq_length (p : List Int) (nIn i : ℕ) (h : 0 < nIn) : (inSeq p nIn i).length = nBlocks p.length nIn := by
  unfold inSeq
  rw [List.length_map, rows_padTo_length _ h]

theorem inSeq_getD (p : List Int) (nIn i : ℕ) (hi : i < nIn) (n : ℕ) :
    (inSeq p nIn i).getD n 0 = p.getD (n * nIn + i) 0 := by
  have h : 0 < nIn := by omega
  rcases Nat.lt_or_ge n (nBlocks p.length nIn) with hn | hn
  · have h' : n < (rows nIn (padTo nIn p)).length := by rw [rows_padTo_length _ h]; exact hn
    unfold inSeq
    rw [getD_map_lt _ [] 0 _ h', rows_getD 0 _ _ n i (by rw [← rows_length]; exact h') hi, padTo_getD]
  · rw [getD_of_le 0 (inSeq p nIn i) (by rw [inSeq_length _ _ _ h]; exact hn), getD_of_le 0 p]
    have := (nBlocks_mul_ge p.length nIn h).1
    have := Nat.mul_le_mul_right nIn hn
    omega

theorem inSeq_binary {p : List Int} (hp : IsBinary p) (nIn i : ℕ) (hi : i < nIn) : IsBinary (inSeq p nIn i) := by
  intro x hx
  obtain ⟨n, hn, rfl⟩ := List.getElem_of_mem hx
  rw [← getD_of_lt 0 _ hn, inSeq_getD p nIn i hi n]
  exact binary_getD hp _

theorem inBit_nat (p : List Int) (nIn i : ℕ) (hi : i < nIn) (n : ℕ) :
    inBit p nIn i n = (inSeq p nIn i).getD n 0 := by
  rw [inSeq_getD p nIn i hi n]
  unfold inBit
  simp

theorem inBit_neg (p : List Int) (nIn i : ℕ) (t : ℤ) (ht : t < 0) : inBit p nIn i t = 0 := by
  unfold inBit
  rw [if_neg (by omega)]

/-- value of an optional contribution -/
def cval (c : Option (List Int)) (t : ℕ) : Int := match c with | none => 0 | some l => l.getD t 0

theorem contribution_spec (G : ConvG) (fb : ConvFb) (uf : ConvUf) (x : List Int) (i j : ℕ)
    (hg : IsBinary (gAt G i j)) (xs w : ℤ → Int)
    (hxs : ∀ n : ℕ, xs n = x.getD n 0) (hxn : ∀ t < 0, xs t = 0) (hw : ∀ t < 0, w t = 0)
    (hreg : IsRegister ((fbAt fb i).getD [1]) xs w)
    (hf : ∀ f, fbAt fb i = some f → f.getD 0 0 = 1)
    (hdir : ufAt uf i j = 0 → fbAt fb i ≠ none → (∀ d, 1 ≤ d → (gAt G i j).getD d 0 = 0) ∧ 1 < (gAt G i j).length) :
    ∃ c, convContribution id G fb uf x i j = .ok c ∧ (∀ l, c = some l → l.length = x.length) ∧
      ∀ t < x.length, cval c t % 2
        = (if fbAt fb i ≠ none ∧ ufAt uf i j = 0 then (gAt G i j).getD 0 0 * xs t else tapSum (gAt G i j) w t) % 2 := by
  unfold convContribution
  by_cases h0 : (gAt G i j).all (· == 0) = true
  · rw [if_pos h0]
    refine ⟨none, rfl, by simp, fun t _ => ?_⟩
    have hz : ∀ d, (gAt G i j).getD d 0 = 0 := by
      intro d
      rw [List.all_eq_true] at h0
      rcases Nat.lt_or_ge d (gAt G i j).length with hd | hd
      · simpa using h0 _ (mem_of_getD 0 _ hd)
      · exact getD_of_le 0 _ hd
    have : tapSum (gAt G i j) w t = 0 := by
      unfold tapSum
      exact Finset.sum_eq_zero (fun d _ => by rw [hz d, zero_mul])
    rw [this, hz 0]
    simp [cval]
  rw [if_neg h0]
  rw [if_neg]
  swap
  · rintro ⟨ha, hb, hc, hd⟩
    have := (hdir hd (by intro h; rw [h] at ha; simp at ha)).1
    have hz : ((gAt G i j).drop 1).sum = 0 := by
      apply sum_zero_of_getD
      intro d
      rw [drop_getD]
      exact this (1 + d) (by omega)
    omega
  by_cases h1 : (gAt G i j).length > 1 ∧ (gAt G i j).getD 0 0 = 1 ∧ ((gAt G i j).drop 1).sum = 0 ∧ ufAt uf i j = 0
  · rw [if_pos h1]
    obtain ⟨ha, hb, hc, hd⟩ := h1
    refine ⟨some x, rfl, by simp, fun t ht => ?_⟩
    show x.getD t 0 % 2 = _
    by_cases hn : fbAt fb i = none
    · rw [if_neg (by simp [hn])]
      have hrest : ∀ d, (gAt G i j).getD (d + 1) 0 = 0 := by
        intro d
        have := binary_sum_zero (l := (gAt G i j).drop 1) (fun y hy => hg y (List.mem_of_mem_drop hy)) hc d
        rw [drop_getD, Nat.add_comm] at this
        exact this
      rw [tapSum_eq _ w hw, Finset.sum_range_succ', Finset.sum_eq_zero (fun d _ => by rw [hrest d, zero_mul]), hb]
      rw [hn] at hreg
      have := hreg t (by omega)
      simp at this
      simp
      rw [this, hxs]
      simp
    · rw [if_pos ⟨hn, hd⟩, hb, hxs, one_mul]
  rw [if_neg h1]
  cases hfb : fbAt fb i with
  | none =>
    simp only []
    rw [hfb] at hreg
    refine ⟨_, rfl, ?_, fun t ht => ?_⟩
    · rintro l ⟨⟩
      rw [lfRun_length]
    · rw [if_neg (by simp)]
      exact iir_parity (gAt G i j) [1] x xs w hxs hxn hw hreg _ (by omega) (by simp) t ht
  | some f =>
    simp only []
    rw [hfb] at hreg
    rw [if_neg (by rw [hf f hfb]; simp)]
    refine ⟨_, rfl, ?_, fun t ht => ?_⟩
    · rintro l ⟨⟩
      rw [lfRun_length]
    · rw [if_neg]
      · exact iir_parity (gAt G i j) f x xs w hxs hxn hw hreg _ (by omega) (by omega) t ht
      · rintro ⟨_, hu⟩
        obtain ⟨ha, hb⟩ := hdir hu (by simp [hfb])
        apply h1
        refine ⟨hb, ?_, ?_, hu⟩
        · by_contra hne
          apply h0
          rw [List.all_eq_true]
          intro y hy
          obtain ⟨d, hd, rfl⟩ := List.getElem_of_mem hy
          rw [← getD_of_lt 0 _ hd]
          rcases Nat.eq_zero_or_pos d with rfl | hd'
          · rcases binary_getD hg 0 with h | h
            · rw [h]; rfl
            · exact absurd h hne
          · rw [ha d hd']; rfl
        · apply sum_zero_of_getD
          intro d
          rw [drop_getD]
          exact ha (1 + d) (by omega)

theorem addContribution_some (rnd : Int → Int) (acc l : List Int) :
    addContribution rnd acc (some l) = List.zipWith (fun a b => rnd (a + b)) acc l := rfl

theorem addContribution_foldl (T : ℕ) (c : ℕ → Option (List Int)) (n : ℕ)
    (hl : ∀ i < n, ∀ l, c i = some l → l.length = T) :
    ((List.range n).foldl (fun acc i => addContribution id acc (c i)) (List.replicate T 0)).length = T ∧
    ∀ t < T, ((List.range n).foldl (fun acc i => addContribution id acc (c i)) (List.replicate T 0)).getD t 0
      = ∑ i ∈ Finset.range n, cval (c i) t := by
  induction n with
  | zero =>
    refine ⟨by simp, fun t ht => ?_⟩
    simp [List.getD_eq_getElem?_getD, ht]
  | succ n ih =>
    obtain ⟨h1, h2⟩ := ih (fun i hi => hl i (by omega))
    rw [List.range_succ, List.foldl_append]
    simp only [List.foldl_cons, List.foldl_nil]
    have hc := hl n (by omega)
    cases hcn : c n with
    | none =>
      refine ⟨h1, fun t ht => ?_⟩
      rw [Finset.sum_range_succ, hcn, ← h2 t ht]
      simp [addContribution, cval]
    | some l =>
      have hll := hc l hcn
      refine ⟨by rw [addContribution_some, List.length_zipWith, h1, hll, Nat.min_self], fun t ht => ?_⟩
      rw [Finset.sum_range_succ, hcn, ← h2 t ht]
      rw [addContribution_some, zipWith_getD _ 0 0 0 _ _ (by rw [h1]; exact ht) (by rw [hll]; exact ht)]
      rfl

/-- closed form of the encoder with exact arithmetic -/
theorem codingConv_eq {nO : ℕ} {G : ConvG} (hG : GoodG nO G) (fb : ConvFb) (uf : ConvUf) (p : List Int)
    (hv : checkValidConv p G fb uf = .ok ()) (w : ℕ → ℤ → Int)
    (hw : ∀ i < G.length, ∀ t < 0, w i t = 0)
    (hreg : ∀ i < G.length, IsRegister ((fbAt fb i).getD [1]) (inBit p G.length i) (w i))
    (hf : ∀ i f, fbAt fb i = some f → f.getD 0 0 = 1)
    (hdir : ∀ i j, i < G.length → j < nO → ufAt uf i j = 0 → fbAt fb i ≠ none →
      (∀ d, 1 ≤ d → (gAt G i j).getD d 0 = 0) ∧ 1 < (gAt G i j).length) :
    ∃ c, codingConv id p G fb uf = .ok c ∧ c.length = nBlocks p.length G.length * nO ∧ IsBinary c ∧
      ∀ t j, t < nBlocks p.length G.length → j < nO → c.getD (t * nO + j) 0
        = encBit G.length (gAt G) (fun i j => fbAt fb i ≠ none ∧ ufAt uf i j = 0) (inBit p G.length) w j t := by
  have hpos : 0 < G.length := List.length_pos_of_ne_nil hG.1
  set T := nBlocks p.length G.length with hT
  have hcon : ∀ i, ∀ j, ∃ c, i < G.length → j < nO →
      convContribution id G fb uf (inSeq p G.length i) i j = .ok c ∧ (∀ l, c = some l → l.length = T) ∧
      ∀ t < T, cval c t % 2
        = (if fbAt fb i ≠ none ∧ ufAt uf i j = 0 then (gAt G i j).getD 0 0 * inBit p G.length i t
            else tapSum (gAt G i j) (w i) t) % 2 := by
    intro i j
    by_cases hi : i < G.length
    · by_cases hj : j < nO
      · obtain ⟨c, h⟩ := contribution_spec G fb uf (inSeq p G.length i) i j (goodG_binary hG hi hj)
          (inBit p G.length i) (w i) (inBit_nat p _ _ hi) (inBit_neg p _ _) (hw i hi) (hreg i hi) (hf i)
          (hdir i j hi hj)
        rw [inSeq_length _ _ _ hpos] at h
        exact ⟨c, fun _ _ => h⟩
      · exact ⟨none, fun _ h => absurd h hj⟩
    · exact ⟨none, fun h => absurd h hi⟩
  choose c hc using hcon
  set row : ℕ → List Int := fun j =>
    (List.range G.length).foldl (fun acc i => addContribution id acc (c i j)) (List.replicate T 0) with hrow
  have hrowM : ∀ j ∈ List.range nO, convRow id G fb uf (rows G.length (padTo G.length p)) j = .ok (row j) := by
    intro j hj
    rw [List.mem_range] at hj
    unfold convRow
    rw [rows_padTo_length _ hpos]
    apply foldlM_okP
    intro acc i hi
    rw [List.mem_range] at hi
    have := (hc i j hi hj).1
    unfold inSeq at this
    rw [this]
    rfl
  have hpad : (if p.length % G.length ≠ 0 then p ++ List.replicate (G.length - p.length % G.length) 0 else p)
      = padTo G.length p := by
    unfold padTo
    rw [nBlocks_of_mod _ _ hpos]
    by_cases h : p.length % G.length ≠ 0
    · rw [if_pos h, if_pos (by omega)]
    · rw [if_neg h, if_neg (by omega)]; simp
  have huni : ∀ r ∈ (List.range T).map (fun t => ((List.range nO).map row).map (fun r => r.getD t 0 % 2)),
      r.length = nO := by
    intro r hr
    rw [List.mem_map] at hr
    obtain ⟨t, _, rfl⟩ := hr
    simp
  refine ⟨((List.range T).map (fun t => ((List.range nO).map row).map (fun r => r.getD t 0 % 2))).flatten, ?_, ?_, ?_, ?_⟩
  · unfold codingConv
    rw [hv]
    simp only [bind, Except.bind]
    rw [if_neg (by omega), hpad, goodG_nOut hG, mapM_okP _ row _ hrowM]
    simp only [pure, Except.pure]
    rw [rows_padTo_length _ hpos]
  · rw [flatten_uniform_length nO _ huni]
    simp
  · intro x hx
    rw [List.mem_flatten] at hx
    obtain ⟨r, hr, hx⟩ := hx
    rw [List.mem_map] at hr
    obtain ⟨t, _, rfl⟩ := hr
    rw [List.mem_map] at hx
    obtain ⟨r, _, rfl⟩ := hx
    exact Int.emod_two_eq_zero_or_one _
  · intro t j ht hj
    rw [flatten_getD 0 nO _ huni t j (by simpa using ht) hj, getD_map_lt _ 0 [] _ (by simpa using ht),
      getD_of_lt 0 (List.range T) (by simpa using ht), List.getElem_range,
      getD_map_lt _ [] 0 _ (by simpa using hj), getD_map_lt _ 0 [] _ (by simpa using hj),
      getD_of_lt 0 (List.range nO) (by simpa using hj), List.getElem_range]
    rw [hrow]
    rw [(addContribution_foldl T (fun i => c i j) G.length (fun i hi => (hc i j hi hj).2.1)).2 t ht]
    unfold encBit
    apply sum_emod_congr
    intro i hi
    exact (hc i j hi hj).2.2 t ht

end Verif
