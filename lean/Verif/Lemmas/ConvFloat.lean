import Verif.Lemmas.ConvEnc

/-! Lemmas: floating point evaluation of the encoder is exact while the values stay in the exactly
representable range. -/

namespace Verif
open Spec

/-- `rnd` does not change integers of absolute value at most `B` -/
def ExactTo (B : Int) (rnd : Int → Int) : Prop := ∀ n : Int, |n| ≤ B → rnd n = n

theorem bin_abs {l : List Int} (h : IsBinary l) (i : ℕ) : |l.getD i 0| ≤ 1 := by
  rcases binary_getD h i with h | h <;> rw [h] <;> simp

theorem abs_mul_le_one {a b : Int} (ha : |a| ≤ 1) (hb : |b| ≤ 1) : |a * b| ≤ 1 := by
  rw [abs_mul]
  calc |a| * |b| ≤ 1 * 1 := mul_le_mul ha hb (abs_nonneg _) (by norm_num)
    _ = 1 := by norm_num

theorem lfStep_round {B M : Int} {rnd : Int → Int} (hr : ExactTo B rnd) (b a z : List Int) (x : Int)
    (hb : IsBinary b) (ha : IsBinary a) (hx : |x| ≤ 1) (hM : 0 ≤ M) (hz : ∀ i, |z.getD i 0| ≤ M) (hB : 2 * M + 2 ≤ B) :
    lfStep rnd b a z x = lfStep id b a z x ∧ |(lfStep id b a z x).1| ≤ M + 1 ∧
      ∀ i, |(lfStep id b a z x).2.getD i 0| ≤ 2 * M + 2 := by
  have h1 : ∀ i, |b.getD i 0 * x| ≤ 1 := fun i => abs_mul_le_one (bin_abs hb i) hx
  have h1' : ∀ i, |x * b.getD i 0| ≤ 1 := fun i => abs_mul_le_one hx (bin_abs hb i)
  have r1 : ∀ i, rnd (b.getD i 0 * x) = b.getD i 0 * x := fun i => hr _ (by have := h1 i; omega)
  have r1' : ∀ i, rnd (x * b.getD i 0) = x * b.getD i 0 := fun i => hr _ (by have := h1' i; omega)
  have h2 : |z.getD 0 0 + b.getD 0 0 * x| ≤ M + 1 := by
    have := abs_add_le (z.getD 0 0) (b.getD 0 0 * x); have := hz 0; have := h1 0; omega
  have r2 : rnd (z.getD 0 0 + b.getD 0 0 * x) = z.getD 0 0 + b.getD 0 0 * x := hr _ (by omega)
  set y := z.getD 0 0 + b.getD 0 0 * x with hy
  have h3 : ∀ i, |y * a.getD i 0| ≤ M + 1 := by
    intro i
    rw [abs_mul]
    calc |y| * |a.getD i 0| ≤ (M + 1) * 1 := mul_le_mul h2 (bin_abs ha i) (abs_nonneg _) (by omega)
      _ = M + 1 := by ring
  have r3 : ∀ i, rnd (y * a.getD i 0) = y * a.getD i 0 := fun i => hr _ (by have := h3 i; omega)
  have h4 : ∀ i, |z.getD (i + 1) 0 + x * b.getD (i + 1) 0| ≤ M + 1 := by
    intro i
    have := abs_add_le (z.getD (i + 1) 0) (x * b.getD (i + 1) 0); have := hz (i + 1); have := h1' (i + 1); omega
  have r4 : ∀ i, rnd (z.getD (i + 1) 0 + x * b.getD (i + 1) 0) = z.getD (i + 1) 0 + x * b.getD (i + 1) 0 :=
    fun i => hr _ (by have := h4 i; omega)
  have h5 : ∀ i, |z.getD (i + 1) 0 + x * b.getD (i + 1) 0 - y * a.getD (i + 1) 0| ≤ 2 * M + 2 := by
    intro i
    have := abs_sub (z.getD (i + 1) 0 + x * b.getD (i + 1) 0) (y * a.getD (i + 1) 0)
    have := h4 i; have := h3 (i + 1); omega
  have r5 : ∀ i, rnd (z.getD (i + 1) 0 + x * b.getD (i + 1) 0 - y * a.getD (i + 1) 0)
      = z.getD (i + 1) 0 + x * b.getD (i + 1) 0 - y * a.getD (i + 1) 0 := fun i => hr _ (by have := h5 i; omega)
  refine ⟨?_, ?_, ?_⟩
  · unfold lfStep
    simp only [id, r1, r1', r2, r3, r4, r5, ← hy]
  · unfold lfStep
    simp only [id, ← hy]
    exact h2
  · intro i
    rcases Nat.lt_or_ge i z.length with hi | hi
    · unfold lfStep
      simp only [id, ← hy]
      rw [getD_map_lt _ 0 0 _ (by simpa using hi), getD_of_lt 0 (List.range _) (by simpa using hi)]
      simpa using h5 i
    · rw [getD_of_le 0 (lfStep id b a z x).2 (by rw [lfStep_state_length]; exact hi)]
      simp; omega

/-- recursive filtering of binary data over at most `len` steps -/
theorem lfRun_round {B : Int} {rnd : Int → Int} (hr : ExactTo B rnd) (b a : List Int) (hb : IsBinary b)
    (ha : IsBinary a) (x : List Int) (hx : IsBinary x) (z : List Int) (M : Int) (hM : 0 ≤ M)
    (hz : ∀ i, |z.getD i 0| ≤ M) (hB : (M + 2) * 2 ^ x.length ≤ B + 2) :
    lfRun rnd b a z x = lfRun id b a z x ∧
      ∀ n, |(lfRun id b a z x).1.getD n 0| ≤ (M + 2) * 2 ^ x.length - 2 := by
  induction x generalizing z M with
  | nil => refine ⟨rfl, fun n => ?_⟩; simp [lfRun]; omega
  | cons x xs ih =>
    have hp : (1:Int) ≤ 2 ^ xs.length := one_le_pow₀ (by norm_num)
    rw [List.length_cons, pow_succ] at hB ⊢
    have hbig : (M + 2) * 1 ≤ (M + 2) * 2 ^ xs.length := mul_le_mul_of_nonneg_left hp (by omega)
    have e : (M + 2) * (2 ^ xs.length * 2) = 2 * ((M + 2) * 2 ^ xs.length) := by ring
    rw [e] at hB ⊢
    obtain ⟨h1, h2, h3⟩ := lfStep_round hr b a z x hb ha (by rcases hx x (by simp) with h | h <;> rw [h] <;> simp)
      hM hz (by omega)
    obtain ⟨h4, h5⟩ := ih (fun y hy => hx y (by simp [hy])) (lfStep id b a z x).2 (2 * M + 2) (by omega) h3
      (by rw [show (2 * M + 2 + 2) * 2 ^ xs.length = 2 * ((M + 2) * 2 ^ xs.length) by ring]; exact hB)
    refine ⟨?_, fun n => ?_⟩
    · simp only [lfRun]
      rw [h1, h4]
    · cases n with
      | zero =>
        show |(lfStep id b a z x).1| ≤ _
        omega
      | succ n =>
        show |(lfRun id b a (lfStep id b a z x).2 xs).1.getD n 0| ≤ _
        have := h5 n
        rwa [show (2 * M + 2 + 2) * 2 ^ xs.length = 2 * ((M + 2) * 2 ^ xs.length) by ring] at this

theorem sum_drop_succ (g : List Int) (i : ℕ) : (g.drop i).sum = g.getD i 0 + (g.drop (i + 1)).sum := by
  induction g generalizing i with
  | nil => simp
  | cons a g ih =>
    cases i with
    | zero => simp
    | succ i => simpa using ih i

theorem sum_drop_le {g : List Int} (hg : IsBinary g) (i : ℕ) : (g.drop i).sum ≤ g.sum := by
  induction i with
  | zero => simp
  | succ i ih =>
    have := sum_drop_succ g i
    rcases binary_getD hg i with h | h <;> omega

theorem sum_drop_nonneg {g : List Int} (hg : IsBinary g) (i : ℕ) : 0 ≤ (g.drop i).sum :=
  binary_sum_nonneg (fun y hy => hg y (List.mem_of_mem_drop hy))

/-- FIR filtering of binary data is exact for any length -/
theorem lfRun_fir_round {B : Int} {rnd : Int → Int} (hr : ExactTo B rnd) (g : List Int) (hg : IsBinary g)
    (hB : g.sum ≤ B) (x : List Int) (hx : IsBinary x) (z : List Int)
    (hz : ∀ i, 0 ≤ z.getD i 0 ∧ z.getD i 0 ≤ (g.drop (i + 1)).sum) :
    lfRun rnd g [1] z x = lfRun id g [1] z x ∧
      ∀ n, 0 ≤ (lfRun id g [1] z x).1.getD n 0 ∧ (lfRun id g [1] z x).1.getD n 0 ≤ g.sum := by
  have hg0 : 0 ≤ g.sum := by have := sum_drop_nonneg hg 0; simpa using this
  have hR : ∀ n : Int, 0 ≤ n → n ≤ g.sum → rnd n = n := fun n h1 h2 => hr n (by rw [abs_of_nonneg h1]; omega)
  induction x generalizing z with
  | nil => refine ⟨rfl, fun n => ?_⟩; simp [lfRun]; omega
  | cons x xs ih =>
    have hx1 := hx x (by simp)
    have hgx : ∀ i, 0 ≤ g.getD i 0 * x ∧ g.getD i 0 * x ≤ g.getD i 0 ∧ g.getD i 0 ≤ g.sum := by
      intro i
      have a1 := sum_drop_succ g i
      have a2 := sum_drop_le hg i
      have a3 := sum_drop_nonneg hg (i + 1)
      rcases binary_getD hg i with h | h <;> rcases hx1 with h' | h' <;> rw [h] at a1 ⊢ <;> rw [h'] <;> omega
    have hc : ∀ i, x * g.getD i 0 = g.getD i 0 * x := fun i => mul_comm _ _
    have ha : ∀ i, ([1] : List Int).getD (i + 1) 0 = 0 := fun i => by simp
    have r0 : rnd 0 = 0 := hR 0 le_rfl hg0
    have r1 : ∀ i, rnd (g.getD i 0 * x) = g.getD i 0 * x := fun i => hR _ (hgx i).1 (by have := hgx i; omega)
    have r2 : rnd (z.getD 0 0 + g.getD 0 0 * x) = z.getD 0 0 + g.getD 0 0 * x := by
      have := hgx 0; have := hz 0; have := sum_drop_succ g 0
      rw [List.drop_zero] at this
      exact hR _ (by omega) (by omega)
    have b4 : ∀ i, 0 ≤ z.getD (i + 1) 0 + g.getD (i + 1) 0 * x ∧
        z.getD (i + 1) 0 + g.getD (i + 1) 0 * x ≤ (g.drop (i + 1)).sum := by
      intro i
      have := hgx (i + 1); have := hz (i + 1); have := sum_drop_succ g (i + 1)
      omega
    have r4 : ∀ i, rnd (z.getD (i + 1) 0 + g.getD (i + 1) 0 * x) = z.getD (i + 1) 0 + g.getD (i + 1) 0 * x :=
      fun i => hR _ (b4 i).1 (by have := b4 i; have := sum_drop_le hg (i + 1); omega)
    have hstep : lfStep rnd g [1] z x = lfStep id g [1] z x := by
      unfold lfStep
      simp only [id, hc, ha, mul_zero, r0, r1, r2, sub_zero, r4]
    have hz' : ∀ i, 0 ≤ (lfStep id g [1] z x).2.getD i 0 ∧ (lfStep id g [1] z x).2.getD i 0 ≤ (g.drop (i + 1)).sum := by
      intro i
      rcases Nat.lt_or_ge i z.length with hi | hi
      · unfold lfStep
        simp only [id]
        rw [getD_map_lt _ 0 0 _ (by simpa using hi), getD_of_lt 0 (List.range _) (by simpa using hi)]
        simp only [List.getElem_range, ha, mul_zero, sub_zero, hc]
        exact b4 i
      · rw [getD_of_le 0 (lfStep id g [1] z x).2 (by rw [lfStep_state_length]; exact hi)]
        exact ⟨le_rfl, sum_drop_nonneg hg _⟩
    obtain ⟨h4, h5⟩ := ih (fun y hy => hx y (by simp [hy])) _ hz'
    refine ⟨?_, fun n => ?_⟩
    · simp only [lfRun]
      rw [hstep, h4]
    · cases n with
      | zero =>
        show 0 ≤ (lfStep id g [1] z x).1 ∧ (lfStep id g [1] z x).1 ≤ _
        unfold lfStep
        simp only [id]
        have := hgx 0; have := hz 0; have := sum_drop_succ g 0
        rw [List.drop_zero] at this
        omega
      | succ n => exact h5 n

theorem foldl_round {B : Int} {rnd : Int → Int} (hr : ExactTo B rnd) (T : ℕ) (c : ℕ → Option (List Int)) (n : ℕ)
    (hl : ∀ i < n, ∀ l, c i = some l → l.length = T) (b : ℕ → Int) (hb : ∀ i < n, ∀ t, |cval (c i) t| ≤ b i)
    (hb0 : ∀ i < n, 0 ≤ b i)
    (hB : ∑ i ∈ Finset.range n, b i ≤ B) :
    (List.range n).foldl (fun acc i => addContribution rnd acc (c i)) (List.replicate T 0)
      = (List.range n).foldl (fun acc i => addContribution id acc (c i)) (List.replicate T 0) := by
  induction n with
  | zero => rfl
  | succ n ih =>
    rw [Finset.sum_range_succ] at hB
    have hn := hb0 n (by omega)
    have ih' := ih (fun i hi => hl i (by omega)) (fun i hi => hb i (by omega)) (fun i hi => hb0 i (by omega)) (by omega)
    obtain ⟨h1, h2⟩ := addContribution_foldl T c n (fun i hi => hl i (by omega))
    rw [List.range_succ, List.foldl_append, List.foldl_append]
    simp only [List.foldl_cons, List.foldl_nil]
    rw [ih']
    cases hcn : c n with
    | none => rfl
    | some l =>
      have hll := hl n (by omega) l hcn
      rw [addContribution_some, addContribution_some]
      apply ext_getD 0
      · rw [List.length_zipWith, List.length_zipWith]
      intro t ht
      rw [List.length_zipWith, h1, hll, Nat.min_self] at ht
      rw [zipWith_getD _ 0 0 0 _ _ (by rw [h1]; exact ht) (by rw [hll]; exact ht),
        zipWith_getD _ 0 0 0 _ _ (by rw [h1]; exact ht) (by rw [hll]; exact ht), h2 t ht]
      apply hr
      have e1 : |∑ i ∈ Finset.range n, cval (c i) t| ≤ ∑ i ∈ Finset.range n, b i :=
        le_trans (Finset.abs_sum_le_sum_abs _ _) (Finset.sum_le_sum (fun i hi => hb i (by rw [Finset.mem_range] at hi; omega) t))
      have e2 := hb n (by omega) t
      rw [hcn] at e2
      have e3 := abs_add_le (∑ i ∈ Finset.range n, cval (c i) t) (l.getD t 0)
      change |l.getD t 0| ≤ b n at e2
      omega

/-- one contribution is exact and bounded -/
theorem contribution_round {B : Int} {rnd : Int → Int} (hr : ExactTo B rnd) (G : ConvG) (fb : ConvFb) (uf : ConvUf)
    (x : List Int) (hx : IsBinary x) (i j : ℕ) (hg : IsBinary (gAt G i j)) (bnd : Int)
    (hB : bnd ≤ B)
    (hb : fbAt fb i = none ∧ (gAt G i j).sum ≤ bnd ∨
      (∀ f, fbAt fb i = some f → IsBinary f) ∧ 2 * 2 ^ x.length - 2 ≤ bnd ∧ 1 ≤ bnd) :
    convContribution rnd G fb uf x i j = convContribution id G fb uf x i j ∧
      ∀ c, convContribution id G fb uf x i j = .ok c → (∀ l, c = some l → l.length = x.length) ∧ ∀ t, |cval c t| ≤ bnd := by
  have hs0 : 0 ≤ (gAt G i j).sum := binary_sum_nonneg hg
  have hb0 : 0 ≤ bnd := by rcases hb with h | h <;> omega
  unfold convContribution
  by_cases h0 : (gAt G i j).all (· == 0) = true
  · rw [if_pos h0, if_pos h0]
    refine ⟨rfl, ?_⟩
    rintro c ⟨⟩
    exact ⟨by simp, fun t => by simpa [cval] using hb0⟩
  rw [if_neg h0, if_neg h0]
  by_cases h1 : (fbAt fb i).isSome ∧ (gAt G i j).length > 1 ∧ ((gAt G i j).drop 1).sum > 0 ∧ ufAt uf i j = 0
  · rw [if_pos h1, if_pos h1]
    exact ⟨rfl, fun c h => by cases h⟩
  rw [if_neg h1, if_neg h1]
  by_cases h2 : (gAt G i j).length > 1 ∧ (gAt G i j).getD 0 0 = 1 ∧ ((gAt G i j).drop 1).sum = 0 ∧ ufAt uf i j = 0
  · rw [if_pos h2, if_pos h2]
    refine ⟨rfl, ?_⟩
    rintro c ⟨⟩
    refine ⟨by simp, fun t => ?_⟩
    have hb1 : 1 ≤ bnd := by
      rcases hb with h | h
      · have := sum_drop_succ (gAt G i j) 0
        rw [List.drop_zero, h2.2.1] at this
        have := h2.2.2.1
        rw [show 0 + 1 = 1 from rfl] at *
        omega
      · exact h.2.2
    exact le_trans (bin_abs hx t) hb1
  rw [if_neg h2, if_neg h2]
  have hzr : ∀ (m i : ℕ), (List.replicate m (0:Int)).getD i 0 = 0 := by
    intro m i
    rw [List.getD_eq_getElem?_getD, List.getElem?_replicate]
    split <;> rfl
  cases hfb : fbAt fb i with
  | none =>
    simp only []
    rcases hb with h | h
    · obtain ⟨e1, e2⟩ := lfRun_fir_round hr (gAt G i j) hg (by omega) x hx (List.replicate ((gAt G i j).length - 1) 0)
        (fun k => by rw [hzr]; exact ⟨le_rfl, sum_drop_nonneg hg _⟩)
      rw [e1]
      refine ⟨rfl, ?_⟩
      rintro c ⟨⟩
      refine ⟨by rintro l ⟨⟩; exact lfRun_length _ _ _ _ _, fun t => ?_⟩
      show |(lfRun id (gAt G i j) [1] _ x).1.getD t 0| ≤ _
      rw [abs_of_nonneg (e2 t).1]
      have := (e2 t).2
      omega
    · obtain ⟨e1, e2⟩ := lfRun_round hr (gAt G i j) [1] hg (by intro y hy; simp at hy; exact Or.inr hy) x hx
        (List.replicate ((gAt G i j).length - 1) 0) 0 le_rfl (fun k => by rw [hzr]; simp) (by omega)
      rw [e1]
      refine ⟨rfl, ?_⟩
      rintro c ⟨⟩
      refine ⟨by rintro l ⟨⟩; exact lfRun_length _ _ _ _ _, fun t => ?_⟩
      show |(lfRun id (gAt G i j) [1] _ x).1.getD t 0| ≤ _
      have := e2 t
      omega
  | some f =>
    simp only []
    by_cases hf0 : f.getD 0 0 ≠ 1
    · rw [if_pos hf0, if_pos hf0]
      exact ⟨rfl, fun c h => by cases h⟩
    rw [if_neg hf0, if_neg hf0]
    rcases hb with h | h
    · rw [hfb] at h; simp at h
    · obtain ⟨e1, e2⟩ := lfRun_round hr (gAt G i j) f hg (h.1 f hfb) x hx
        (List.replicate (max (gAt G i j).length f.length - 1) 0) 0 le_rfl (fun k => by rw [hzr]; simp) (by omega)
      rw [e1]
      refine ⟨rfl, ?_⟩
      rintro c ⟨⟩
      refine ⟨by rintro l ⟨⟩; exact lfRun_length _ _ _ _ _, fun t => ?_⟩
      show |(lfRun id (gAt G i j) f _ x).1.getD t 0| ≤ _
      have := e2 t
      omega

/-- the encoder in floating point equals the encoder in exact arithmetic when the bounds fit -/
theorem codingConv_round {nO : ℕ} {G : ConvG} (hG : GoodG nO G) (fb : ConvFb) (uf : ConvUf) (p : List Int)
    (hp : IsBinary p) {B : Int} {rnd : Int → Int} (hr : ExactTo B rnd) (bnd : ℕ → ℕ → Int)
    (hB : ∀ j < nO, ∑ i ∈ Finset.range G.length, bnd i j ≤ B)
    (hb : ∀ i j, i < G.length → j < nO → fbAt fb i = none ∧ (gAt G i j).sum ≤ bnd i j ∨
      (∀ f, fbAt fb i = some f → IsBinary f) ∧ 2 * 2 ^ (nBlocks p.length G.length) - 2 ≤ bnd i j ∧ 1 ≤ bnd i j)
    (hok : ∀ i j, i < G.length → j < nO → ∃ c, convContribution id G fb uf (inSeq p G.length i) i j = .ok c) :
    codingConv rnd p G fb uf = codingConv id p G fb uf := by
  have hpos : 0 < G.length := List.length_pos_of_ne_nil hG.1
  have hb0 : ∀ i j, i < G.length → j < nO → 0 ≤ bnd i j := by
    intro i j hi hj
    have hs0 : 0 ≤ (gAt G i j).sum := binary_sum_nonneg (goodG_binary hG hi hj)
    rcases hb i j hi hj with h | h <;> omega
  have hrow : ∀ j ∈ List.range nO, convRow rnd G fb uf (rows G.length (padTo G.length p)) j
      = convRow id G fb uf (rows G.length (padTo G.length p)) j := by
    intro j hj
    rw [List.mem_range] at hj
    have hc : ∀ i, ∃ c, i < G.length → convContribution id G fb uf (inSeq p G.length i) i j = .ok c := by
      intro i
      by_cases hi : i < G.length
      · obtain ⟨c, h⟩ := hok i j hi hj
        exact ⟨c, fun _ => h⟩
      · exact ⟨none, fun h => absurd h hi⟩
    choose c hc using hc
    have hbi : ∀ i < G.length, bnd i j ≤ B := by
      intro i hi
      refine le_trans ?_ (hB j hj)
      exact Finset.single_le_sum (f := fun i => bnd i j)
        (fun k hk => hb0 k j (by rwa [Finset.mem_range] at hk) hj) (Finset.mem_range.2 hi)
    have hcr : ∀ i (hi : i < G.length), _ := fun i hi => contribution_round hr G fb uf (inSeq p G.length i)
      (inSeq_binary hp _ _ hi) i j (goodG_binary hG hi hj) (bnd i j) (hbi i hi)
      (by rw [inSeq_length _ _ _ hpos]; exact hb i j hi hj)
    unfold convRow
    rw [rows_padTo_length _ hpos]
    rw [foldlM_okP _ (fun acc i => addContribution rnd acc (c i)), foldlM_okP _ (fun acc i => addContribution id acc (c i))]
    · congr 1
      apply foldl_round hr _ c G.length _ (fun i => bnd i j) _ (fun i hi => hb0 i j hi hj) (hB j hj)
      · intro i hi l hl
        rw [((hcr i hi).2 (c i) (hc i hi)).1 l hl, inSeq_length _ _ _ hpos]
      · intro i hi t
        exact ((hcr i hi).2 (c i) (hc i hi)).2 t
    · intro acc i hi
      rw [List.mem_range] at hi
      have := hc i hi
      unfold inSeq at this
      rw [this]
      rfl
    · intro acc i hi
      rw [List.mem_range] at hi
      have := (hcr i hi).1.trans (hc i hi)
      unfold inSeq at this
      rw [this]
      rfl
  have hpad : (if p.length % G.length ≠ 0 then p ++ List.replicate (G.length - p.length % G.length) 0 else p)
      = padTo G.length p := by
    unfold padTo
    rw [nBlocks_of_mod _ _ hpos]
    by_cases h : p.length % G.length ≠ 0
    · rw [if_pos h, if_pos (by omega)]
    · rw [if_neg h, if_neg (by omega)]; simp
  unfold codingConv
  dsimp only
  rw [hpad, goodG_nOut hG]
  have : (List.range nO).mapM (convRow rnd G fb uf (rows G.length (padTo G.length p)))
      = (List.range nO).mapM (convRow id G fb uf (rows G.length (padTo G.length p))) := by
    have : ∀ l : List ℕ, (∀ j ∈ l, convRow rnd G fb uf (rows G.length (padTo G.length p)) j
        = convRow id G fb uf (rows G.length (padTo G.length p)) j) →
        l.mapM (convRow rnd G fb uf (rows G.length (padTo G.length p)))
          = l.mapM (convRow id G fb uf (rows G.length (padTo G.length p))) := by
      intro l hl
      induction l with
      | nil => rfl
      | cons a l ih =>
        rw [List.mapM_cons, List.mapM_cons, hl a (by simp), ih (fun j hj => hl j (by simp [hj]))]
    exact this _ hrow
  rw [this]

end Verif
