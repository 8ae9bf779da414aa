import Mathlib.Algebra.BigOperators.Group.Finset.Piecewise
import Mathlib.Algebra.Order.Floor.Ring
import Mathlib.Tactic.FieldSimp
import Mathlib.Tactic.Linarith
import Verif.Model.Eye
import Verif.Spec.Eye
import Verif.Lemmas.Delay
import Verif.Lemmas.ConvEnc

/-! Lemmas for histograms and the eye diagram. -/

open Finset

set_option linter.unusedSectionVars false

namespace Verif
open Verif.Spec

section
variable {K : Type} [Field K] [LinearOrder K] [IsStrictOrderedRing K]

theorem inBin_exists (e : ℕ → K) (n : ℕ) (hn : 0 < n) (a : K) (h0 : e 0 ≤ a) (h1 : a ≤ e n) : ∃ t, InBin e n t a := by
  induction n with
  | zero => omega
  | succ n ih =>
    by_cases h : e n ≤ a
    · exact ⟨n, by omega, h, Or.inr ⟨rfl, h1⟩⟩
    · rw [not_le] at h
      rcases Nat.eq_zero_or_pos n with rfl | hp
      · exact absurd h0 (not_le.2 h)
      · obtain ⟨t, h2, h3, h4⟩ := ih hp h.le
        refine ⟨t, by omega, h3, Or.inl ?_⟩
        rcases h4 with h4 | ⟨h4, _⟩
        · exact h4
        · rw [h4]; exact h

theorem mono_of_lt (e : ℕ → K) (n : ℕ) (he : ∀ k, k < n → e k < e (k + 1)) (i j : ℕ) (hij : i ≤ j) (hj : j ≤ n) :
    e i ≤ e j := by
  induction j with
  | zero => have : i = 0 := by omega
            rw [this]
  | succ j ih =>
    rcases Nat.lt_or_ge i (j + 1) with h | h
    · exact (ih (by omega) (by omega)).trans (he j (by omega)).le
    · have : i = j + 1 := by omega
      rw [this]

theorem inBin_range (e : ℕ → K) (n : ℕ) (he : ∀ k, k < n → e k < e (k + 1)) (t : ℕ) (a : K) (h : InBin e n t a) :
    e 0 ≤ a ∧ a ≤ e n := by
  obtain ⟨h1, h2, h3⟩ := h
  refine ⟨(mono_of_lt e n he 0 t (by omega) (by omega)).trans h2, ?_⟩
  rcases h3 with h3 | ⟨_, h3⟩
  · exact h3.le.trans (mono_of_lt e n he (t + 1) n (by omega) (le_refl _))
  · exact h3

theorem inBin_unique (e : ℕ → K) (n : ℕ) (he : ∀ k, k < n → e k < e (k + 1)) (s t : ℕ) (a : K) (hs : InBin e n s a)
    (ht : InBin e n t a) : s = t := by
  have key : ∀ s t : ℕ, InBin e n s a → InBin e n t a → ¬ s < t := by
    intro s t hs ht hlt
    obtain ⟨h1, h2, h3⟩ := hs
    obtain ⟨h4, h5, _⟩ := ht
    rcases h3 with h3 | ⟨h3, _⟩
    · exact absurd (mono_of_lt e n he (s + 1) t hlt (by omega)) (not_le.2 (lt_of_le_of_lt h5 h3))
    · omega
  rcases lt_trichotomy s t with h | h | h
  · exact absurd h (key s t hs ht)
  · exact h
  · exact absurd h (key t s ht hs)

theorem histIndex_eq (edges : List K) (est : K → ℕ) (a : K) (t : ℕ)
    (he : ∀ k, k < edges.length - 1 → edges.getD k 0 < edges.getD (k + 1) 0)
    (ht : InBin (fun k => edges.getD k 0) (edges.length - 1) t a) (h1 : est a ≤ t + 1) (h2 : t ≤ est a + 1) :
    histIndex edges est a = t := by
  obtain ⟨hn, hl, hr⟩ := ht
  simp only [] at hl hr
  unfold histIndex
  simp only []
  obtain ⟨n, hnn⟩ : ∃ n, n = edges.length - 1 := ⟨_, rfl⟩
  rw [← hnn] at he hn hr ⊢
  obtain ⟨i, hi⟩ : ∃ i, i = if est a = n then n - 1 else est a := ⟨_, rfl⟩
  rw [← hi]
  have hr' : t ≠ n - 1 → a < edges.getD (t + 1) 0 := by
    intro h
    rcases hr with hr | ⟨hr, _⟩
    · exact hr
    · omega
  have hcase : i = t ∨ (i = t + 1 ∧ t ≠ n - 1) ∨ i + 1 = t := by
    by_cases h : est a = n
    · rw [if_pos h] at hi; omega
    · rw [if_neg h] at hi; omega
  rcases hcase with h | ⟨h, h'⟩ | h
  · rw [h, if_neg (not_lt.2 hl)]
    rw [if_neg]
    rintro ⟨h3, h4⟩
    exact absurd (hr' h4) (not_lt.2 h3)
  · rw [h, if_pos (hr' h'), Nat.add_sub_cancel, if_neg]
    rintro ⟨h3, h4⟩
    exact absurd (hr' h4) (not_lt.2 h3)
  · have hlt : edges.getD i 0 < edges.getD t 0 := by rw [← h]; exact he i (by omega)
    rw [if_neg (not_lt.2 (hlt.le.trans hl)), h, if_pos ⟨hl, by omega⟩]

theorem histCounts_getD (edges : List K) (est : K → ℕ) (vals : List K) (hn : 0 < edges.length - 1)
    (he : ∀ k, k < edges.length - 1 → edges.getD k 0 < edges.getD (k + 1) 0)
    (hest : ∀ a t, InBin (fun k => edges.getD k 0) (edges.length - 1) t a → est a ≤ t + 1 ∧ t ≤ est a + 1)
    (k : ℕ) (hk : k < edges.length - 1) :
    (histCounts edges est vals).getD k 0
      = (vals.filter (fun a => decide (InBin (fun k => edges.getD k 0) (edges.length - 1) k a))).length := by
  unfold histCounts
  rw [getD_map_lt _ 0 0 _ (by simpa using hk), getD_of_lt 0 (List.range _) (by simpa using hk), List.getElem_range,
    List.filter_filter]
  congr 1
  apply List.filter_congr
  intro a _
  rw [← Bool.decide_and, decide_eq_decide]
  constructor
  · rintro ⟨h1, h2, h3⟩
    obtain ⟨t, ht⟩ := inBin_exists (fun k => edges.getD k 0) _ hn a h2 h3
    rw [histIndex_eq edges est a t he ht (hest a t ht).1 (hest a t ht).2] at h1
    rw [← h1]; exact ht
  · intro h
    exact ⟨histIndex_eq edges est a k he h (hest a k h).1 (hest a k h).2, inBin_range (fun k => edges.getD k 0) _ he k a h⟩

theorem filter_range_length (U : ℕ) (p : ℕ → Prop) [DecidablePred p] :
    ((List.range U).filter (fun m => decide (p m))).length = ((range U).filter p).card := by
  induction U with
  | zero => simp
  | succ U ih =>
    rw [List.range_succ, List.filter_append, List.length_append, ih, Finset.range_add_one, Finset.filter_insert]
    by_cases h : p U
    · rw [if_pos h, Finset.card_insert_of_notMem (by simp)]; simp [h]
    · rw [if_neg h]; simp [h]

theorem sum_bins (e : ℕ → K) (n U : ℕ) (hn : 0 < n) (he : ∀ k, k < n → e k < e (k + 1)) (f : ℕ → K) :
    ∑ k ∈ range n, ((range U).filter (fun m => InBin e n k (f m))).card
      = ((range U).filter (fun m => e 0 ≤ f m ∧ f m ≤ e n)).card := by
  simp only [Finset.card_filter]
  rw [Finset.sum_comm]
  refine Finset.sum_congr rfl fun m _ => ?_
  by_cases h : e 0 ≤ f m ∧ f m ≤ e n
  · obtain ⟨t, ht⟩ := inBin_exists e n hn (f m) h.1 h.2
    rw [if_pos h, Finset.sum_eq_single t]
    · rw [if_pos ht]
    · intro k _ hk
      rw [if_neg]
      intro hc
      exact hk (inBin_unique e n he k t _ hc ht)
    · intro hc
      exact absurd (mem_range.2 ht.1) hc
  · rw [if_neg h]
    apply Finset.sum_eq_zero
    intro k _
    rw [if_neg]
    intro hc
    exact h (inBin_range e n he k _ hc)

theorem linspace_getD (lo hi : K) (q k : ℕ) (hq : 0 < q) (hk : k ≤ q) :
    (linspace lo hi (q + 1)).getD k 0 = lo + (k : K) * ((hi - lo) / q) := by
  unfold linspace
  rw [if_neg (by omega), map_range_getD _ 0 _ _ (by omega)]
  push_cast
  rw [add_sub_cancel_right]

theorem linspace_length (lo hi : K) (n : ℕ) : (linspace lo hi n).length = n := by
  unfold linspace; split
  · next h => rw [h]; rfl
  · simp

variable [FloorRing K]

theorem floor_near (lo hi : K) (q : ℕ) (hq : 0 < q) (h : lo < hi) (a : K) (t : ℕ)
    (ht : InBin (fun k => (linspace lo hi (q + 1)).getD k 0) q t a) :
    ⌊(a - lo) / (hi - lo) * (q : K)⌋.toNat ≤ t + 1 ∧ t ≤ ⌊(a - lo) / (hi - lo) * (q : K)⌋.toNat + 1 := by
  obtain ⟨h1, h2, h3⟩ := ht
  simp only [] at h2 h3
  rw [linspace_getD lo hi q t hq h1.le] at h2
  rw [linspace_getD lo hi q (t + 1) hq (by omega), linspace_getD lo hi q q hq (le_refl _)] at h3
  have hqp : (0 : K) < q := by exact_mod_cast hq
  have hd : 0 < hi - lo := by linarith
  obtain ⟨v, hv⟩ : ∃ v, v = (a - lo) / (hi - lo) * (q : K) := ⟨_, rfl⟩
  have ha : a = lo + v * ((hi - lo) / q) := by rw [hv]; field_simp; ring
  rw [← hv]
  have hs : 0 < (hi - lo) / q := div_pos hd hqp
  have hle : (t : K) ≤ v := by
    rw [ha] at h2
    have : (t : K) * ((hi - lo) / q) ≤ v * ((hi - lo) / q) := by linarith
    exact le_of_mul_le_mul_right this hs
  have hup : v ≤ (t : K) + 1 := by
    rw [ha] at h3
    rcases h3 with h3 | ⟨h3, h4⟩
    · push_cast at h3
      have : v * ((hi - lo) / q) ≤ ((t : K) + 1) * ((hi - lo) / q) := by linarith
      exact le_of_mul_le_mul_right this hs
    · have : v * ((hi - lo) / q) ≤ (q : K) * ((hi - lo) / q) := by linarith
      have := le_of_mul_le_mul_right this hs
      rw [← h3] at this
      push_cast at this
      exact this
  have f1 : (t : ℤ) ≤ ⌊v⌋ := Int.le_floor.2 (by exact_mod_cast hle)
  have f2 : ⌊v⌋ ≤ (t : ℤ) + 1 := by
    have : (⌊v⌋ : K) ≤ ((t + 1 : ℤ) : K) := by push_cast; exact (Int.floor_le v).trans hup
    exact_mod_cast this
  omega

theorem histogram_getD (vals : List K) (q : ℕ) (lo hi : K) (hq : 0 < q) (h : lo < hi) :
    ∃ c, histogram vals q lo hi = .ok c ∧ c.length = q ∧ ∀ k, k < q → c.getD k 0
      = (vals.filter (fun a => decide (InBin (fun j => lo + (j : K) * ((hi - lo) / q)) q k a))).length := by
  have hl : (linspace lo hi (q + 1)).length - 1 = q := by rw [linspace_length]; rfl
  have hqp : (0 : K) < q := by exact_mod_cast hq
  refine ⟨histCounts (linspace lo hi (q + 1)) (fun a => ⌊(a - lo) / (hi - lo) * (q : K)⌋.toNat) vals, ?_, ?_, ?_⟩
  · unfold histogram
    rw [if_neg (by rintro (h' | h'); exact absurd h' (by omega); exact absurd h' (not_lt.2 h.le))]
    simp only [if_neg h.ne]
  · simp [histCounts, linspace_length]
  · intro k hk
    rw [histCounts_getD _ _ _ (by rw [hl]; exact hq) _ _ k (by rw [hl]; exact hk), hl]
    · congr 1
      apply List.filter_congr
      intro a _
      rw [decide_eq_decide]
      unfold InBin
      constructor
      · rintro ⟨h1, h2, h3⟩
        simp only [] at h2 h3
        rw [linspace_getD lo hi q k hq hk.le] at h2
        rw [linspace_getD lo hi q _ hq hk, linspace_getD lo hi q q hq (le_refl _)] at h3
        exact ⟨h1, h2, h3⟩
      · rintro ⟨h1, h2, h3⟩
        refine ⟨h1, ?_⟩
        simp only []
        rw [linspace_getD lo hi q k hq hk.le, linspace_getD lo hi q _ hq hk, linspace_getD lo hi q q hq (le_refl _)]
        exact ⟨h2, h3⟩
    · intro j hj
      rw [hl] at hj
      rw [linspace_getD lo hi q j hq hj.le, linspace_getD lo hi q _ hq hj]
      have hs : 0 < (hi - lo) / q := div_pos (by linarith) hqp
      push_cast
      nlinarith
    · intro a t ht
      rw [hl] at ht
      exact floor_near lo hi q hq h a t ht

theorem eyeEdge_eq (fs : K) (q : ℕ) : (fun j : ℕ => -1 * fs + (j : K) * ((fs - -1 * fs) / q)) = eyeEdge fs q := by
  funext j
  unfold eyeEdge
  ring

theorem rows_col (osr : ℕ) (sig : List K) (ii : ℕ) (hi : ii < osr) :
    (rows osr sig).map (fun r => r.getD ii 0) = (List.range (sig.length / osr)).map (fun m => sig.getD (m * osr + ii) 0) := by
  unfold rows
  rw [List.map_map]
  apply List.map_congr_left
  intro m _
  simp only [Function.comp]
  rw [List.getD_eq_getElem?_getD, List.getElem?_take, if_pos hi, List.getElem?_drop, ← List.getD_eq_getElem?_getD]

theorem eyeColumns_eq (sig : List K) (osr q : ℕ) (fs : K) (ho : 0 < osr) (hd : sig.length % osr = 0) (hq : 0 < q)
    (hfs : 0 < fs) :
    ∃ cols, eyeColumns sig osr q fs = .ok cols ∧ cols.length = osr ∧ ∀ ii, ii < osr → (cols.getD ii []).length = q ∧
      ∀ k, k < q → (cols.getD ii []).getD k 0 = phaseCount sig osr (sig.length / osr) (eyeEdge fs q) q ii k := by
  obtain ⟨g, hg⟩ : ∃ g : ℕ → List ℕ, ∀ ii,
      histogram ((rows osr sig).map (fun r => r.getD ii 0)) q (-1 * fs) fs = .ok (g ii) ∧ (g ii).length = q ∧
      ∀ k, k < q → (g ii).getD k 0 = (((rows osr sig).map (fun r => r.getD ii 0)).filter
        (fun a => decide (InBin (eyeEdge fs q) q k a))).length := by
    have := fun ii => histogram_getD ((rows osr sig).map (fun r => r.getD ii 0)) q (-1 * fs) fs hq (by linarith)
    choose g hg using this
    refine ⟨g, fun ii => ?_⟩
    have := hg ii
    rw [eyeEdge_eq] at this
    exact this
  refine ⟨(List.range osr).map g, ?_, by simp, ?_⟩
  · unfold eyeColumns
    rw [if_neg (by omega)]
    exact mapM_okP _ g _ (fun ii _ => (hg ii).1)
  · intro ii hi
    rw [map_range_getD _ _ _ _ hi]
    refine ⟨(hg ii).2.1, fun k hk => ?_⟩
    rw [(hg ii).2.2 k hk, rows_col osr sig ii hi, List.filter_map, List.length_map]
    unfold phaseCount
    rw [← filter_range_length]
    rfl

end

end Verif

namespace Verif
open Verif.Spec

theorem eyeDiagram_cols (x : List ℝ) (osrIn osr q : ℕ) (fs : ℝ) (lg : Bool) (hge : osr ≤ osrIn) (cols : List (List ℕ))
    (hc : eyeColumns x osr q fs = .ok cols) :
    eyeDiagram x osrIn osr fs q lg
      = .ok ((cols ++ cols).map (fun c => c.map (eyeEntry lg)), linspace (-1 * fs) fs q) ∧
      ∀ ii, ii < cols.length →
        ((cols ++ cols).map (fun c => c.map (eyeEntry lg))).getD ii [] = (cols.getD ii []).map (eyeEntry lg) ∧
        ((cols ++ cols).map (fun c => c.map (eyeEntry lg))).getD (cols.length + ii) []
          = (cols.getD ii []).map (eyeEntry lg) := by
  constructor
  · unfold eyeDiagram eyeSignal
    rw [if_neg (by omega)]
    show ((eyeColumns x osr q fs).bind _) = _
    rw [hc]; rfl
  · intro ii hi
    constructor
    · rw [getD_map_lt _ [] [] _ (by simp; omega), List.getD_append _ _ _ _ hi]
    · rw [getD_map_lt _ [] [] _ (by simp; omega), List.getD_append_right _ _ _ _ (by omega), Nat.add_sub_cancel_left]

theorem list_sum_getD {K : Type} [Field K] (l : List K) : l.sum = ∑ j ∈ range l.length, l.getD j 0 := by
  induction l with
  | nil => simp
  | cons x xs ih => rw [List.sum_cons, List.length_cons, Finset.sum_range_succ', ih]; simp [add_comm]

theorem eyeEdge_zero {K : Type} [Field K] [LinearOrder K] (fs : K) (q : ℕ) : eyeEdge fs q 0 = -fs := by simp [eyeEdge]

theorem eyeEdge_last {K : Type} [Field K] [LinearOrder K] [IsStrictOrderedRing K] (fs : K) (q : ℕ) (hq : 0 < q) :
    eyeEdge fs q q = fs := by
  unfold eyeEdge
  have : (q : K) ≠ 0 := by exact_mod_cast hq.ne'
  field_simp
  ring

theorem eyeEdge_lt {K : Type} [Field K] [LinearOrder K] [IsStrictOrderedRing K] (fs : K) (hfs : 0 < fs) (q : ℕ)
    (hq : 0 < q) (k : ℕ) : eyeEdge fs q k < eyeEdge fs q (k + 1) := by
  unfold eyeEdge
  have h1 : (0 : K) < q := by exact_mod_cast hq
  have : 0 < 2 * fs / q := by positivity
  push_cast
  linarith

end Verif
