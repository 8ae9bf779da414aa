import Verif.Lemmas.ConvTests
import Verif.Lemmas.SurvivorMl

/-! Lemmas: which codes pass the filter of the convolutional code tests. -/

namespace Verif
open Spec

theorem eraseDups_of_nodup {α : Type} [BEq α] [LawfulBEq α] (l : List α) (h : l.Nodup) : l.eraseDups = l := by
  induction l with
  | nil => rfl
  | cons a l ih =>
    rw [List.nodup_cons] at h
    rw [List.eraseDups_cons, List.filter_eq_self.2, ih h.2]
    intro b hb
    have : b ≠ a := by rintro rfl; exact h.1 hb
    simpa using this

theorem flatMap_nodup_pair {α β : Type} (l : List α) (m : List β) (hl : l.Nodup) (hm : m.Nodup) :
    (l.flatMap (fun a => m.map (fun b => (a, b)))).Nodup := by
  induction l with
  | nil => simp
  | cons a l ih =>
    rw [List.nodup_cons] at hl
    rw [List.flatMap_cons, List.nodup_append]
    refine ⟨List.Nodup.map (fun x y h => (Prod.mk.inj h).2) hm, ih hl.2, ?_⟩
    intro x hx y hy hxy
    subst hxy
    rw [List.mem_map] at hx
    rw [List.mem_flatMap] at hy
    obtain ⟨b, _, rfl⟩ := hx
    obtain ⟨a', ha', hy⟩ := hy
    rw [List.mem_map] at hy
    obtain ⟨b', _, e⟩ := hy
    rw [(Prod.mk.inj e).1] at ha'
    exact hl.1 ha'

section
variable {nO : ℕ} {G : ConvG} {fb : Fb}

/-- the step of the trellis in terms of registers -/
theorem filter_registers (h : GoodCode nO G fb) (hpos : 0 < nO) (hf : Fits nO G fb) {s u : List Int}
    (hs : Word (memSizes G).sum s) (hu : Word G.length u) :
    ∃ w : ℕ → ℤ → Int, (∀ i < G.length, IsRegister (poly fb i) (inBit u G.length i) (w i) ∧ ∀ t < 0, w i t = 0 ∨ w i t = 1) ∧
      stateAt G w 0 = s ∧
      (trellisStep G (fb.map Prod.fst) (fb.map Prod.snd) s u).1
        = (List.range nO).map (fun j => encBit G.length (tf G) (fun i j => isDirect fb i j = true) (inBit u G.length) w j 0) := by
  obtain ⟨w, hw, hst⟩ := state_registers h u s hs
  refine ⟨w, hw, hst, ?_⟩
  have hTF := goodCode_fits h hpos hf
  have hb : ∀ i, inBit u G.length i 0 = u.getD i 0 := fun i => by simp [inBit]
  rw [← hst, trellisStep_eq hTF (fb.map Prod.snd) (inBit u G.length) w 0 le_rfl u (fun i _ => hb i)
    (fun i _ => inBit_binary hu.2 _ _ _) (fun i hi => by rw [fbAt_spec]; exact (hw i hi).1)]
  apply List.map_congr_left
  intro j _
  exact encBit_congr _ _ _ _ _ _ _ _ (fun i _ => direct_spec fb i j)

/-- with `ZeroStep` the output of a step identifies the state and the input -/
theorem zeroStep_inj (h : GoodCode nO G fb) (hpos : 0 < nO) (hf : Fits nO G fb) (hz : ZeroStep nO G fb) {s s' u u' : List Int}
    (hs : Word (memSizes G).sum s) (hs' : Word (memSizes G).sum s') (hu : Word G.length u) (hu' : Word G.length u')
    (ho : (trellisStep G (fb.map Prod.fst) (fb.map Prod.snd) s u).1
      = (trellisStep G (fb.map Prod.fst) (fb.map Prod.snd) s' u').1) : s = s' ∧ u = u' := by
  obtain ⟨w, hw, hst, e⟩ := filter_registers h hpos hf hs hu
  obtain ⟨w', hw', hst', e'⟩ := filter_registers h hpos hf hs' hu'
  rw [e, e'] at ho
  have ho' : ∀ j < nO, encBit G.length (tf G) (fun i j => isDirect fb i j = true) (inBit u G.length) w j 0
      = encBit G.length (tf G) (fun i j => isDirect fb i j = true) (inBit u' G.length) w' j 0 := by
    intro j hj
    have := congrArg (fun l => l.getD j 0) ho
    rwa [map_range_getD _ _ _ _ hj, map_range_getD _ _ _ _ hj] at this
  have hq := zeroStep_eq hz (t := 0) le_rfl
    (fun i hi => ⟨(hw i hi).1, (hw i hi).2, fun t => inBit_binary hu.2 G.length i t⟩)
    (fun i hi => ⟨(hw' i hi).1, (hw' i hi).2, fun t => inBit_binary hu'.2 G.length i t⟩) ho'
  constructor
  · rw [← hst, ← hst']
    apply stateAt_congr
    intro i hi k hk
    have := memOf_lt h hpos i 0 hi hpos
    exact (hq i hi).2 k (by omega)
  · apply ext_getD 0 (by rw [hu.1, hu'.1])
    intro i hi
    rw [hu.1] at hi
    simpa [inBit] using (hq i hi).1

theorem replicate_word (n : ℕ) : Word n (List.replicate n (0 : Int)) :=
  ⟨by simp, fun x hx => Or.inl (List.eq_of_mem_replicate hx)⟩

/-- the zero step -/
theorem trellisStep_zero (h : GoodCode nO G fb) (hpos : 0 < nO) (hf : Fits nO G fb) :
    trellisStep G (fb.map Prod.fst) (fb.map Prod.snd) (List.replicate (memSizes G).sum 0) (List.replicate G.length 0)
      = (List.replicate nO 0, List.replicate (memSizes G).sum 0) := by
  have hTF := goodCode_fits h hpos hf
  have e : List.replicate (memSizes G).sum (0 : Int) = stateAt G (fun _ _ => 0) 0 := by
    have hw := stateAt_word G (fun _ _ => 0) 0 (fun _ _ _ _ => Or.inl rfl)
    symm
    rw [List.eq_replicate_iff]
    refine ⟨hw.1, fun x hx => ?_⟩
    unfold stateAt cells at hx
    rw [List.mem_flatten] at hx
    obtain ⟨r, hr, hx⟩ := hx
    rw [List.mem_map] at hr
    obtain ⟨i, _, rfl⟩ := hr
    rw [List.mem_map] at hx
    obtain ⟨k, _, rfl⟩ := hx
    rfl
  rw [e, trellisStep_eq hTF (fb.map Prod.snd) (fun _ _ => 0) (fun _ _ => 0) 0 le_rfl _
    (fun i _ => (getD_zero_of_mem (fun x hx => List.eq_of_mem_replicate hx) i).symm) (fun _ _ => Or.inl rfl)
    (fun i _ t _ => by simp)]
  refine Prod.ext ?_ ?_
  · simp only []
    rw [List.eq_replicate_iff]
    refine ⟨by simp, fun x hx => ?_⟩
    rw [List.mem_map] at hx
    obtain ⟨j, _, rfl⟩ := hx
    unfold encBit tapSum
    simp
  · exact stateAt_congr (fun _ _ _ _ => rfl)

theorem flatten_sum_zero {g : List (List Int)} (hg : ∀ r ∈ g, IsBinary r) (h : g.flatten.sum = 0) (j k : ℕ) :
    (g.getD j []).getD k 0 = 0 := by
  have hb : IsBinary g.flatten := by
    intro x hx
    rw [List.mem_flatten] at hx
    obtain ⟨r, hr, hx⟩ := hx
    exact hg r hr x hx
  have h0 := binary_sum_nonpos hb h.le
  rcases Nat.lt_or_ge j g.length with hj | hj
  · apply getD_zero_of_mem
    intro x hx
    exact h0 x (List.mem_flatten.2 ⟨_, mem_of_getD [] g hj, hx⟩)
  · rw [getD_of_le [] g hj]
    rfl

/-- with `ZeroStep` no generator matrix is zero -/
theorem zeroStep_nonzero (h : GoodCode nO G fb) (hz : ZeroStep nO G fb) (i : ℕ)
    (hi : i < G.length) : (G.getD i []).flatten.sum ≠ 0 := by
  intro h0
  have hg := h.1.2 (G.getD i []) (mem_of_getD [] G hi)
  obtain ⟨L, _, hL⟩ := hg.2
  have hzero := flatten_sum_zero (fun r hr => (hL r hr).2) h0
  have hx := fun i => exists_register (poly fb i) (inBit ((List.range G.length).map (fun k => if k = i then (1 : Int) else 0)) G.length i) []
  obtain ⟨w, hw, hw0⟩ := hx i
  have hb : ∀ k : ℕ, w (-1 - k) = 0 := fun k => by rw [hw0 k]; simp
  have hneg : ∀ t < 0, w t = 0 := by
    intro t ht
    have := hb (-1 - t).toNat
    rwa [show -1 - ((-1 - t).toNat : ℤ) = t by omega] at this
  have hin : inBit ((List.range G.length).map (fun k => if k = i then (1 : Int) else 0)) G.length i 0 = 1 := by
    simp only [inBit, le_refl, if_true, Int.toNat_zero, Nat.zero_mul, Nat.zero_add]
    rw [map_range_getD _ _ _ _ hi, if_pos rfl]
  have := (hz (fun k => if k = i then inBit ((List.range G.length).map (fun k => if k = i then (1 : Int) else 0)) G.length i
      else fun _ => 0) (fun k => if k = i then w else fun _ => 0) 0 le_rfl (by
    intro k hk
    by_cases hki : k = i
    · subst hki
      rw [if_pos rfl, if_pos rfl]
      refine ⟨hw, fun t ht => Or.inl (hneg t ht), fun t => inBit_binary ?_ _ _ _⟩
      intro x hx
      rw [List.mem_map] at hx
      obtain ⟨m, _, rfl⟩ := hx
      split
      · exact Or.inr rfl
      · exact Or.inl rfl
    · rw [if_neg hki, if_neg hki]
      exact ⟨fun t _ => by simp, fun _ _ => Or.inl rfl, fun _ => Or.inl rfl⟩) (by
    intro j hj
    unfold encBit
    rw [Finset.sum_eq_zero]
    · rfl
    · intro k _
      by_cases hki : k = i
      · subst hki
        unfold tapSum tf
        simp only [hzero, zero_mul, Finset.sum_const_zero, ite_self]
      · unfold tapSum
        simp [hki]) i hi).1
  rw [if_pos rfl, hin] at this
  omega

theorem trellisItems_eq (G : ConvG) (fb : ConvFb) (uf : ConvUf) :
    trellisItems G fb uf = ((trellisStates G).flatMap (fun s => (getBinPerm G.length).map (fun u => (s, u)))).map
      (fun q => (q.1, trellisStep G fb uf q.1 q.2)) := by
  unfold trellisItems
  rw [List.map_flatMap]
  simp only [List.map_map]
  rfl

theorem mem_pairs {s u : List Int}
    (hq : (s, u) ∈ (trellisStates G).flatMap (fun s => (getBinPerm G.length).map (fun u => (s, u)))) :
    Word (memSizes G).sum s ∧ Word G.length u := by
  rw [List.mem_flatMap] at hq
  obtain ⟨s', hs', hq⟩ := hq
  rw [List.mem_map] at hq
  obtain ⟨u', hu', e⟩ := hq
  cases e
  exact ⟨(mem_getBinPerm _ _).1 hs', (mem_getBinPerm _ _).1 hu'⟩

theorem filter_items (G : ConvG) (fb : ConvFb) (uf : ConvUf) (l : List (List Int)) (hl : l.Nodup) (s : List Int) (hs : s ∈ l) :
    ((l.flatMap (fun s => (getBinPerm G.length).map (fun u => (s, trellisStep G fb uf s u)))).filter
      (fun q => q.1 == s)) = (getBinPerm G.length).map (fun u => (s, trellisStep G fb uf s u)) := by
  induction l with
  | nil => simp at hs
  | cons a l ih =>
    rw [List.nodup_cons] at hl
    rw [List.flatMap_cons, List.filter_append]
    by_cases ha : a = s
    · subst ha
      rw [List.filter_eq_self.2, List.filter_eq_nil_iff.2, List.append_nil]
      · intro q hq
        rw [List.mem_flatMap] at hq
        obtain ⟨s', hs', hq⟩ := hq
        rw [List.mem_map] at hq
        obtain ⟨u, _, rfl⟩ := hq
        simp only [beq_iff_eq]
        rintro rfl
        exact hl.1 hs'
      · intro q hq
        rw [List.mem_map] at hq
        obtain ⟨u, _, rfl⟩ := hq
        simp
    · rw [List.filter_eq_nil_iff.2, List.nil_append]
      · rw [List.mem_cons] at hs
        exact ih hl.2 (hs.resolve_left (fun e => ha e.symm))
      · intro q hq
        rw [List.mem_map] at hq
        obtain ⟨u, _, rfl⟩ := hq
        simpa using ha

/-- codes with `ZeroStep` pass the filter -/
theorem zeroStep_accepts (h : GoodCode nO G fb) (hpos : 0 < nO) (hf : Fits nO G fb) (hz : ZeroStep nO G fb) :
    convTestAccepts G (fb.map Prod.fst) (fb.map Prod.snd) = true := by
  have hnS : (trellisStates G).Nodup := getBinPerm_nodup _
  have hnU : (getBinPerm G.length).Nodup := getBinPerm_nodup _
  unfold convTestAccepts
  simp only [Bool.and_eq_true]
  refine ⟨⟨⟨?_, ?_⟩, ?_⟩, ?_⟩
  · rw [eraseDups_of_nodup, beq_iff_eq]
    rw [trellisItems_eq]
    refine List.Nodup.map_on ?_ (flatMap_nodup_pair _ _ hnS hnU)
    rintro ⟨s, u⟩ hq ⟨s', u'⟩ hq' e
    have e2 := (Prod.mk.inj (Prod.mk.inj e).2).1
    obtain ⟨a, b⟩ := mem_pairs hq
    obtain ⟨a', b'⟩ := mem_pairs hq'
    obtain ⟨r1, r2⟩ := zeroStep_inj h hpos hf hz a a' b b' e2
    rw [r1, r2]
  · rw [List.all_eq_true]
    intro s hs
    unfold trellisItems
    rw [filter_items _ _ _ _ hnS s hs, List.map_map, eraseDups_of_nodup]
    · simp
    · refine List.Nodup.map_on ?_ hnU
      intro u hu u' hu' e
      exact (zeroStep_inj h hpos hf hz ((mem_getBinPerm _ _).1 hs) ((mem_getBinPerm _ _).1 hs) ((mem_getBinPerm _ _).1 hu)
        ((mem_getBinPerm _ _).1 hu') e).2
  · rw [List.all_eq_true]
    intro g hg
    obtain ⟨i, hi, rfl⟩ := List.getElem_of_mem hg
    have := zeroStep_nonzero h hz i hi
    rw [getD_of_lt [] G hi] at this
    simpa using this
  · rw [List.all_eq_true, trellisItems_eq]
    intro q hq
    rw [List.mem_map] at hq
    obtain ⟨⟨s, u⟩, hq, rfl⟩ := hq
    obtain ⟨a, b⟩ := mem_pairs hq
    simp only [Bool.not_eq_true', Bool.and_eq_false_iff, beq_eq_false_iff_ne]
    by_cases h0 : (trellisStep G (fb.map Prod.fst) (fb.map Prod.snd) s u).1.sum = 0
    · right
      obtain ⟨w, _, _, e⟩ := filter_registers h hpos hf a b
      have hbin : IsBinary (trellisStep G (fb.map Prod.fst) (fb.map Prod.snd) s u).1 := by
        rw [e]
        intro x hx
        rw [List.mem_map] at hx
        obtain ⟨j, _, rfl⟩ := hx
        exact Int.emod_two_eq_zero_or_one _
      have hout : (trellisStep G (fb.map Prod.fst) (fb.map Prod.snd) s u).1 = List.replicate nO 0 := by
        rw [List.eq_replicate_iff]
        exact ⟨by rw [e]; simp, binary_sum_nonpos hbin h0.le⟩
      have hz0 := trellisStep_zero h hpos hf
      obtain ⟨r1, r2⟩ := zeroStep_inj h hpos hf hz a (replicate_word _) b (replicate_word _) (by rw [hout, hz0])
      rw [r1, r2, hz0]
      simp
    · exact Or.inl h0

end

end Verif
