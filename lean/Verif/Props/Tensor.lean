import Verif.Spec.Tensor
import Verif.Props.Linear
import Verif.Props.Mapping
import Verif.Props.Slicer
import Verif.Props.Coding2
import Verif.Lemmas.Delay

/-!
# Arrays of any rank: bits and integers, slicer, quantizer, mapping and Gray code (C119)
-/

set_option linter.unusedSectionVars false

open Finset

namespace Verif
open Spec

theorem flatIndex_lt : ∀ {idx shape : List ℕ}, InRange idx shape → flatIndex shape idx < shape.prod
  | [], [], _ => by simp [flatIndex]
  | i :: is, d :: ds, h => by
    cases h with
    | cons h1 h2 =>
      have ih := flatIndex_lt h2
      have : (i + 1) * ds.prod ≤ d * ds.prod := Nat.mul_le_mul_right _ h1
      simp only [flatIndex, List.prod_cons]
      rw [Nat.succ_mul] at this
      omega

/-- **C119.** Multi-indices and positions in C order correspond one to one: every position below the number of entries is that
of exactly one multi-index. -/
theorem C119_index (shape : List ℕ) (k : ℕ) (hk : k < shape.prod) :
    ∃! idx, InRange idx shape ∧ flatIndex shape idx = k := by
  induction shape generalizing k with
  | nil =>
    refine ⟨[], ⟨.nil, by simp [flatIndex] at hk ⊢; omega⟩, fun y hy => ?_⟩
    cases hy.1; rfl
  | cons d ds ih =>
    rw [List.prod_cons] at hk
    have hp : 0 < ds.prod := by
      rcases Nat.eq_zero_or_pos ds.prod with h | h
      · rw [h] at hk; omega
      · exact h
    obtain ⟨is, ⟨h1, h2⟩, h3⟩ := ih (k % ds.prod) (Nat.mod_lt _ hp)
    refine ⟨k / ds.prod :: is, ⟨.cons ((Nat.div_lt_iff_lt_mul hp).2 hk) h1, ?_⟩, ?_⟩
    · simp only [flatIndex]
      rw [h2, Nat.mul_comm]
      exact Nat.div_add_mod k _
    · rintro y ⟨hy, hf⟩
      cases hy with
      | cons hi his =>
        rename_i i js
        have hlt := flatIndex_lt his
        simp only [flatIndex] at hf
        have e1 : k / ds.prod = i := by
          rw [← hf, Nat.add_comm, Nat.add_mul_div_right _ _ hp, Nat.div_eq_of_lt hlt, Nat.zero_add]
        have e2 : k % ds.prod = flatIndex ds js := by
          rw [← hf, Nat.add_comm, Nat.add_mul_mod_self_right, Nat.mod_eq_of_lt hlt]
        rw [e1, h3 js ⟨his, e2.symm⟩]

theorem flatIndex_snoc (n i : ℕ) : ∀ {idx shape : List ℕ}, InRange idx shape →
    flatIndex (shape ++ [n]) (idx ++ [i]) = flatIndex shape idx * n + i
  | [], [], _ => by simp [flatIndex]
  | j :: is, d :: ds, h => by
    cases h with
    | cons h1 h2 =>
      simp only [List.cons_append, flatIndex, flatIndex_snoc n i h2, List.prod_append, List.prod_singleton]
      ring

theorem inRange_snoc {idx shape : List ℕ} (h : InRange idx shape) {i n : ℕ} (hi : i < n) :
    InRange (idx ++ [i]) (shape ++ [n]) := List.rel_append h (List.Forall₂.cons hi .nil)

theorem elementwise_map {α β : Type} (d : α) (e : β) (R : α → β → Prop) (a : Arr α) (ha : WellFormed a) (f : α → β)
    (h : ∀ x ∈ a.data, R x (f x)) : Elementwise d e R a ⟨a.shape, a.data.map f⟩ := by
  refine ⟨rfl, by simpa [WellFormed] using ha, fun idx hi => ?_⟩
  have hlt : flatIndex a.shape idx < a.data.length := by rw [ha]; exact flatIndex_lt hi
  unfold arrAt
  rw [getD_map_lt f d e _ hlt]
  exact h _ (mem_of_getD d _ hlt)

/-- An array of binary digits. -/
def BinaryArr (a : Arr Int) : Prop := ∀ idx, InRange idx a.shape → arrAt 0 a idx = 0 ∨ arrAt 0 a idx = 1

theorem all_of_entries {α : Type} (d : α) (P : α → Prop) (a : Arr α) (ha : WellFormed a)
    (h : ∀ idx, InRange idx a.shape → P (arrAt d a idx)) : ∀ x ∈ a.data, P x := by
  intro x hx
  obtain ⟨k, hk, rfl⟩ := List.getElem_of_mem hx
  obtain ⟨idx, ⟨h1, h2⟩, _⟩ := C119_index a.shape k (by rw [← ha]; exact hk)
  have := h idx h1
  unfold arrAt at this
  rwa [h2, getD_of_lt d _ hk] at this

theorem arr_ext {α : Type} (d : α) {a b : Arr α} (ha : WellFormed a) (hb : WellFormed b) (hs : a.shape = b.shape)
    (h : ∀ idx, InRange idx a.shape → arrAt d a idx = arrAt d b idx) : a = b := by
  obtain ⟨s, x⟩ := a
  obtain ⟨t, y⟩ := b
  obtain rfl : s = t := hs
  congr 1
  unfold WellFormed at ha hb
  refine ext_getD d (by simp only at ha hb; omega) fun k hk => ?_
  obtain ⟨idx, ⟨h1, h2⟩, _⟩ := C119_index s k (by simp only at ha; omega)
  have := h idx h1
  simp only [arrAt, h2] at this
  exact this

/-- **C119.** `bin2uint` of an array of any rank removes the last axis and reads it most significant bit first, at every
multi-index of the other axes; a 0-d array raises IndexError. -/
theorem C119_bin2uint (s : List ℕ) (n : ℕ) (l : List Int) (h : WellFormed (⟨s ++ [n], l⟩ : Arr Int)) :
    (∃ b, bin2uintArr ⟨s ++ [n], l⟩ = .ok b ∧ b.shape = s ∧ WellFormed b ∧
      ∀ idx, InRange idx s → arrAt 0 b idx
        = ∑ i ∈ range n, 2 ^ (n - 1 - i) * arrAt 0 (⟨s ++ [n], l⟩ : Arr Int) (idx ++ [i])) ∧
    ∀ x, bin2uintArr ⟨[], x⟩ = .error .indexError := by
  have hl : l.length = s.prod * n := by simpa [WellFormed] using h
  refine ⟨⟨⟨s, (reshape2 s.prod n l).map bin2uint⟩, by simp [bin2uintArr], rfl, by simp [WellFormed, reshape2_length],
    fun idx hi => ?_⟩, fun x => rfl⟩
  have hlt := flatIndex_lt hi
  simp only [arrAt]
  rw [getD_map_lt bin2uint [] 0 _ (by rw [reshape2_length]; exact hlt)]
  have hrow : ((reshape2 s.prod n l).getD (flatIndex s idx) []).length = n :=
    reshape2_mat _ _ _ hl _ (mem_of_getD [] _ (by rw [reshape2_length]; exact hlt))
  unfold bin2uint
  rw [sum_zipWith_eq (· * ·) 0 0 _ _ (by simp), hrow]
  refine sum_congr rfl fun i hi' => ?_
  have hin := mem_range.1 hi'
  rw [reshape2_getD 0 _ _ _ _ _ hlt hin, flatIndex_snoc n i hi, map_range_getD (fun i => (2 : Int) ^ (n - 1 - i)) 0 n i hin]
  ring

/-- **C119.** `uint2bin` of an array of any rank adds a last axis with the bits of every entry, most significant first. -/
theorem C119_uint2bin (a : Arr Int) (ha : WellFormed a) (n : ℕ) :
    (uint2binArr a n).shape = a.shape ++ [n] ∧ WellFormed (uint2binArr a n) ∧
      ∀ idx i, InRange idx a.shape → i < n →
        arrAt 0 (uint2binArr a n) (idx ++ [i]) = (arrAt 0 a idx / 2 ^ (n - 1 - i)) % 2 := by
  have hm : Mat n (a.data.map (fun x => uint2bin x n)) := by
    intro r hr
    obtain ⟨x, _, rfl⟩ := List.mem_map.1 hr
    simp [uint2bin]
  have hlen : (uint2binArr a n).data.length = a.shape.prod * n := by
    unfold uint2binArr
    simp only
    rw [flatten_uniform_length n _ hm, List.length_map, ha]
  refine ⟨rfl, by unfold WellFormed; rw [hlen]; simp [uint2binArr], fun idx i hi hin => ?_⟩
  have hlt := flatIndex_lt hi
  have hlt' : flatIndex a.shape idx < a.data.length := by rw [ha]; exact hlt
  unfold arrAt
  rw [show (uint2binArr a n).shape = a.shape ++ [n] from rfl, flatIndex_snoc n i hi,
    ← reshape2_getD 0 a.shape.prod n (uint2binArr a n).data _ _ hlt hin]
  have : reshape2 a.shape.prod n (uint2binArr a n).data = a.data.map (fun x => uint2bin x n) := by
    have := reshape2_of_flat hm
    rw [List.length_map, ha] at this
    exact this
  rw [this, getD_map_lt (fun x => uint2bin x n) 0 [] _ hlt', uint2bin, map_range_getD _ 0 n i hin]
  have := Int.emod_two_eq_zero_or_one (a.data.getD (flatIndex a.shape idx) 0 / 2 ^ (n - 1 - i))
  split <;> omega

/-- **C119.** From integers to bits and back: an array of any rank keeps its shape and every entry is reduced modulo `2^n`. -/
theorem C119_int_roundtrip (a : Arr Int) (ha : WellFormed a) (n : ℕ) :
    ∃ b, bin2uintArr (uint2binArr a n) = .ok b ∧ Elementwise 0 0 (fun x y => y = x % 2 ^ n) a b := by
  have hm : Mat n (a.data.map (fun x => uint2bin x n)) := by
    intro r hr
    obtain ⟨x, _, rfl⟩ := List.mem_map.1 hr
    simp [uint2bin]
  refine ⟨⟨a.shape, a.data.map fun x => x % 2 ^ n⟩, ?_, elementwise_map _ _ _ _ ha _ fun _ _ => rfl⟩
  have h1 := reshape2_of_flat hm
  rw [List.length_map, ha] at h1
  simp only [bin2uintArr, uint2binArr, List.getLast?_append, List.getLast?_singleton, Option.some_or, List.dropLast_concat]
  rw [h1, List.map_map]
  congr 2
  exact List.map_congr_left fun x _ => (C41_int_roundtrip x n).1

/-- **C119.** From bits to integers and back: an array of binary digits of any rank ≥ 1 comes back unchanged. -/
theorem C119_bits_roundtrip (s : List ℕ) (n : ℕ) (l : List Int) (h : WellFormed (⟨s ++ [n], l⟩ : Arr Int))
    (hb : BinaryArr ⟨s ++ [n], l⟩) :
    ∃ b, bin2uintArr ⟨s ++ [n], l⟩ = .ok b ∧ uint2binArr b n = ⟨s ++ [n], l⟩ := by
  have hl : l.length = s.prod * n := by simpa [WellFormed] using h
  have hbin : ∀ x ∈ l, x = 0 ∨ x = 1 := all_of_entries 0 (fun x => x = 0 ∨ x = 1) _ h hb
  refine ⟨⟨s, (reshape2 s.prod n l).map bin2uint⟩, by simp [bin2uintArr], ?_⟩
  unfold uint2binArr
  simp only [List.map_map]
  congr 1
  have : (reshape2 s.prod n l).map ((fun x => uint2bin x n) ∘ bin2uint) = reshape2 s.prod n l := by
    conv_rhs => rw [← List.map_id (reshape2 s.prod n l)]
    refine List.map_congr_left fun r hr => ?_
    have hrl : r.length = n := reshape2_mat _ _ _ hl r hr
    have hrb : IsBinary r := fun x hx => hbin x (by
      rw [← reshape2_flat _ _ _ hl]
      exact List.mem_flatten.2 ⟨r, hr, hx⟩)
    have := C41_bits_roundtrip r hrb
    rw [hrl] at this
    exact this
  rw [this, reshape2_flat _ _ _ hl]

section slicer
variable {K : Type} [Field K] [LinearOrder K] [IsStrictOrderedRing K]

/-- **C119.** `slicer` on vectors and on matrices with at least one row keeps the shape, and every entry becomes the nearest
level, the first one on ties. -/
theorem C119_slicer_partial (a : Arr K) (ha : WellFormed a) (hs : (∃ x, a.shape = [x]) ∨ ∃ y x, 0 < y ∧ a.shape = [y, x])
    (levels : List K) (hlv : levels ≠ []) :
    ∃ b, slicerArr a (some levels) = .ok b ∧ Elementwise 0 0 (NearestFirst levels) a b := by
  have h0 : levels.length ≠ 0 := by simpa using hlv
  have he := elementwise_map 0 0 (NearestFirst levels) a ha (sliceOne levels) fun x _ => sliceOne_spec levels hlv x
  refine ⟨_, ?_, he⟩
  obtain ⟨s, l⟩ := a
  rcases hs with ⟨x, rfl⟩ | ⟨y, x, hy, rfl⟩
  · have : l.length = x := by simpa [WellFormed] using ha
    simp [slicerArr, h0, this]
  · simp [slicerArr, hlv, hy]

/-- **C119** *violated*: the slicer does not return "a matrix of the same dimension" for arrays with three or more axes, nor
for matrices without rows. They come back as vectors: the entry at a multi-index is found at the position of that
multi-index in C order. -/
theorem C119_negative_slicer (a : Arr K) (ha : WellFormed a) (hs : 3 ≤ a.shape.length ∨ ∃ x, a.shape = [0, x])
    (levels : List K) (hlv : levels ≠ []) :
    ∃ b, slicerArr a (some levels) = .ok b ∧ b.shape = [a.shape.prod] ∧ b.shape ≠ a.shape ∧
      ∀ idx, InRange idx a.shape → NearestFirst levels (arrAt 0 a idx) (arrAt 0 b [flatIndex a.shape idx]) := by
  have h0 : levels.length ≠ 0 := by simpa using hlv
  have he := elementwise_map 0 0 (NearestFirst levels) a ha (sliceOne levels) fun x _ => sliceOne_spec levels hlv x
  refine ⟨⟨[a.shape.prod], a.data.map (sliceOne levels)⟩, ?_, rfl, ?_, fun idx hi => ?_⟩
  · obtain ⟨s, l⟩ := a
    have hl : l.length = s.prod := ha
    rcases hs with h | ⟨x, rfl⟩
    · match s, h with
      | p :: q :: r :: t, _ => simp only [slicerArr, Option.getD_some, h0, if_false, List.length_map, hl]
    · simp only [slicerArr, Option.getD_some, h0, if_false, List.length_map, hl, gt_iff_lt, lt_irrefl]
  · intro e
    have e' := congrArg List.length e
    simp only [List.length_singleton] at e'
    rcases hs with h | ⟨x, h⟩
    · omega
    · rw [h] at e'; simp at e'
  · have := he.2.2 idx hi
    unfold arrAt at this ⊢
    simpa [flatIndex] using this

/-- **C119.** Exceptions of the slicer: 0-d arrays and, for the other ranks, empty level vectors. Without levels the four
PAM4 levels are used. -/
theorem C119_slicer_errors (a : Arr K) (levels : Option (List K)) :
    (a.shape = [] → slicerArr a levels = .error .indexError) ∧
    (a.shape ≠ [] → slicerArr a (some []) = .error .valueError) ∧
    slicerArr a none = slicerArr a (some [-3, -1, 1, 3]) := by
  obtain ⟨s, l⟩ := a
  refine ⟨fun h => ?_, fun h => ?_, rfl⟩
  · simp only at h; subst h; rfl
  · match s, h with
    | [x], _ => rfl
    | [y, x], _ => rfl
    | p :: q :: r :: t, _ => rfl

/-- **C119.** On vectors and on matrices the slicer of arrays is the slicer of C20. -/
theorem C119_slicer_agrees (levels : Option (List K)) (l : List K) (x : ℕ) (r : List (List K)) (hr : Mat x r) :
    slicerArr ⟨[l.length], l⟩ levels = (slicer (.vec l) levels).map (fun o => match o with
      | .vec o => ⟨[o.length], o⟩ | .mat w o => ⟨[o.length, w], o.flatten⟩ | .pyList o => ⟨[], o⟩) ∧
    slicerArr ⟨[r.length, x], r.flatten⟩ levels = (slicer (.mat x r) levels).map (fun o => match o with
      | .vec o => ⟨[o.length], o⟩ | .mat w o => ⟨[o.length, w], o.flatten⟩ | .pyList o => ⟨[], o⟩) := by
  have hfl : (r.flatten.map (sliceOne (levels.getD [-3, -1, 1, 3]))).length = r.length * x := by
    rw [List.length_map, flatten_uniform_length x _ hr]
  constructor
  · simp only [slicerArr, slicer]
    split <;> simp [Except.map]
  · simp only [slicerArr, slicer]
    split
    · simp [Except.map]
    · by_cases h : 0 < r.length
      · simp only [gt_iff_lt, h, if_true, Except.map]
        rw [reshape2_length, reshape2_flat _ _ _ hfl]
      · simp only [gt_iff_lt, h, if_false, Except.map]

/-- **C119.** `quantize` on vectors and on matrices with rows keeps the shape and every entry becomes the nearest level of the
fixed point format; with more axes the result is a vector. -/
theorem C119_quantize_partial (a : Arr K) (ha : WellFormed a) (hs : a.shape ≠ []) (t : ℕ) (fb : ℤ) (ty : FixType)
    (levels : List K) (hq : quantLevels t fb ty = .ok levels) (hlv : levels ≠ []) :
    ∃ b, quantizeArr a t fb ty = .ok b ∧ WellFormed b ∧
      (∀ idx, InRange idx a.shape → NearestFirst levels (arrAt 0 a idx) (b.data.getD (flatIndex a.shape idx) 0)) ∧
      (b.shape = a.shape ↔ (∃ x, a.shape = [x]) ∨ ∃ y x, 0 < y ∧ a.shape = [y, x]) := by
  have hqa : quantizeArr a t fb ty = slicerArr a (some levels) := by unfold quantizeArr; rw [hq]; rfl
  rw [hqa]
  by_cases h : (∃ x, a.shape = [x]) ∨ ∃ y x, 0 < y ∧ a.shape = [y, x]
  · obtain ⟨b, h1, h2, h3, h4⟩ := C119_slicer_partial a ha h levels hlv
    refine ⟨b, h1, h3, fun idx hi => ?_, iff_of_true h2 h⟩
    have := h4 idx hi
    unfold arrAt at this
    rwa [h2] at this
  · have hs' : 3 ≤ a.shape.length ∨ ∃ x, a.shape = [0, x] := by
      obtain ⟨s, l⟩ := a
      simp only at hs h ⊢
      match s, hs, h with
      | [x], _, h => exact absurd (Or.inl ⟨x, rfl⟩) h
      | [y, x], _, h =>
        right
        rcases Nat.eq_zero_or_pos y with rfl | hy
        · exact ⟨x, rfl⟩
        · exact absurd (Or.inr ⟨y, x, hy, rfl⟩) h
      | p :: q :: r :: t, _, _ => left; simp
    obtain ⟨b, h1, h2, h3, h4⟩ := C119_negative_slicer a ha hs' levels hlv
    refine ⟨b, h1, ?_, fun idx hi => ?_, iff_of_false h3 h⟩
    · have h0 : levels.length ≠ 0 := by simpa using hlv
      have hb : b = ⟨[a.shape.prod], a.data.map (sliceOne levels)⟩ := by
        obtain ⟨s, l⟩ := a
        have hl : l.length = s.prod := ha
        have : slicerArr ⟨s, l⟩ (some levels) = .ok ⟨[s.prod], l.map (sliceOne levels)⟩ := by
          rcases hs' with h | ⟨x, h⟩
          · match s, h with
            | p :: q :: r :: t, _ => simp only [slicerArr, Option.getD_some, h0, if_false, List.length_map, hl]
          · simp only at h; subst h
            simp only [slicerArr, Option.getD_some, h0, if_false, List.length_map, hl, gt_iff_lt, lt_irrefl]
        rw [this] at h1
        exact (Except.ok.inj h1).symm
      rw [hb]
      simp only [WellFormed, List.length_map, List.prod_singleton]
      exact ha
    · have := h4 idx hi
      simpa [arrAt, h2, flatIndex] using this

end slicer

/-- **C119.** `mapping` of an array of any rank keeps the shape, maps symbol `k` to level `k` (negated with `pn_inv`), and
`demapping` returns the symbols in the same shape. -/
theorem C119_mapping (c : Constellation) (fs pn : Bool) (a : Arr Int) (ha : WellFormed a)
    (hs : ∀ idx, InRange idx a.shape → 0 ≤ arrAt 0 a idx ∧ arrAt 0 a idx < numLevels c) :
    ∃ b, mappingArr a c fs none pn = .ok b ∧
      Elementwise 0 0 (fun k y => y = if pn then -((getLevels c fs).getD k.toNat 0) else (getLevels c fs).getD k.toNat 0) a b ∧
      (demappingArr b c fs pn).1 = .ok a := by
  have hall := all_of_entries 0 (fun x => 0 ≤ x ∧ x < (numLevels c : ℤ)) a ha hs
  have hlen : (getLevels c fs).length = numLevels c := by rw [getLevels_length, numLevels_eq]
  obtain ⟨lv, h1, h2, h3⟩ := C17_mapping_roundtrip c fs pn a.data hall
  have h4 := (C17_mapping_levels c fs pn a.data (getLevels c fs)).2.1 hlen hall
  have h5 : mapping a.data c fs (some (getLevels c fs)) pn = mapping a.data c fs none pn := by
    unfold mapping; simp
  rw [h5, h1] at h4
  have hlv := Except.ok.inj h4
  refine ⟨⟨a.shape, lv⟩, by unfold mappingArr; rw [h1]; rfl, ?_, by unfold demappingArr; rw [h3]; rfl⟩
  rw [hlv]
  exact elementwise_map _ _ _ _ ha _ fun _ _ => rfl

/-- **C119** (partial: samples closer than half a level distance to a level, as in C18). `demapping` of an array of any rank
keeps the shape and returns the number of the nearest level at every multi-index. -/
theorem C119_demapping_partial (c : Constellation) (fs pn : Bool) (a : Arr ℝ) (ha : WellFormed a) (sym : Arr ℕ)
    (hsym : WellFormed sym) (hshape : sym.shape = a.shape)
    (h : ∀ idx, InRange idx a.shape → ∃ l, (getLevels c fs)[arrAt 0 sym idx]? = some l ∧
      |(if pn then -(arrAt 0 a idx) else arrAt 0 a idx) - l|
        < ((getLevels c fs).getD 1 0 - (getLevels c fs).getD 0 0) / 2) :
    (demappingArr a c fs pn).1 = .ok ⟨a.shape, sym.data.map (fun (k : ℕ) => (k : Int))⟩ ∧
      (pn = false → (demappingArr a c fs pn).2 = a) := by
  have hlen : sym.data.length = a.data.length := by rw [hsym, ha, hshape]
  obtain ⟨h1, h2⟩ := C18_demapping_nearest_partial c fs pn a.data sym.data hlen (by
    intro i s k hs hk
    obtain ⟨hi, rfl⟩ := List.getElem?_eq_some_iff.1 hs
    obtain ⟨hi', rfl⟩ := List.getElem?_eq_some_iff.1 hk
    obtain ⟨idx, ⟨g1, g2⟩, _⟩ := C119_index a.shape i (by rw [← ha]; exact hi)
    have := h idx g1
    unfold arrAt at this
    rw [hshape, g2, getD_of_lt _ _ hi, getD_of_lt _ _ hi'] at this
    exact this)
  refine ⟨by unfold demappingArr; rw [h1]; rfl, fun hp => ?_⟩
  unfold demappingArr
  rw [h2 hp]

/-- **C119** (partial: every constellation except PAM3, see C16). Gray coding of an array of any rank keeps the shape and
gives valid symbols, and decoding returns the array. -/
theorem C119_gray_partial (c : Constellation) (hc : c ≠ .pam3) (a : Arr Int) (ha : WellFormed a)
    (hs : ∀ idx, InRange idx a.shape → 0 ≤ arrAt 0 a idx ∧ arrAt 0 a idx < (intLevels c).length) :
    ∃ b, codingGrayArr a c = .ok b ∧ b.shape = a.shape ∧ WellFormed b ∧
      (∀ idx, InRange idx b.shape → 0 ≤ arrAt 0 b idx ∧ arrAt 0 b idx < (intLevels c).length) ∧
      decodingGrayArr b c = .ok a := by
  obtain ⟨q, h1, h2, h3, h4⟩ := C16_gray_roundtrip_partial c hc a.data
    (all_of_entries 0 (fun x => 0 ≤ x ∧ x < ((intLevels c).length : ℤ)) a ha hs)
  have hwf : WellFormed (⟨a.shape, q⟩ : Arr Int) := by unfold WellFormed at ha ⊢; simp only; omega
  refine ⟨⟨a.shape, q⟩, by unfold codingGrayArr; rw [h1]; rfl, rfl, hwf, fun idx hi => ?_,
    by unfold decodingGrayArr; simp only; rw [h4]; rfl⟩
  have hlt : flatIndex a.shape idx < q.length := by rw [h2, ha]; exact flatIndex_lt hi
  exact h3 _ (mem_of_getD 0 q hlt)

/-! Concrete arrays with three axes. -/

example : bin2uintArr ⟨[2, 1, 3], [1, 0, 1, 0, 1, 1]⟩ = .ok ⟨[2, 1], [5, 3]⟩ ∧
    uint2binArr ⟨[2, 1], [5, 3]⟩ 3 = ⟨[2, 1, 3], [1, 0, 1, 0, 1, 1]⟩ ∧
    WellFormed (⟨[2, 1, 3], [1, 0, 1, 0, 1, 1]⟩ : Arr Int) ∧
    arrAt 0 (⟨[2, 1, 3], [1, 0, 1, 0, 1, 1]⟩ : Arr Int) [1, 0, 2] = 1 := ⟨by decide, by decide, rfl, rfl⟩

example : slicerArr (⟨[1, 2, 2], [5, 0, -4, 1 / 2]⟩ : Arr ℚ) none = .ok ⟨[4], [3, -1, -3, 1]⟩ ∧
    slicerArr (⟨[2, 2], [5, 0, -4, 1 / 2]⟩ : Arr ℚ) none = .ok ⟨[2, 2], [3, -1, -3, 1]⟩ := by decide +kernel

example : ∃ b, bin2uintArr ⟨[2, 1] ++ [3], [1, 0, 1, 0, 1, 1]⟩ = .ok b ∧ uint2binArr b 3 = ⟨[2, 1] ++ [3], [1, 0, 1, 0, 1, 1]⟩ := by
  refine C119_bits_roundtrip [2, 1] 3 _ rfl fun idx hi => ?_
  have : ∀ x ∈ [(1 : ℤ), 0, 1, 0, 1, 1], x = 0 ∨ x = 1 := by decide
  exact this _ (mem_of_getD 0 _ (flatIndex_lt hi))

example : ∃ b, mappingArr ⟨[1, 2, 2], [0, 3, 2, 1]⟩ .pam4 true none true = .ok b ∧
    (demappingArr b .pam4 true true).1 = .ok ⟨[1, 2, 2], [0, 3, 2, 1]⟩ := by
  obtain ⟨b, h, _, h'⟩ := C119_mapping .pam4 true true ⟨[1, 2, 2], [0, 3, 2, 1]⟩ rfl fun idx hi => by
    have : ∀ x ∈ [(0 : ℤ), 3, 2, 1], 0 ≤ x ∧ x < (numLevels .pam4 : ℤ) := by decide
    exact this _ (mem_of_getD 0 _ (flatIndex_lt hi))
  exact ⟨b, h, h'⟩

example : quantizeArr (⟨[1, 1, 2], [3 / 4, 9]⟩ : Arr ℚ) 2 1 .u = .ok ⟨[2], [1 / 2, 3 / 2]⟩ ∧
    quantizeArr (⟨[1, 2], [3 / 4, 9]⟩ : Arr ℚ) 2 1 .u = .ok ⟨[1, 2], [1 / 2, 3 / 2]⟩ := by decide +kernel

example : codingGrayArr ⟨[1, 2, 2], [0, 3, 2, 1]⟩ .pam4 = .ok ⟨[1, 2, 2], [0, 2, 3, 1]⟩ := by decide +kernel

end Verif
