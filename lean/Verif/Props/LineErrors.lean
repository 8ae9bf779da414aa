import Mathlib.Data.List.GetD
import Verif.Props.Coding

/-! **C80**: what one wrong element does to the line decoders. -/

namespace Verif
open Verif.Spec

theorem set_getD_eq (l : List Int) (a : ℕ) (v : Int) (ha : a < l.length) : (l.set a v).getD a 0 = v := by
  simp [List.getD_eq_getElem?_getD, ha]

theorem set_getD_ne (l : List Int) (a : ℕ) (v : Int) {i : ℕ} (h : i ≠ a) : (l.set a v).getD i 0 = l.getD i 0 := by
  simp [List.getD_eq_getElem?_getD, Ne.symm h]

theorem isBinary_set {l : List Int} (h : IsBinary l) (a : ℕ) (v : Int) (hv : v = 0 ∨ v = 1) : IsBinary (l.set a v) := by
  intro x hx
  rcases List.mem_or_eq_of_mem_set hx with h1 | h1
  · exact h x h1
  · rw [h1]; exact hv

/-- **C80.** Manchester: one flipped half cell of a coded vector turns exactly one decoded bit into one
half, the documented error mark; all other bits are unaffected. -/
theorem C80_manchester (p : List Int) (h : IsBinary p) :
    ∃ c, codingManchester p = .ok c ∧ ∀ a < c.length,
      ∃ d, decodingManchester (c.set a (1 - c.getD a 0)) = .ok d ∧ d.length = p.length ∧
        d.getD (a / 2) 0 = 1 / 2 ∧ ∀ i < p.length, i ≠ a / 2 → d.getD i 0 = (p.getD i 0 : ℚ) := by
  obtain ⟨c, hc, hl, hb, hd⟩ := C24_roundtrip p h
  refine ⟨c, hc, fun a ha => ?_⟩
  obtain ⟨d0, hd0, -, hv0⟩ := C24_received c hb (by omega)
  have e0 : d0 = p.map (fun (x : Int) => (x : ℚ)) := by rw [hd] at hd0; exact (Except.ok.inj hd0).symm
  have hba := binary_getD hb a
  obtain ⟨d, hd1, hl1, hv⟩ := C24_received (c.set a (1 - c.getD a 0))
    (isBinary_set hb a _ (by omega)) (by rw [List.length_set]; omega)
  rw [List.length_set] at hl1 hv
  have hcell : ∀ i < p.length, c.getD (2 * i) 0 ≠ c.getD (2 * i + 1) 0 ∧ (c.getD (2 * i) 0 : ℚ) = (p.getD i 0 : ℚ) := by
    intro i hi
    obtain ⟨q1, q2⟩ := hv0 i (by omega)
    have e1 : d0.getD i 0 = (p.getD i 0 : ℚ) := by rw [e0, getD_map_lt _ 0 0 _ hi]
    have q3 : c.getD (2 * i) 0 ≠ c.getD (2 * i + 1) 0 := by
      intro e
      have := q1.2 e
      rw [e1] at this
      rcases binary_getD h i with w | w <;> rw [w] at this <;> norm_num at this
    exact ⟨q3, by rw [← q2 q3, e1]⟩
  refine ⟨d, hd1, by omega, ?_, fun i hi hne => ?_⟩
  · rw [(hv (a / 2) (by omega)).1]
    have q := (hcell (a / 2) (by omega)).1
    have b1 := binary_getD hb (2 * (a / 2))
    have b2 := binary_getD hb (2 * (a / 2) + 1)
    rcases Nat.mod_two_eq_zero_or_one a with m | m
    · have e : 2 * (a / 2) = a := by omega
      rw [e] at q b1 b2 ⊢
      rw [set_getD_eq _ _ _ ha, set_getD_ne _ _ _ (by omega)]
      omega
    · have e : 2 * (a / 2) + 1 = a := by omega
      rw [e] at q b2 ⊢
      rw [set_getD_eq _ _ _ ha, set_getD_ne _ _ _ (by omega)]
      omega
  · obtain ⟨-, q2⟩ := hv i (by omega)
    rw [set_getD_ne _ _ _ (by omega), set_getD_ne _ _ _ (by omega)] at q2
    rw [q2 (hcell i hi).1, (hcell i hi).2]

/-- **C80.** Differential Manchester: one flipped half cell of a coded vector inverts exactly one decoded
bit, without any mark. -/
theorem C80_diff_manchester (p : List Int) (h : IsBinary p) :
    ∃ c, codingDiffManchester p = .ok c ∧ ∀ a < c.length,
      decodingDiffManchester (c.set a (1 - c.getD a 0)) = .ok (p.set (a / 2) (1 - p.getD (a / 2) 0)) := by
  obtain ⟨c, hc, hl, hb, hmid, -⟩ := C28_transitions p h
  refine ⟨c, hc, fun a ha => ?_⟩
  have hba := binary_getD hb a
  have hpa := binary_getD h (a / 2)
  refine decodeDM_of_cells _ _ (isBinary_set h _ _ (by omega)) (isBinary_set hb _ _ (by omega)) (by simpa using hl) ?_
  intro i hi
  rw [List.length_set] at hi
  have q := hmid i hi
  have b1 := binary_getD hb (2 * i)
  have b2 := binary_getD hb (2 * i + 1)
  by_cases hia : i = a / 2
  · rw [hia, set_getD_eq _ _ _ (by omega)]
    rw [hia] at q b1 b2
    rcases Nat.mod_two_eq_zero_or_one a with m | m
    · have e : 2 * (a / 2) = a := by omega
      rw [e] at q b1 b2 ⊢
      rw [set_getD_eq _ _ _ ha, set_getD_ne _ _ _ (by omega)]
      omega
    · have e : 2 * (a / 2) + 1 = a := by omega
      rw [e] at q b2 ⊢
      rw [set_getD_eq _ _ _ ha, set_getD_ne _ _ _ (by omega)]
      omega
  · rw [set_getD_ne _ _ _ hia, set_getD_ne _ _ _ (by omega), set_getD_ne _ _ _ (by omega)]
    exact q

theorem decodingMlt3_getD (c : List Int) (hne : c ≠ []) :
    ∃ d, decodingMlt3 c = .ok d ∧ d.length = c.length ∧ d.getD 0 0 = (if c.getD 0 0 = 1 then 1 else 0) ∧
      ∀ i, i + 1 < c.length → d.getD (i + 1) 0 = |c.getD (i + 1) 0 - c.getD i 0| := by
  cases c with
  | nil => exact absurd rfl hne
  | cons x t =>
    refine ⟨_, rfl, by simp, by simp, fun i hi => ?_⟩
    have hi' : i < t.length := by simpa using hi
    rw [List.getD_cons_succ, getD_map_lt _ 0 0 _ (by simpa using hi'),
      zipWith_getD _ 0 0 0 _ _ hi' (by simp; omega), List.getD_cons_succ]

/-- **C80.** MLT-3: one wrong level affects at most two decoded bits, its own and the next. -/
theorem C80_mlt3 (p : List Int) (h : IsBinary p) (hne : p ≠ []) :
    ∃ c, codingMlt3 p = .ok c ∧ ∀ a < c.length, ∀ v : Int,
      ∃ d, decodingMlt3 (c.set a v) = .ok d ∧ d.length = p.length ∧
        ∀ i < p.length, i ≠ a → i ≠ a + 1 → d.getD i 0 = p.getD i 0 := by
  obtain ⟨c, hc, hd⟩ := C27_roundtrip p h hne
  obtain ⟨c', hc', hl, -⟩ := C27_cycle p h
  have : c' = c := by rw [hc] at hc'; exact (Except.ok.inj hc').symm
  subst this
  have hpl : 0 < p.length := List.length_pos_iff.2 hne
  have hcne : c' ≠ [] := List.ne_nil_of_length_pos (by omega)
  refine ⟨c', hc, fun a ha v => ?_⟩
  obtain ⟨d, h1, h2, h3, h4⟩ := decodingMlt3_getD (c'.set a v) (by
    apply List.ne_nil_of_length_pos; rw [List.length_set]; omega)
  obtain ⟨d0, g1, g2, g3, g4⟩ := decodingMlt3_getD c' hcne
  have e0 : d0 = p := by rw [hd] at g1; exact (Except.ok.inj g1).symm
  rw [e0] at g3 g4
  rw [List.length_set] at h2 h4
  refine ⟨d, h1, by omega, fun i hi n1 n2 => ?_⟩
  cases i with
  | zero => rw [h3, g3, set_getD_ne _ _ _ n1]
  | succ i => rw [h4 i (by omega), g4 i (by omega), set_getD_ne _ _ _ n1, set_getD_ne _ _ _ (by omega)]

/-- **C80.** Bipolar without error detection: one wrong level affects its own bit only, and not even
that when a mark is received with the wrong sign. -/
theorem C80_bipolar (p : List Int) (h : IsBinary p) :
    ∃ c, codingBipolar p = .ok c ∧ ∀ a < c.length, ∀ v : Int, 
      decodingBipolar (c.set a v) = p.set a |v - 1| := by
  obtain ⟨c, hc, hl, hd, -⟩ := C25_roundtrip p h
  refine ⟨c, hc, fun a ha v => ?_⟩
  rw [← hd]
  simp [decodingBipolar, List.map_set]

/-- **C80.** Bipolar with error detection: a single wrong level between two marks (one before, one
after) is always reported: some decoded value is plus or minus one half. -/
theorem C80_bipolar_detects (p : List Int) (h : IsBinary p) :
    ∃ c, codingBipolar p = .ok c ∧ ∀ a < c.length, ∀ v : Int, (v = 0 ∨ v = 1 ∨ v = 2) → v ≠ c.getD a 0 →
      (∃ b < a, p.getD b 0 = 1) → (∃ b, a < b ∧ b < p.length ∧ p.getD b 0 = 1) →
      ∃ i < p.length, (decodingBipolarDetect (c.set a v)).getD i 0 = 1 / 2 ∨
        (decodingBipolarDetect (c.set a v)).getD i 0 = -(1 / 2) := by
  obtain ⟨c, hc, hl, -, hlev⟩ := C25_roundtrip p h
  obtain ⟨c', hc', -, halt⟩ := C25_alternation p h
  have : c' = c := by rw [hc] at hc'; exact (Except.ok.inj hc').symm
  subst this
  refine ⟨c', hc, fun a ha v hv hne hb hb' => ?_⟩
  -- the nearest marks on both sides
  obtain ⟨b, hba, hpb, hbl⟩ : ∃ b < a, p.getD b 0 = 1 ∧ ∀ i, b < i → i < a → p.getD i 0 = 0 := by
    obtain ⟨b0, h1, h2⟩ := hb
    have hex : ∃ k, k < a ∧ p.getD (a - 1 - k) 0 = 1 := ⟨a - 1 - b0, by omega, by rwa [show a - 1 - (a - 1 - b0) = b0 by omega]⟩
    classical
    obtain ⟨k1, k2⟩ := Nat.find_spec hex
    refine ⟨a - 1 - Nat.find hex, by omega, k2, fun i h3 h4 => ?_⟩
    rcases binary_getD h i with e | e
    · exact e
    · exact absurd ⟨by omega, by rwa [show a - 1 - (a - 1 - i) = i by omega]⟩ (Nat.find_min hex (show a - 1 - i < _ by omega))
  obtain ⟨b', hab', hbl', hpb', hbt'⟩ : ∃ b', a < b' ∧ b' < p.length ∧ p.getD b' 0 = 1 ∧ ∀ i, a < i → i < b' → p.getD i 0 = 0 := by
    classical
    obtain ⟨k1, k2, k3⟩ := Nat.find_spec hb'
    refine ⟨Nat.find hb', k1, k2, k3, fun i h3 h4 => ?_⟩
    rcases binary_getD h i with e | e
    · exact e
    · exact absurd ⟨h3, by omega, e⟩ (Nat.find_min hb' h4)
  have hlen : (c'.set a v).length = p.length := by rw [List.length_set, hl]
  have hspace : ∀ i < p.length, p.getD i 0 = 0 → c'.getD i 0 = 1 := fun i hi e => (hlev i hi).2.2 e
  have lb := (hlev b (by omega)).1
  have la := (hlev a (by omega)).1
  have lb' := (hlev b' hbl').1
  have mb : c'.getD b 0 ≠ 1 := fun e => by have := (hlev b (by omega)).2.1 e; omega
  have mb' : c'.getD b' 0 ≠ 1 := fun e => by have := (hlev b' hbl').2.1 e; omega
  have vb : (c'.set a v).getD b 0 = c'.getD b 0 := set_getD_ne _ _ _ (by omega)
  have vb' : (c'.set a v).getD b' 0 = c'.getD b' 0 := set_getD_ne _ _ _ (by omega)
  have va : (c'.set a v).getD a 0 = v := set_getD_eq _ _ _ ha
  have sp1 : ∀ i, b < i → i < a → (c'.set a v).getD i 0 = 1 := fun i h1 h2 => by
    rw [set_getD_ne _ _ _ (by omega), hspace i (by omega) (hbl i h1 h2)]
  have sp2 : ∀ i, a < i → i < b' → (c'.set a v).getD i 0 = 1 := fun i h1 h2 => by
    rw [set_getD_ne _ _ _ (by omega), hspace i (by omega) (hbt' i h1 h2)]
  have hS : ∃ i < p.length, (c'.set a v).getD i 0 ≠ 1 ∧ SameNeighbour (c'.set a v) i := by
    have left : v = c'.getD b 0 → ∃ i < p.length, (c'.set a v).getD i 0 ≠ 1 ∧ SameNeighbour (c'.set a v) i := fun e =>
      ⟨b, by omega, by rw [vb]; exact mb, a, by omega, by omega, by rw [va, vb, e],
        fun i hi => sp1 i (by omega) (by omega)⟩
    have right : v = c'.getD b' 0 → ∃ i < p.length, (c'.set a v).getD i 0 ≠ 1 ∧ SameNeighbour (c'.set a v) i := fun e =>
      ⟨b', by omega, by rw [vb']; exact mb', a, by omega, by omega, by rw [va, vb', e],
        fun i hi => sp2 i (by omega) (by omega)⟩
    rcases binary_getD h a with e | e
    · have ea := hspace a (by omega) e
      have := halt b b' (by omega) hbl' hpb hpb' (fun i h1 h2 => by
        rcases Nat.lt_trichotomy i a with q | q | q
        · exact hbl i h1 q
        · rw [q]; exact e
        · exact hbt' i q h2)
      by_cases hvb : v = c'.getD b 0
      · exact left hvb
      · refine right ?_
        clear left right hb hb'
        omega
    · have e1 := halt b a hba (by omega) hpb e hbl
      have e2 := halt a b' hab' hbl' e hpb' hbt'
      by_cases hv1 : v = 1
      · refine ⟨b, by omega, by rw [vb]; exact mb, b', by omega, by omega, by rw [vb, vb']; omega, fun i hi => ?_⟩
        rcases Nat.lt_trichotomy i a with q | q | q
        · exact sp1 i (by omega) q
        · rw [q, va, hv1]
        · exact sp2 i q (by omega)
      · refine left ?_
        clear left right hb hb'
        omega
  have htern : ∀ x ∈ c'.set a v, x = 0 ∨ x = 1 ∨ x = 2 := by
    intro x hx
    rcases List.mem_or_eq_of_mem_set hx with hx | hx
    · obtain ⟨i, hi, rfl⟩ := List.getElem_of_mem hx
      have := (hlev i (by omega)).1
      rwa [getD_of_lt 0 _ hi] at this
    · rw [hx]; exact hv
  obtain ⟨i, hi, hm, hs⟩ := hS
  obtain ⟨-, hval⟩ := C26_detection_partial (c'.set a v) htern
  obtain ⟨-, -, h3, h4⟩ := hval i (by omega)
  refine ⟨i, hi, ?_⟩
  by_cases hx : ∃ b ≤ i, (c'.set a v).getD b 0 = 2
  · rw [h3 hm hs hx]
    split
    · exact Or.inl rfl
    · exact Or.inr rfl
  · exact Or.inl (h4 hm hs (fun b hb e => hx ⟨b, hb, e⟩))

/-- **C80.** Without a mark on one side an error can go unnoticed: the last mark turned into a space is
decoded as a clean vector with a wrong bit. -/
theorem C80_bipolar_last_mark (p : List Int) (h : IsBinary p) (n : ℕ) :
    ∃ c, codingBipolar (p ++ 1 :: List.replicate n 0) = .ok c ∧
      decodingBipolarDetect (c.set p.length 1) = (p ++ List.replicate (n + 1) 0).map (fun (x : Int) => (x : ℚ)) := by
  have h1 : IsBinary (p ++ 1 :: List.replicate n 0) := by
    intro x hx
    simp only [List.mem_append, List.mem_cons, List.mem_replicate] at hx
    rcases hx with hx | hx | hx
    · exact h x hx
    · exact Or.inr hx
    · exact Or.inl hx.2
  have h2 : IsBinary (p ++ List.replicate (n + 1) 0) := by
    intro x hx
    simp only [List.mem_append, List.mem_replicate] at hx
    rcases hx with hx | hx
    · exact h x hx
    · exact Or.inl hx.2
  obtain ⟨c, hc, hl, hv⟩ := codingBipolar_eq h1
  obtain ⟨e, he, hel, hev⟩ := codingBipolar_eq h2
  obtain ⟨e', he', -, hdec, -⟩ := C25_roundtrip _ h2
  obtain ⟨e'', he'', hclean⟩ := C26_valid_clean _ h2
  have q1 : e' = e := by rw [he] at he'; exact (Except.ok.inj he').symm
  have q2 : e'' = e := by rw [he] at he''; exact (Except.ok.inj he'').symm
  subst q1
  subst q2
  refine ⟨c, hc, ?_⟩
  have hce : c.set p.length 1 = e'' := by
    apply ext_getD 0 (by rw [List.length_set, hl, hel]; simp)
    intro i hi
    rw [List.length_set] at hi
    have hlen1 : (p ++ 1 :: List.replicate n (0 : Int)).length = p.length + n + 1 := by simp; omega
    have hlen2 : (p ++ List.replicate (n + 1) (0 : Int)).length = p.length + n + 1 := by simp; omega
    rw [hev i (by omega)]
    rcases Nat.lt_trichotomy i p.length with q | q | q
    · rw [set_getD_ne _ _ _ (by omega), hv i (by omega)]
      have t : ∀ z : List Int, pre (p ++ z) (i + 1) = pre p (i + 1) := by
        intro z
        unfold pre
        rw [List.take_append_of_le_length (by omega)]
      rw [t, t, List.getD_append _ _ _ _ q, List.getD_append _ _ _ _ q]
    · subst q
      rw [set_getD_eq _ _ _ hi, List.getD_append_right _ _ _ _ (le_refl _)]
      simp
    · rw [set_getD_ne _ _ _ (by omega), hv i (by omega), List.getD_append_right _ _ _ _ (by omega),
        List.getD_append_right _ _ _ _ (by omega)]
      obtain ⟨k, hk⟩ : ∃ k, i - p.length = k + 1 := ⟨i - p.length - 1, by omega⟩
      rw [hk, List.getD_cons_succ]
      simp [List.getD_eq_getElem?_getD, List.getElem?_replicate]
      split <;> split <;> simp
  rw [hce, hclean, hdec]

example : codingManchester [1, 0, 0] = .ok [1, 0, 0, 1, 0, 1] ∧
    decodingManchester [1, 0, 0, 0, 0, 1] = .ok [1, 1 / 2, 0] := by decide +kernel

example : codingDiffManchester [1, 0, 0] = .ok [0, 0, 1, 0, 1, 0] ∧
    decodingDiffManchester [0, 0, 1, 1, 1, 0] = .ok [1, 1, 0] := by decide +kernel

/-- one wrong level does change two bits -/
example : codingMlt3 [1, 0, 0, 1] = .ok [1, 1, 1, 2] ∧ decodingMlt3 [1, 2, 1, 2] = .ok [1, 1, 1, 1] := by decide

example : codingBipolar [1, 0, 1, 1] = .ok [0, 1, 2, 0] ∧
    decodingBipolarDetect [0, 1, 1, 0] = [1 / 2, 0, 0, 1 / 2] := by decide +kernel

end Verif
