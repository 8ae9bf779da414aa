import Verif.Lemmas.Coding
import Verif.Spec.Coding
import Mathlib.Data.List.Range
import Mathlib.Data.List.Pairwise
import Mathlib.Algebra.Order.Ring.Int

/-! Lemmas about bipolar decoding with error detection. -/

namespace Verif
open Spec

/-- running sign after mark `j`, for change values `ch` -/
def runSign (ch : ℕ → Int) : ℕ → Int
  | 0 => if ch 0 = 0 then 1 else Int.sign (ch 0)
  | j + 1 => if ch (j + 1) = 0 then runSign ch j else Int.sign (ch (j + 1))

theorem sign_runSign (ch : ℕ → Int) (j : ℕ) : Int.sign (runSign ch j) = runSign ch j := by
  induction j with
  | zero => unfold runSign; split <;> simp
  | succ j ih => unfold runSign; split <;> simp [ih]

theorem getD_set_ne {α : Type*} (d : α) (l : List α) {i j : ℕ} (v : α) (h : i ≠ j) :
    (l.set i v).getD j d = l.getD j d := by
  simp [List.getD_eq_getElem?_getD, List.getElem?_set_ne h]

theorem getD_set_eq {α : Type*} (d : α) (l : List α) {i : ℕ} (v : α) (h : i < l.length) :
    (l.set i v).getD i d = v := by
  simp [List.getD_eq_getElem?_getD, h]

theorem getD_inj (loc : List ℕ) (hn : loc.Nodup) {i j : ℕ} (hi : i < loc.length) (hj : j < loc.length)
    (h : loc.getD i 0 = loc.getD j 0) : i = j := by
  rw [getD_of_lt 0 _ hi, getD_of_lt 0 _ hj] at h
  exact (List.Nodup.getElem_inj_iff hn).1 h

/-- invariant of the loop, run to the end -/
theorem detectLoop_spec (loc : List ℕ) (hn : loc.Nodup) (ch : ℕ → Int) (h0 : ch 0 ≠ 0)
    (dec0 : List ℚ) (hlt : ∀ x ∈ loc, x < dec0.length) :
    ∀ (k ii : ℕ) (sign : Int) (dec : List ℚ), (ii + k = loc.length ∨ (loc.length = 0 ∧ ii + k = 1)) →
      (∀ j, ii = j + 1 → sign = runSign ch j) → dec.length = dec0.length →
      (∀ j, j < loc.length → dec.getD (loc.getD j 0) 0 =
        if (ch j = 0 ∧ j < ii) ∨ (ch (j + 1) = 0 ∧ j + 1 < ii) then 1 / 2 * (runSign ch j : ℚ)
        else dec0.getD (loc.getD j 0) 0) →
      (∀ x, x ∉ loc → dec.getD x 0 = dec0.getD x 0) →
      let out := detectLoop loc ((List.range' ii k).map ch) ii sign dec
      out.length = dec0.length ∧
      (∀ j, j < loc.length → out.getD (loc.getD j 0) 0 =
        if (ch j = 0) ∨ (ch (j + 1) = 0 ∧ j + 1 < loc.length) then 1 / 2 * (runSign ch j : ℚ)
        else dec0.getD (loc.getD j 0) 0) ∧
      (∀ x, x ∉ loc → out.getD x 0 = dec0.getD x 0) := by
  intro k
  induction k with
  | zero =>
    intro ii sign dec hk hs hl h1 h2
    simp only [List.range'_zero, List.map_nil, detectLoop]
    refine ⟨hl, ?_, h2⟩
    intro j hj
    rw [h1 j hj]
    have : ii = loc.length := by omega
    subst this
    simp [hj]
  | succ k ih =>
    intro ii sign dec hk hs hl h1 h2
    simp only [List.range'_succ, List.map_cons, detectLoop]
    by_cases hc : ch ii = 0
    · rw [if_pos hc]
      obtain ⟨i', rfl⟩ : ∃ i', ii = i' + 1 := by
        cases ii with
        | zero => exact absurd hc h0
        | succ i' => exact ⟨i', rfl⟩
      have hii : i' + 1 < loc.length := by omega
      have hsg := hs i' rfl
      have hr1 : runSign ch (i' + 1) = runSign ch i' := by simp [runSign, hc]
      have hne : loc.getD i' 0 ≠ loc.getD (i' + 1) 0 := by
        intro h; have := getD_inj loc hn (by omega) hii h; omega
      refine ih (i' + 1 + 1) sign _ (by omega) ?_ ?_ ?_ ?_
      · intro j hj; have : j = i' + 1 := by omega
        subst this; rw [hr1, hsg]
      · simp [hl]
      · intro j hj
        simp only [Nat.add_sub_cancel, hsg, sign_runSign]
        by_cases hj1 : j = i' + 1
        · subst hj1
          rw [getD_set_eq _ _ _ (by
            rw [List.length_set, hl]; exact hlt _ (mem_of_getD 0 loc hii)), if_pos (Or.inl ⟨hc, by omega⟩), hr1]
        · rw [getD_set_ne 0 _ _ (by intro h; exact hj1 (getD_inj loc hn hii hj h).symm)]
          by_cases hj2 : j = i'
          · subst hj2
            rw [getD_set_eq _ _ _ (by rw [hl]; exact hlt _ (mem_of_getD 0 loc (by omega))),
              if_pos (Or.inr ⟨hc, by omega⟩)]
          · rw [getD_set_ne 0 _ _ (by intro h; exact hj2 (getD_inj loc hn (by omega) hj h).symm), h1 j hj]
            congr 1
            simp only [eq_iff_iff]
            constructor
            · rintro (⟨a, b⟩ | ⟨a, b⟩)
              · exact Or.inl ⟨a, by omega⟩
              · exact Or.inr ⟨a, by omega⟩
            · rintro (⟨a, b⟩ | ⟨a, b⟩)
              · exact Or.inl ⟨a, by omega⟩
              · exact Or.inr ⟨a, by omega⟩
      · intro x hx
        rw [getD_set_ne, getD_set_ne, h2 x hx]
        · rintro rfl; exact hx (mem_of_getD 0 loc (by omega))
        · rintro rfl; exact hx (mem_of_getD 0 loc hii)
    · rw [if_neg hc]
      by_cases hlen0 : loc.length = 0
      · have hk0 : k = 0 := by omega
        subst hk0
        simp only [List.range'_zero, List.map_nil, detectLoop]
        exact ⟨hl, fun j hj => by omega, h2⟩
      refine ih (ii + 1) _ dec (by omega) ?_ hl ?_ h2
      · intro j hj
        have : j = ii := by omega
        subst this
        cases j with
        | zero => simp [runSign, hc]
        | succ j => simp [runSign, hc]
      · intro j hj
        rw [h1 j hj]
        congr 1
        simp only [eq_iff_iff]
        constructor
        · rintro (⟨a, b⟩ | ⟨a, b⟩)
          · exact Or.inl ⟨a, by omega⟩
          · exact Or.inr ⟨a, by omega⟩
        · rintro (⟨a, b⟩ | ⟨a, b⟩)
          · refine Or.inl ⟨a, ?_⟩
            by_contra hcon
            have : j = ii := by omega
            subst this; exact hc a
          · refine Or.inr ⟨a, ?_⟩
            by_contra hcon
            have : j + 1 = ii := by omega
            subst this; exact hc a

/-! positions of marks -/

theorem mem_markLocation (p : List Int) (x : ℕ) :
    x ∈ markLocation p ↔ x < p.length ∧ p.getD x 0 ≠ 1 := by
  simp [markLocation, sub_eq_zero]

theorem markLocation_pairwise (p : List Int) : (markLocation p).Pairwise (· < ·) :=
  List.Pairwise.filter _ List.pairwise_lt_range

theorem markLocation_mono (p : List Int) {i j : ℕ} (hij : i < j) (hj : j < (markLocation p).length) :
    (markLocation p).getD i 0 < (markLocation p).getD j 0 := by
  have := List.pairwise_iff_getElem.1 (markLocation_pairwise p) i j (by omega) hj hij
  rw [getD_of_lt 0 _ hj, getD_of_lt 0 _ (by omega)]
  exact this

theorem markLocation_lt_iff (p : List Int) {i j : ℕ} (hi : i < (markLocation p).length)
    (hj : j < (markLocation p).length) :
    (markLocation p).getD i 0 < (markLocation p).getD j 0 ↔ i < j := by
  constructor
  · intro h
    by_contra hc
    rcases Nat.lt_or_ge j i with h' | h'
    · have := markLocation_mono p h' hi; omega
    · have : i = j := by omega
      subst this; omega
  · intro h; exact markLocation_mono p h hj

theorem exists_markLocation (p : List Int) (x : ℕ) (hx : x < p.length) (h : p.getD x 0 ≠ 1) :
    ∃ j, j < (markLocation p).length ∧ (markLocation p).getD j 0 = x := by
  have hm := (mem_markLocation p x).2 ⟨hx, h⟩
  obtain ⟨j, hj, e⟩ := List.getElem_of_mem hm
  exact ⟨j, hj, by rw [getD_of_lt 0 _ hj, e]⟩

/-- the mark sign at mark index `j` -/
def markSign (p : List Int) (j : ℕ) : Int := p.getD ((markLocation p).getD j 0) 0 - 1

/-- the change value at mark index `j` -/
def markCh (p : List Int) : ℕ → Int
  | 0 => 1
  | j + 1 => markSign p (j + 1) - markSign p j

theorem markChange_eq (p : List Int) : ∃ k, (k = (markLocation p).length ∨
    ((markLocation p).length = 0 ∧ k = 1)) ∧ markChange p = (List.range' 0 k).map (markCh p) := by
  have hm : ∀ j, j < (markLocation p).length →
      ((markLocation p).map (fun i => p.getD i 0 - 1)).getD j 0 = markSign p j := by
    intro j hj
    rw [getD_map_lt _ 0 0 _ hj]; rfl
  by_cases h0 : (markLocation p).length = 0
  · refine ⟨1, Or.inr ⟨h0, rfl⟩, ?_⟩
    have : markLocation p = [] := List.length_eq_zero_iff.1 h0
    simp [markChange, this, markCh]
  · refine ⟨(markLocation p).length, Or.inl rfl, ?_⟩
    obtain ⟨n, hn⟩ : ∃ n, (markLocation p).length = n + 1 := ⟨(markLocation p).length - 1, by omega⟩
    rw [hn, List.range'_succ, List.map_cons]
    unfold markChange
    simp only []
    rw [show markCh p 0 = 1 from rfl]
    congr 1
    apply ext_getD 0 (by simp [hn])
    intro j hj
    have hj' : j < n := by simpa [hn] using hj
    rw [zipWith_getD _ 0 0 0 _ _ (by simp [hn]; omega) (by simp [hn]; omega), hm j (by omega),
      getD_map_lt (markCh p) 0 0 (List.range' (0 + 1) n) (by simp; omega),
      getD_of_lt 0 (List.range' (0 + 1) n) (by simp; omega), List.getElem_range',
      show 0 + 1 + 1 * j = j + 1 by ring]
    show _ = markSign p (j + 1) - markSign p j
    rw [← hm (j + 1) (by omega)]
    congr 1
    simp [List.getD_eq_getElem?_getD]

theorem sameNeighbour_iff (p : List Int) (j : ℕ) (hj : j < (markLocation p).length) :
    SameNeighbour p ((markLocation p).getD j 0) ↔
      markCh p j = 0 ∨ (markCh p (j + 1) = 0 ∧ j + 1 < (markLocation p).length) := by
  have hmem := fun i (hi : i < (markLocation p).length) =>
    (mem_markLocation p _).1 (mem_of_getD 0 (markLocation p) hi)
  have between : ∀ i, i + 1 < (markLocation p).length → ∀ c,
      (markLocation p).getD i 0 < c → c < (markLocation p).getD (i + 1) 0 → p.getD c 0 = 1 := by
    intro i hi c h1 h2
    by_contra hc
    have hcl : c < p.length := lt_trans h2 (hmem _ hi).1
    obtain ⟨k, hk, rfl⟩ := exists_markLocation p c hcl hc
    rw [markLocation_lt_iff p (by omega) hk] at h1
    rw [markLocation_lt_iff p hk hi] at h2
    omega
  constructor
  · rintro ⟨b, hb, hne, heq, hbt⟩
    have hb1 : p.getD b 0 ≠ 1 := by rw [heq]; exact (hmem j hj).2
    obtain ⟨k, hk, rfl⟩ := exists_markLocation p b hb hb1
    have hkj : k ≠ j := by rintro rfl; exact hne rfl
    rcases Nat.lt_or_gt_of_ne hkj with h | h
    · left
      have : k + 1 = j := by
        by_contra hc
        have := hbt ((markLocation p).getD (k + 1) 0) (Or.inr ⟨markLocation_mono p (by omega) (by omega),
          markLocation_mono p (by omega) hj⟩)
        exact (hmem (k + 1) (by omega)).2 this
      subst this
      simp only [markCh, markSign]
      rw [heq]; ring
    · right
      have : j + 1 = k := by
        by_contra hc
        have := hbt ((markLocation p).getD (j + 1) 0) (Or.inl ⟨markLocation_mono p (by omega) (by omega),
          markLocation_mono p (by omega) hk⟩)
        exact (hmem (j + 1) (by omega)).2 this
      subst this
      refine ⟨?_, hk⟩
      simp only [markCh, markSign]
      rw [heq]; ring
  · rintro (h | ⟨h, hlt⟩)
    · cases j with
      | zero => simp [markCh] at h
      | succ i =>
        simp only [markCh, markSign] at h
        have hm : (markLocation p).getD i 0 < (markLocation p).getD (i + 1) 0 := markLocation_mono p (Nat.lt_succ_self i) hj
        refine ⟨(markLocation p).getD i 0, (hmem i (by omega)).1, by omega, by omega, ?_⟩
        rintro c (⟨h1, h2⟩ | ⟨h1, h2⟩)
        · omega
        · exact between i hj c h1 h2
    · simp only [markCh, markSign] at h
      have hm : (markLocation p).getD j 0 < (markLocation p).getD (j + 1) 0 := markLocation_mono p (Nat.lt_succ_self j) hlt
      refine ⟨(markLocation p).getD (j + 1) 0, (hmem _ hlt).1, by omega, by omega, ?_⟩
      rintro c (⟨h1, h2⟩ | ⟨h1, h2⟩)
      · exact between j hlt c h1 h2
      · omega

/-- ternary: every entry 0, 1 or 2 -/
theorem markSign_pm (p : List Int) (ht : ∀ x ∈ p, x = 0 ∨ x = 1 ∨ x = 2) (j : ℕ)
    (hj : j < (markLocation p).length) : markSign p j = 1 ∨ markSign p j = -1 := by
  have hm := (mem_markLocation p _).1 (mem_of_getD 0 (markLocation p) hj)
  have := ht _ (mem_of_getD 0 p hm.1)
  unfold markSign
  rcases this with h | h | h
  · right; rw [h]; rfl
  · exact absurd h hm.2
  · left; rw [h]; rfl

theorem runSign_markCh (p : List Int) (ht : ∀ x ∈ p, x = 0 ∨ x = 1 ∨ x = 2) (j : ℕ)
    (hj : j < (markLocation p).length) :
    ((∃ k ≤ j, markSign p k = 1) → runSign (markCh p) j = markSign p j) ∧
    ((∀ k ≤ j, markSign p k = -1) → runSign (markCh p) j = 1) := by
  induction j with
  | zero =>
    constructor
    · rintro ⟨k, hk, h⟩
      have : k = 0 := by omega
      subst this; simp [runSign, markCh, h]
    · intro _; simp [runSign, markCh]
  | succ j ih =>
    obtain ⟨ih1, ih2⟩ := ih (by omega)
    have hj0 := markSign_pm p ht j (by omega)
    have hj1 := markSign_pm p ht (j + 1) hj
    constructor
    · rintro ⟨k, hk, h⟩
      by_cases he : markSign p (j + 1) - markSign p j = 0
      · have e : markSign p (j + 1) = markSign p j := by omega
        simp only [runSign, markCh, he, if_true]
        rw [e]
        apply ih1
        rcases Nat.lt_or_ge k (j + 1) with h' | h'
        · exact ⟨k, by omega, h⟩
        · have : k = j + 1 := by omega
          subst this; exact ⟨j, le_rfl, by rw [← e]; exact h⟩
      · simp only [runSign, markCh, he, if_false]
        rcases hj0 with a | a <;> rcases hj1 with b | b <;> rw [a, b] at he ⊢ <;> simp at he ⊢
    · intro h
      have e : markSign p (j + 1) - markSign p j = 0 := by
        rw [h (j + 1) le_rfl, h j (by omega)]; ring
      simp only [runSign, markCh, e, if_true]
      exact ih2 (fun k hk => h k (by omega))

/-- full description of `decoding_bipolar(..., error_detection=True)` on ternary vectors -/
theorem detect_spec (p : List Int) (ht : ∀ x ∈ p, x = 0 ∨ x = 1 ∨ x = 2) :
    (decodingBipolarDetect p).length = p.length ∧
    ∀ a, a < p.length →
      (p.getD a 0 = 1 → (decodingBipolarDetect p).getD a 0 = 0) ∧
      (p.getD a 0 ≠ 1 → ¬ SameNeighbour p a → (decodingBipolarDetect p).getD a 0 = 1) ∧
      (p.getD a 0 ≠ 1 → SameNeighbour p a → (∃ b ≤ a, p.getD b 0 = 2) →
        (decodingBipolarDetect p).getD a 0 = 1 / 2 * ((p.getD a 0 - 1 : Int) : ℚ)) ∧
      (p.getD a 0 ≠ 1 → SameNeighbour p a → (∀ b ≤ a, p.getD b 0 ≠ 2) →
        (decodingBipolarDetect p).getD a 0 = 1 / 2) := by
  obtain ⟨k, hk, hce⟩ := markChange_eq p
  have hspec := detectLoop_spec (markLocation p)
    ((markLocation_pairwise p).imp (fun h => Nat.ne_of_lt h)) (markCh p) (by simp [markCh])
    (p.map (fun x => ((|x - 1| : Int) : ℚ))) (by
      intro x hx; rw [List.length_map]; exact ((mem_markLocation p x).1 hx).1)
    k 0 1 (p.map (fun x => ((|x - 1| : Int) : ℚ))) (by omega) (by intro j hj; omega) rfl
    (by intro j hj; simp) (by intro x _; rfl)
  rw [← hce] at hspec
  obtain ⟨h1, h2, h3⟩ := hspec
  refine ⟨by rw [List.length_map] at h1; exact h1, fun a ha => ?_⟩
  have hd0 : (p.map (fun x => ((|x - 1| : Int) : ℚ))).getD a 0 = ((|p.getD a 0 - 1| : Int) : ℚ) :=
    getD_map_lt _ 0 0 _ ha
  refine ⟨fun e => ?_, ?_⟩
  · have : a ∉ markLocation p := by
      rw [mem_markLocation]; rintro ⟨_, h⟩; exact h e
    show (detectLoop _ _ _ _ _).getD a 0 = 0
    rw [h3 a this, hd0, e]; simp
  by_cases e : p.getD a 0 = 1
  · exact ⟨fun h => absurd e h, fun h => absurd e h, fun h => absurd e h⟩
  obtain ⟨j, hj, rfl⟩ := exists_markLocation p a ha e
  have hval := h2 j hj
  have hs := markSign_pm p ht j hj
  have hsn := sameNeighbour_iff p j hj
  have habs : ((|p.getD ((markLocation p).getD j 0) 0 - 1| : Int) : ℚ) = 1 := by
    unfold markSign at hs
    rcases hs with h | h <;> rw [h] <;> simp
  rw [hd0, habs] at hval
  have hrun := runSign_markCh p ht j hj
  refine ⟨fun _ hn => ?_, fun _ hn hex => ?_, fun _ hn hex => ?_⟩
  · show (detectLoop _ _ _ _ _).getD _ 0 = 1
    rw [hval, if_neg (fun h => hn (hsn.2 h))]
  · show (detectLoop _ _ _ _ _).getD _ 0 = _
    rw [hval, if_pos (hsn.1 hn), hrun.1 ?_]
    · rfl
    · obtain ⟨b, hb, hb2⟩ := hex
      have hbl : b < p.length := lt_of_le_of_lt hb ha
      obtain ⟨k, hk, rfl⟩ := exists_markLocation p b hbl (by rw [hb2]; decide)
      refine ⟨k, ?_, by unfold markSign; rw [hb2]; rfl⟩
      by_contra hc
      have := markLocation_mono p (show j < k by omega) hk
      omega
  · show (detectLoop _ _ _ _ _).getD _ 0 = _
    rw [hval, if_pos (hsn.1 hn), hrun.2 ?_]
    · simp
    · intro k hk
      have hkl : k < (markLocation p).length := by omega
      rcases markSign_pm p ht k hkl with h | h
      · exfalso
        refine hex ((markLocation p).getD k 0) ?_ (by unfold markSign at h; omega)
        rcases Nat.eq_or_lt_of_le hk with rfl | h'
        · exact le_rfl
        · exact (markLocation_mono p h' hj).le
      · exact h

end Verif
