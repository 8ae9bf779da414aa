import Verif.Model.Coding2
import Verif.Spec.Matrix2
import Verif.Props.Coding
import Verif.Props.Symbol
import Verif.Lemmas.Slicer
import Verif.Lemmas.Linear

/-! **C84**: the line codes on 2-D arrays. -/

namespace Verif
open Spec

theorem reshape2_length {α : Type} (y x : ℕ) (l : List α) : (reshape2 y x l).length = y := by simp [reshape2]

theorem reshape2_mat {α : Type} (y x : ℕ) (l : List α) (h : l.length = y * x) : Mat x (reshape2 y x l) := by
  intro r hr
  unfold reshape2 at hr
  rw [List.mem_map] at hr
  obtain ⟨i, hi, rfl⟩ := hr
  rw [List.mem_range] at hi
  have : i * x + x ≤ y * x := by
    have := Nat.mul_le_mul_right x (show i + 1 ≤ y by omega)
    rwa [Nat.succ_mul] at this
  simp
  omega

theorem reshape2_getD {α : Type} (d : α) (y x : ℕ) (l : List α) (r k : ℕ) (hr : r < y) (hk : k < x) :
    ((reshape2 y x l).getD r []).getD k d = l.getD (r * x + k) d := by
  rw [getD_of_lt [] _ (by rw [reshape2_length]; exact hr)]
  simp only [reshape2, List.getElem_map, List.getElem_range]
  simp [List.getD_eq_getElem?_getD, List.getElem?_drop, hk]

theorem reshape2_flat {α : Type} (y x : ℕ) (l : List α) (h : l.length = y * x) : (reshape2 y x l).flatten = l := by
  by_cases hl : l = []
  · subst hl
    simp [reshape2]
  obtain ⟨d, t, e⟩ := List.exists_cons_of_ne_nil hl
  have hm := reshape2_mat y x l h
  have hlen : (reshape2 y x l).flatten.length = l.length := by
    rw [flatten_uniform_length x _ hm, reshape2_length, h]
  apply ext_getD d hlen
  intro q hq
  rw [hlen, h] at hq
  have hx : 0 < x := by
    rcases Nat.eq_zero_or_pos x with rfl | h
    · simp at hq
    · exact h
  have hj : q % x < x := Nat.mod_lt _ hx
  have ht : q / x < y := Nat.div_lt_of_lt_mul (by rwa [Nat.mul_comm])
  have hij : q / x * x + q % x = q := by rw [Nat.mul_comm]; exact Nat.div_add_mod q x
  rw [← hij, flatten_getD d x _ hm _ _ (by rw [reshape2_length]; exact ht) hj, reshape2_getD d y x l _ _ ht hj]

theorem mat_flat_length {α : Type} {w : ℕ} {m : List (List α)} (h : Mat w m) : m.flatten.length = m.length * w :=
  flatten_uniform_length w m h

theorem binMat_flat {m : List (List Int)} (h : BinMat m) : IsBinary m.flatten := by
  intro x hx
  rw [List.mem_flatten] at hx
  obtain ⟨r, hr, hx⟩ := hx
  exact h r hr x hx

theorem entry_flat {w : ℕ} {m : List (List Int)} (h : Mat w m) {r k : ℕ} (hr : r < m.length) (hk : k < w) :
    m.flatten.getD (r * w + k) 0 = entry m r k := flatten_getD 0 w m h r k hr hk

theorem reshape2_of_flat {α : Type} {w : ℕ} {m : List (List α)} (h : Mat w m) : reshape2 m.length w m.flatten = m :=
  reshape2_flatten w m h

theorem reshape2_map {α β : Type} (y x : ℕ) (f : α → β) (l : List α) :
    reshape2 y x (l.map f) = (reshape2 y x l).map (List.map f) := by
  unfold reshape2
  rw [List.map_map]
  apply List.map_congr_left
  intro r _
  simp

theorem flat_index_lt {r k w n : ℕ} (hr : r < n) (hk : k < w) : r * w + k < n * w := by
  have := Nat.mul_le_mul_right w (show r + 1 ≤ n by omega)
  rw [Nat.succ_mul] at this
  omega

/-- **C84**, Manchester: every row is coded on its own, decoding returns the array. -/
theorem C84_manchester (w : ℕ) (m : List (List Int)) (hm : Mat w m) (hb : BinMat m) :
    ∃ c, codingManchester2 w m = .ok c ∧ c.length = m.length ∧ Mat (w * 2) c ∧
      (∀ r < m.length, ∀ k < w, entry c r (2 * k) = entry m r k ∧ entry c r (2 * k + 1) = 1 - entry m r k) ∧
      decodingManchester2 (w * 2) c = .ok (m.map (List.map (fun (x : Int) => (x : ℚ)))) := by
  have hbf := binMat_flat hb
  obtain ⟨f, h1, h2, h3, h4⟩ := C24_roundtrip m.flatten hbf
  obtain ⟨f', h1', h5⟩ := C24_cells m.flatten hbf
  rw [h1] at h1'
  cases h1'
  have hl : f.length = m.length * (w * 2) := by rw [h2, mat_flat_length hm]; ring
  refine ⟨reshape2 m.length (w * 2) f, by unfold codingManchester2; rw [h1]; rfl, reshape2_length _ _ _,
    reshape2_mat _ _ _ hl, ?_, ?_⟩
  · intro r hr k hk
    have hq := flat_index_lt hr hk
    obtain ⟨a, b⟩ := h5 (r * w + k) (by rw [mat_flat_length hm]; exact hq)
    rw [entry_flat hm hr hk] at a
    unfold entry
    rw [reshape2_getD 0 _ _ f r (2 * k) hr (by omega), reshape2_getD 0 _ _ f r (2 * k + 1) hr (by omega),
      show r * (w * 2) + 2 * k = 2 * (r * w + k) by ring, show r * (w * 2) + (2 * k + 1) = 2 * (r * w + k) + 1 by ring]
    unfold entry at a
    refine ⟨a, ?_⟩
    omega
  · unfold decodingManchester2
    rw [reshape2_flat _ _ _ hl, h4]
    simp only [bind, Except.bind]
    rw [reshape2_length, if_pos (by rw [List.length_map, mat_flat_length hm, Nat.mul_div_cancel _ (by norm_num)]),
      Nat.mul_div_cancel _ (by norm_num), reshape2_map, reshape2_of_flat hm]
    rfl

/-- **C84**, differential Manchester: a transition in the middle of the cells of zero bits only and between any
two cells in row-major order, also across the end of a row; decoding returns the array. -/
theorem C84_diff_manchester (w : ℕ) (m : List (List Int)) (hm : Mat w m) (hb : BinMat m) :
    ∃ c, codingDiffManchester2 w m = .ok c ∧ c.length = m.length ∧ Mat (w * 2) c ∧
      (∀ r < m.length, ∀ k < w, entry c r (2 * k) ≠ entry c r (2 * k + 1) ↔ entry m r k = 0) ∧
      (∀ r < m.length, ∀ k, k + 1 < w → entry c r (2 * k + 1) ≠ entry c r (2 * k + 2)) ∧
      (0 < w → ∀ r, r + 1 < m.length → entry c r (2 * w - 1) ≠ entry c (r + 1) 0) ∧
      decodingDiffManchester2 (w * 2) c = .ok m := by
  have hbf := binMat_flat hb
  obtain ⟨f, h1, h2, h3, h4, h5⟩ := C28_transitions m.flatten hbf
  obtain ⟨f', h1', h6⟩ := C28_roundtrip m.flatten hbf
  rw [h1] at h1'
  cases h1'
  have hl : f.length = m.length * (w * 2) := by rw [h2, mat_flat_length hm]; ring
  have he : ∀ r < m.length, ∀ k < w * 2, entry (reshape2 m.length (w * 2) f) r k = f.getD (r * (w * 2) + k) 0 :=
    fun r hr k hk => reshape2_getD 0 _ _ f r k hr hk
  refine ⟨reshape2 m.length (w * 2) f, by unfold codingDiffManchester2; rw [h1]; rfl, reshape2_length _ _ _,
    reshape2_mat _ _ _ hl, ?_, ?_, ?_, ?_⟩
  · intro r hr k hk
    have := h4 (r * w + k) (by rw [mat_flat_length hm]; exact flat_index_lt hr hk)
    rw [entry_flat hm hr hk] at this
    rw [he r hr _ (by omega), he r hr _ (by omega), show r * (w * 2) + 2 * k = 2 * (r * w + k) by ring,
      show r * (w * 2) + (2 * k + 1) = 2 * (r * w + k) + 1 by ring]
    exact this
  · intro r hr k hk
    have := h5 (r * w + k) (by rw [mat_flat_length hm]; exact flat_index_lt hr hk)
    rw [he r hr _ (by omega), he r hr _ (by omega), show r * (w * 2) + (2 * k + 1) = 2 * (r * w + k) + 1 by ring,
      show r * (w * 2) + (2 * k + 2) = 2 * (r * w + k) + 2 by ring]
    exact this
  · intro hw r hr
    have hlt := flat_index_lt (w := w) (k := 0) hr hw
    have e : r * w + (w - 1) + 1 = (r + 1) * w := by rw [Nat.succ_mul]; omega
    have := h5 (r * w + (w - 1)) (by rw [mat_flat_length hm]; omega)
    rw [he r (by omega) _ (by omega), he (r + 1) hr _ (by omega)]
    have e1 : r * (w * 2) + (2 * w - 1) = 2 * (r * w + (w - 1)) + 1 := by
      have : r * (w * 2) = 2 * (r * w) := by ring
      omega
    have e2 : (r + 1) * (w * 2) + 0 = 2 * (r * w + (w - 1)) + 2 := by
      have : (r + 1) * (w * 2) = 2 * ((r + 1) * w) := by ring
      omega
    rw [e1, e2]
    exact this
  · unfold decodingDiffManchester2
    rw [reshape2_flat _ _ _ hl, h6]
    simp only [bind, Except.bind]
    rw [reshape2_length, if_pos (by rw [mat_flat_length hm, Nat.mul_div_cancel _ (by norm_num)]),
      Nat.mul_div_cancel _ (by norm_num), reshape2_of_flat hm]
    rfl

theorem zipWith_flat {α β γ : Type} (f : α → β → γ) {w : ℕ} {a : List (List α)} {b : List (List β)} (ha : Mat w a)
    (hb : Mat w b) (hl : a.length = b.length) :
    (List.zipWith (List.zipWith f) a b).flatten = List.zipWith f a.flatten b.flatten := by
  induction a generalizing b with
  | nil => simp
  | cons x a ih =>
    cases b with
    | nil => simp at hl
    | cons y b =>
      rw [List.zipWith_cons_cons, List.flatten_cons, List.flatten_cons, List.flatten_cons,
        ih (fun r hr => ha r (by simp [hr])) (fun r hr => hb r (by simp [hr])) (by simpa using hl),
        List.zipWith_append (by rw [ha x (by simp), hb y (by simp)])]

theorem zipWith_mat {α β γ : Type} (f : α → β → γ) {w : ℕ} {a : List (List α)} {b : List (List β)} (ha : Mat w a)
    (hb : Mat w b) : Mat w (List.zipWith (List.zipWith f) a b) := by
  intro r hr
  obtain ⟨i, hi, rfl⟩ := List.getElem_of_mem hr
  rw [List.getElem_zipWith, List.length_zipWith, ha _ (List.getElem_mem _), hb _ (List.getElem_mem _), Nat.min_self]

theorem codingDifferential2_eq (w : ℕ) (m : List (List Int)) (c : Constellation) :
    codingDifferential2 w m c = reshape2 m.length w (codingDifferential m.flatten c) := rfl

theorem codingDifferential2_flat {w : ℕ} {m : List (List Int)} (hm : Mat w m) (c : Constellation) :
    Mat w (codingDifferential2 w m c) ∧ (codingDifferential2 w m c).flatten = codingDifferential m.flatten c := by
  have hl : (codingDifferential m.flatten c).length = m.length * w := by
    rw [codingDifferential_length, mat_flat_length hm]
  rw [codingDifferential2_eq]
  exact ⟨reshape2_mat _ _ _ hl, reshape2_flat _ _ _ hl⟩

/-- **C84**, bipolar: the array is coded as one stream in row-major order (the alternation of the marks goes on
across rows); decoding without error detection returns the array. -/
theorem C84_bipolar (w : ℕ) (m : List (List Int)) (hm : Mat w m) (hb : BinMat m) :
    ∃ c f, codingBipolar2 w m = .ok c ∧ codingBipolar m.flatten = .ok f ∧ c.length = m.length ∧ Mat w c ∧
      c.flatten = f ∧ decodingBipolar2 c = m := by
  have hbf := binMat_flat hb
  obtain ⟨f, h1, h2, h3, -⟩ := C25_roundtrip m.flatten hbf
  obtain ⟨d1, d2⟩ := codingDifferential2_flat hm .ook
  have hdl : (codingDifferential2 w m .ook).length = m.length := by rw [codingDifferential2_eq, reshape2_length]
  have hmat := zipWith_mat (fun (x s : Int) => 1 + x * (-1) ^ (Int.toNat s)) hm d1
  have hfl : (List.zipWith (List.zipWith (fun (x s : Int) => 1 + x * (-1) ^ (Int.toNat s))) m
      (codingDifferential2 w m .ook)).flatten = f := by
    rw [zipWith_flat _ hm d1 hdl.symm, d2]
    unfold codingBipolar at h1
    rw [checkBinary_ok hbf] at h1
    exact Except.ok.inj h1
  refine ⟨List.zipWith (List.zipWith (fun (x s : Int) => 1 + x * (-1) ^ (Int.toNat s))) m
    (codingDifferential2 w m .ook), f, ?_, h1, by simp [hdl], hmat, hfl, ?_⟩
  · unfold codingBipolar2
    rw [checkBinary_ok hbf]
    rfl
  · generalize hc : List.zipWith (List.zipWith (fun (x s : Int) => 1 + x * (-1) ^ (Int.toNat s))) m
      (codingDifferential2 w m .ook) = c at hfl hmat
    have hcl : c.length = m.length := by rw [← hc]; simp [hdl]
    have e := reshape2_of_flat hm
    rw [← h3, ← hfl] at e
    unfold decodingBipolar at e
    rw [reshape2_map, ← hcl, reshape2_of_flat hmat] at e
    unfold decodingBipolar2 decodingBipolar
    exact e

/-- **C84**, MLT-3: the array is coded as one stream in row-major order. -/
theorem C84_mlt3 (w : ℕ) (m : List (List Int)) (hm : Mat w m) (hb : BinMat m) :
    ∃ c f, codingMlt3_2 w m = .ok c ∧ codingMlt3 m.flatten = .ok f ∧ c.length = m.length ∧ Mat w c ∧ c.flatten = f := by
  have hbf := binMat_flat hb
  obtain ⟨d1, d2⟩ := codingDifferential2_flat hm .pam4
  refine ⟨_, _, by unfold codingMlt3_2; rw [checkBinary_ok hbf]; rfl, by unfold codingMlt3; rw [checkBinary_ok hbf]; rfl,
    by rw [List.length_map, codingDifferential2_eq, reshape2_length], ?_, ?_⟩
  · intro r hr
    rw [List.mem_map] at hr
    obtain ⟨s, hs, rfl⟩ := hr
    rw [List.length_map, d1 s hs]
  · rw [← d2, List.map_flatten]

/-- **C84**, Gray coding works element by element (every constellation except PAM3, see `C16_negative_pam3`). -/
theorem C84_gray_partial (c : Constellation) (hc : c ≠ .pam3) (w : ℕ) (m : List (List Int)) (hm : Mat w m)
    (hv : ∀ r ∈ m, ∀ x ∈ r, 0 ≤ x ∧ x < (intLevels c).length) :
    ∃ q, codingGray2 m c = .ok q ∧ q.length = m.length ∧ Mat w q ∧ decodingGray2 q c = .ok m := by
  induction m with
  | nil => exact ⟨[], rfl, rfl, by intro r hr; simp at hr, rfl⟩
  | cons a m ih =>
    obtain ⟨q, h1, h2, h3, h4⟩ := ih (fun r hr => hm r (by simp [hr])) (fun r hr => hv r (by simp [hr]))
    obtain ⟨b, g1, g2, -, g4⟩ := C16_gray_roundtrip_partial c hc a (hv a (by simp))
    unfold codingGray2 decodingGray2 at *
    refine ⟨b :: q, ?_, by simp [h2], ?_, ?_⟩
    · rw [List.mapM_cons, g1, h1]
      rfl
    · intro r hr
      rw [List.mem_cons] at hr
      rcases hr with rfl | hr
      · rw [g2, hm a (by simp)]
      · exact h3 r hr
    · rw [List.mapM_cons, g4, h4]
      rfl

/-- **C84** *violated*: arrays with several columns can be MLT-3 coded but never decoded. -/
theorem C84_negative_mlt3 (w : ℕ) (hw : 2 ≤ w) (m : List (List Int)) (hne : m ≠ []) :
    decodingMlt3_2 w m = .error .valueError := by
  cases m with
  | nil => exact absurd rfl hne
  | cons a m =>
    unfold decodingMlt3_2
    simp only []
    rw [if_neg (by omega)]

/-- **C84** *violated*: error detection of the bipolar decoder raises for every array with several columns. -/
theorem C84_negative_bipolar_detect (w : ℕ) (hw : 2 ≤ w) (m : List (List Int)) (hm : Mat w m) (hne : m ≠ []) :
    decodingBipolarDetect2 w m = .error .indexError := by
  unfold decodingBipolarDetect2
  rw [if_pos]
  rw [mat_flat_length hm]
  have h1 : 0 < m.length := List.length_pos_iff.2 hne
  intro h
  have := Nat.mul_le_mul_left m.length hw
  omega

/-- **C84**, a single column is decoded by both. -/
theorem C84_single_column (m : List (List Int)) (hne : m ≠ []) (hm : Mat 1 m) (hb : BinMat m) :
    (∃ c, codingMlt3_2 1 m = .ok c ∧ decodingMlt3_2 1 c = .ok m) ∧
    (∃ c, codingBipolar2 1 m = .ok c ∧ decodingBipolarDetect2 1 c = .ok (m.map (List.map (fun (x : Int) => (x : ℚ))))) := by
  have hbf := binMat_flat hb
  have hne' : m.flatten ≠ [] := by
    intro h
    have := mat_flat_length hm
    rw [h] at this
    simp at this
    exact hne (List.length_eq_zero_iff.1 this.symm)
  constructor
  · obtain ⟨c, f, h1, h2, h3, h4, h5⟩ := C84_mlt3 1 m hm hb
    obtain ⟨f', g1, g2⟩ := C27_roundtrip m.flatten hbf hne'
    rw [h2] at g1
    cases g1
    refine ⟨c, h1, ?_⟩
    unfold decodingMlt3_2
    cases hc : c with
    | nil => rw [hc] at h3; exact absurd (List.length_eq_zero_iff.1 h3.symm) hne
    | cons a t =>
      rw [hc] at h3 h5
      simp only [if_true]
      rw [h5, g2]
      simp only [bind, Except.bind]
      rw [h3, reshape2_of_flat hm]
      rfl
  · obtain ⟨c, f, h1, h2, h3, h4, h5, -⟩ := C84_bipolar 1 m hm hb
    obtain ⟨f', g1, g2⟩ := C26_valid_clean m.flatten hbf
    obtain ⟨f'', k1, -, k2, -⟩ := C25_roundtrip m.flatten hbf
    rw [h2] at g1 k1
    cases g1
    cases k1
    refine ⟨c, h1, ?_⟩
    unfold decodingBipolarDetect2
    rw [if_neg (by rw [mat_flat_length h4]; simp), h5, g2, k2, h3, reshape2_map, reshape2_of_flat hm]

/-- **C84**, differential coding of an array: the decoder returns every element except the first of the second
and later rows, which come back still coded. -/
theorem C84_differential_partial (c : Constellation) (w : ℕ) (hw : 0 < w) (m : List (List Int)) (hne : m ≠ []) (hm : Mat w m)
    (hv : ∀ r ∈ m, ∀ x ∈ r, 0 ≤ x ∧ x < ((intLevels c).length : Int)) :
    ∃ d, decodingDifferential2 (codingDifferential2 w m c) c = .ok d ∧ d.length = m.length ∧
      ∀ r < m.length, ∀ k < w, entry d r k = if r ≠ 0 ∧ k = 0 then entry (codingDifferential2 w m c) r 0 else entry m r k := by
  obtain ⟨d1, d2⟩ := codingDifferential2_flat hm c
  have hl : (codingDifferential2 w m c).length = m.length := by rw [codingDifferential2_eq, reshape2_length]
  have hlc : (0 : Int) < ((intLevels c).length : Int) := by cases c <;> decide
  have hmap : ∀ l : List (List Int), (∀ r ∈ l, r ≠ []) → (l.mapM (fun r => decodingDifferential r c) : Py (List (List Int)))
      = .ok (l.map (fun r => (firstDiff r).map (· % ((intLevels c).length : Int)))) := by
    intro l
    induction l with
    | nil => intro _; rfl
    | cons a l ih =>
      intro h
      have := ih (fun r hr => h r (by simp [hr]))
      rw [List.mapM_cons, this]
      unfold decodingDifferential
      rw [if_neg (h a (by simp))]
      rfl
  have hne' : codingDifferential2 w m c ≠ [] := by
    rw [← List.length_pos_iff, hl]; exact List.length_pos_iff.2 hne
  refine ⟨_, (if_neg hne').trans (hmap _ ?_), by simp [hl], ?_⟩
  · rintro r hr rfl
    have := d1 _ hr
    simp at this
    omega
  intro r hr k hk
  have hrow : ((codingDifferential2 w m c).getD r []).length = w := d1 _ (mem_of_getD [] _ (by omega))
  have hcode : ∀ j < w, ((codingDifferential2 w m c).getD r []).getD j 0
      = pre m.flatten (r * w + j + 1) % ((intLevels c).length : Int) := by
    intro j hj
    rw [codingDifferential2_eq, reshape2_getD 0 _ _ _ r j hr hj,
      codingDifferential_getD _ _ (by rw [mat_flat_length hm]; exact flat_index_lt hr hj)]
  have hent := entry_flat hm hr hk
  have hval : 0 ≤ entry m r k ∧ entry m r k < ((intLevels c).length : Int) := by
    have h1 : m.getD r [] ∈ m := mem_of_getD [] m hr
    exact hv _ h1 _ (mem_of_getD 0 _ (by rw [hm _ h1]; exact hk))
  unfold entry at *
  rw [getD_map_lt _ [] [] _ (by omega), getD_map_lt _ 0 0 _ (by rw [firstDiff_length, hrow]; exact hk)]
  have hfd : (firstDiff ((codingDifferential2 w m c).getD r [])).getD k 0
      = ((codingDifferential2 w m c).getD r []).getD k 0
        - (if k = 0 then 0 else ((codingDifferential2 w m c).getD r []).getD (k - 1) 0) := by
    unfold firstDiff
    rw [zipWith_getD _ 0 0 0 _ _ (by rw [hrow]; exact hk) (by rw [List.length_cons, hrow]; omega)]
    congr 1
    cases k with
    | zero => simp
    | succ k => simp
  rw [hfd]
  by_cases hk0 : k = 0
  · subst hk0
    by_cases hr0 : r = 0
    · subst hr0
      rw [if_pos rfl, if_neg (by simp), hcode 0 hk, sub_zero, Int.emod_emod, pre_succ]
      simp only [Nat.zero_mul, Nat.zero_add, pre_zero, zero_add] at *
      rw [hent, Int.emod_eq_of_lt hval.1 hval.2]
    · rw [if_pos rfl, if_pos ⟨hr0, rfl⟩, sub_zero, hcode 0 hk, Int.emod_emod]
  · rw [if_neg hk0, if_neg (by tauto), hcode k hk, hcode (k - 1) (by omega),
      show r * w + (k - 1) + 1 = r * w + k by omega, ← Int.sub_emod, pre_succ, hent]
    rw [show ∀ a b : Int, a + b - a = b by intros; ring, Int.emod_eq_of_lt hval.1 hval.2]

/-! ### Cases that meet the hypotheses -/

example : Mat 2 [[1, 0], [1, 1], [(0 : Int), 1]] ∧ BinMat [[1, 0], [1, 1], [0, 1]] := by
  constructor
  · intro r hr
    simp at hr
    rcases hr with rfl | rfl | rfl <;> rfl
  · intro r hr x hx
    simp at hr
    rcases hr with rfl | rfl | rfl <;> simp at hx <;> omega

example : codingManchester2 2 [[1, 0], [1, 1]] = .ok [[1, 0, 0, 1], [1, 0, 1, 0]] := by decide
example : codingBipolar2 2 [[1, 0], [1, 1]] = .ok [[0, 1], [2, 0]] := by decide
example : codingMlt3_2 2 [[1, 0], [1, 1]] = .ok [[1, 1], [2, 1]] ∧
    decodingMlt3_2 2 [[1, 1], [2, 1]] = .error .valueError := by decide
example : codingDiffManchester2 2 [[1, 0], [1, 1]] = .ok [[0, 0, 1, 0], [1, 1, 0, 0]] := by decide
example : (codingMlt3_2 1 [[1], [1], [1]]) = .ok [[1], [2], [1]] := by decide
example : codingGray2 [[0, 1], [2, 3]] .pam4 = .ok [[0, 1], [3, 2]] := by decide
example : codingDifferential2 2 [[1, 1], [2, 2]] .pam4 = [[1, 2], [0, 2]] ∧
    decodingDifferential2 [[1, 2], [0, 2]] .pam4 = .ok [[1, 1], [0, 2]] := by decide

end Verif
