import Verif.Model.TensorCode
import Verif.Props.Tensor
import Verif.Props.Coding2

/-! **C126**: the line codes on arrays of any rank. -/

open Finset

namespace Verif
open Spec

theorem newLastAxis_snoc (s : List ℕ) (n : ℕ) (f : ℕ → ℕ) : newLastAxis (s ++ [n]) f = .ok (s ++ [f n]) := by
  simp [newLastAxis]

theorem pre_eq_sum (p : List Int) (n : ℕ) : pre p n = ∑ k ∈ range n, p.getD k 0 := by
  induction n with
  | zero => simp [pre_zero]
  | succ n ih => rw [pre_succ, sum_range_succ, ih]

theorem snoc_wf {α : Type} {s : List ℕ} {n : ℕ} {l : List α} (h : WellFormed (⟨s ++ [n], l⟩ : Arr α)) :
    l.length = s.prod * n := by simpa [WellFormed] using h

theorem snoc_pos {s : List ℕ} {n : ℕ} {idx : List ℕ} {i : ℕ} (hi : InRange idx s) (hn : i < n) :
    flatIndex s idx * n + i < s.prod * n := flat_index_lt (flatIndex_lt hi) hn

/-- **C126**, differential coding: the array is one stream in C order, so each entry is the sum of all entries up to its
multi-index, modulo the number of levels. -/
theorem C126_differential_code (a : Arr Int) (ha : WellFormed a) (c : Constellation) :
    (codingDifferentialArr a c).shape = a.shape ∧ WellFormed (codingDifferentialArr a c) ∧
      ∀ idx, InRange idx a.shape → arrAt 0 (codingDifferentialArr a c) idx
        = (∑ k ∈ range (flatIndex a.shape idx + 1), a.data.getD k 0) % ((intLevels c).length : Int) := by
  refine ⟨rfl, by unfold WellFormed codingDifferentialArr; rw [codingDifferential_length]; exact ha, fun idx hi => ?_⟩
  unfold arrAt codingDifferentialArr
  rw [codingDifferential_getD _ _ (by rw [ha]; exact flatIndex_lt hi), pre_eq_sum]

/-- **C126**, differential decoding (partial, see `C126_negative_differential`): coding runs through the array, decoding along the
last axis. Every entry comes back except the first along the last axis, which stays coded in all but the first of these rows. -/
theorem C126_differential_partial (s : List ℕ) (n : ℕ) (l : List Int) (hs : 0 < s.prod) (hn : 0 < n)
    (ha : WellFormed (⟨s ++ [n], l⟩ : Arr Int)) (c : Constellation)
    (hv : ∀ x ∈ l, 0 ≤ x ∧ x < ((intLevels c).length : Int)) :
    ∃ d, decodingDifferentialArr (codingDifferentialArr ⟨s ++ [n], l⟩ c) c = .ok d ∧ d.shape = s ++ [n] ∧ WellFormed d ∧
      ∀ idx i, InRange idx s → i < n → arrAt 0 d (idx ++ [i])
        = if flatIndex s idx ≠ 0 ∧ i = 0 then arrAt 0 (codingDifferentialArr ⟨s ++ [n], l⟩ c) (idx ++ [0])
          else arrAt 0 (⟨s ++ [n], l⟩ : Arr Int) (idx ++ [i]) := by
  have hl := snoc_wf ha
  have hm := reshape2_mat s.prod n l hl
  have hml := reshape2_length s.prod n l
  have hfl := reshape2_flat s.prod n l hl
  have hne : reshape2 s.prod n l ≠ [] := by rw [← List.length_pos_iff, hml]; exact hs
  have hv' : ∀ r ∈ reshape2 s.prod n l, ∀ x ∈ r, 0 ≤ x ∧ x < ((intLevels c).length : Int) := by
    intro r hr x hx
    refine hv x ?_
    rw [← hfl]
    exact List.mem_flatten.2 ⟨r, hr, hx⟩
  obtain ⟨d, h1, h2, h3⟩ := C84_differential_partial c n hn _ hne hm hv'
  have hdm : Mat n d := by
    obtain ⟨e1, e2⟩ := codingDifferential2_flat hm c
    have hdec := h1
    unfold decodingDifferential2 at hdec
    split_ifs at hdec with h0
    have hg : ∀ (q : List (List Int)) (d : List (List Int)), Mat n q →
        (q.mapM (fun r => decodingDifferential r c) : Py (List (List Int))) = .ok d → Mat n d := by
      intro q
      induction q with
      | nil =>
        intro d _ h
        have : d = [] := by simpa using (Except.ok.inj h).symm
        subst this; intro r hr; simp at hr
      | cons x q ih =>
        intro d hq h
        rw [List.mapM_cons] at h
        cases hx : decodingDifferential x c with
        | error e => rw [hx] at h; simp [bind, Except.bind] at h
        | ok y =>
          rw [hx] at h
          cases hr : (q.mapM (fun r => decodingDifferential r c) : Py (List (List Int))) with
          | error e => rw [hr] at h; simp [bind, Except.bind] at h
          | ok t =>
            rw [hr] at h
            have : d = y :: t := by simpa [bind, Except.bind, pure, Except.pure] using (Except.ok.inj h).symm
            subst this
            have hyl : y.length = n := by
              unfold decodingDifferential at hx
              split_ifs at hx
              cases hx
              rw [List.length_map, firstDiff_length, hq x (by simp)]
            intro r hr'
            rcases List.mem_cons.1 hr' with rfl | h'
            · exact hyl
            · exact ih t (fun r hr => hq r (by simp [hr])) hr r h'
    exact hg _ _ e1 hdec
  have hdl : d.flatten.length = s.prod * n := by rw [mat_flat_length hdm, h2, hml]
  refine ⟨⟨s ++ [n], d.flatten⟩, ?_, rfl, by simpa [WellFormed] using hdl, fun idx i hi hin => ?_⟩
  · unfold decodingDifferentialArr codingDifferentialArr
    have hp : (s ++ [n]).prod ≠ 0 := by
      rw [List.prod_append, List.prod_singleton]; exact (Nat.mul_pos hs hn).ne'
    simp only [List.getLast?_append, List.getLast?_singleton, Option.some_or, List.dropLast_concat]
    rw [if_neg hp]
    rw [codingDifferential2_eq, hml, hfl] at h1
    rw [h1]
    rfl
  · have hr : flatIndex s idx < (reshape2 s.prod n l).length := by rw [hml]; exact flatIndex_lt hi
    have e := h3 _ hr i hin
    unfold arrAt
    simp only
    rw [flatIndex_snoc n i hi, entry_flat hdm (by rw [h2]; exact hr) hin, e]
    unfold codingDifferentialArr
    simp only
    rw [flatIndex_snoc n 0 hi, ← entry_flat hm hr hin, hfl]
    congr 1
    rw [codingDifferential2_eq, hml, hfl]
    exact reshape2_getD 0 _ _ _ _ _ (flatIndex_lt hi) hn

/-- **C126**, an array with a single row along the last axis (all other axes of length 1) survives differential coding. -/
theorem C126_differential_single (s : List ℕ) (n : ℕ) (l : List Int) (hs : s.prod = 1) (hn : 0 < n)
    (ha : WellFormed (⟨s ++ [n], l⟩ : Arr Int)) (c : Constellation)
    (hv : ∀ x ∈ l, 0 ≤ x ∧ x < ((intLevels c).length : Int)) :
    decodingDifferentialArr (codingDifferentialArr ⟨s ++ [n], l⟩ c) c = .ok ⟨s ++ [n], l⟩ := by
  have hl := snoc_wf ha
  rw [hs, one_mul] at hl
  have hne : l ≠ [] := by rw [← List.length_pos_iff, hl]; exact hn
  have h := C22_decode_code_partial c l hne hv
  have hp : (s ++ [n]).prod ≠ 0 := by
    rw [List.prod_append, List.prod_singleton, hs, one_mul]; exact hn.ne'
  unfold decodingDifferentialArr codingDifferentialArr
  simp only [List.getLast?_append, List.getLast?_singleton, Option.some_or, List.dropLast_concat]
  rw [if_neg hp, hs]
  have hr : reshape2 1 n (codingDifferential l c) = [codingDifferential l c] := by
    unfold reshape2
    rw [List.range_one, List.map_singleton, Nat.zero_mul, List.drop_zero, List.take_of_length_le (by rw [codingDifferential_length, hl])]
  rw [hr]
  unfold decodingDifferential2
  rw [if_neg (by simp), List.mapM_cons, h]
  simp [bind, Except.bind, pure, Except.pure]

/-- **C126, negative.** For every shape with at least two rows along the last axis there is a binary array which differential
coding and decoding does not return. -/
theorem C126_negative_differential (s : List ℕ) (n : ℕ) (hs : 2 ≤ s.prod) (hn : 0 < n) (c : Constellation) :
    ∃ l : List Int, WellFormed (⟨s ++ [n], l⟩ : Arr Int) ∧ IsBinary l ∧
      ∃ d, decodingDifferentialArr (codingDifferentialArr ⟨s ++ [n], l⟩ c) c = .ok d ∧ d ≠ ⟨s ++ [n], l⟩ := by
  have hL : (2 : Int) ≤ ((intLevels c).length : Int) := by cases c <;> decide
  have hsn : 2 ≤ s.prod * n := le_trans hs (Nat.le_mul_of_pos_right _ hn)
  obtain ⟨l, hl⟩ : ∃ l : List Int, l = 1 :: List.replicate (s.prod * n - 1) 0 := ⟨_, rfl⟩
  have hlen : l.length = s.prod * n := by rw [hl, List.length_cons, List.length_replicate]; omega
  have hwf : WellFormed (⟨s ++ [n], l⟩ : Arr Int) := by
    unfold WellFormed
    rw [List.prod_append, List.prod_singleton]
    exact hlen
  have hmem : ∀ x ∈ l, x = 1 ∨ x = 0 := by
    intro x hx
    rw [hl, List.mem_cons] at hx
    exact hx.imp_right fun h => (List.mem_replicate.1 h).2
  have hg : ∀ k, l.getD k 0 = if k = 0 then 1 else 0 := by
    intro k
    cases k with
    | zero => rw [hl]; rfl
    | succ k =>
      rw [hl, List.getD_cons_succ, if_neg (by omega), List.getD_eq_getElem?_getD, List.getElem?_replicate]
      split_ifs <;> rfl
  refine ⟨l, hwf, fun x hx => (hmem x hx).symm, ?_⟩
  obtain ⟨d, h1, -, -, h4⟩ := C126_differential_partial s n l (by omega) hn hwf c (fun x hx => by
    rcases hmem x hx with rfl | rfl <;> constructor <;> omega)
  refine ⟨d, h1, fun he => ?_⟩
  obtain ⟨idx, ⟨hi, hf⟩, -⟩ := C119_index s 1 (by omega)
  have h5 := h4 idx 0 hi hn
  rw [if_pos ⟨by omega, rfl⟩, (C126_differential_code _ hwf c).2.2 _ (inRange_snoc hi hn), he] at h5
  unfold arrAt at h5
  simp only at h5
  rw [flatIndex_snoc n 0 hi, hf, hg, if_neg (by omega), sum_congr rfl fun k _ => hg k, sum_ite_eq' (range (1 * n + 0 + 1)) 0,
    if_pos (by simp), Int.emod_eq_of_lt (by norm_num) (by omega)] at h5
  exact absurd h5 (by norm_num)

/-- **C126**, Manchester: every entry becomes a pair along the last axis, decoding returns the array. -/
theorem C126_manchester (s : List ℕ) (n : ℕ) (l : List Int) (ha : WellFormed (⟨s ++ [n], l⟩ : Arr Int)) (hb : IsBinary l) :
    ∃ b, codingManchesterArr ⟨s ++ [n], l⟩ = .ok b ∧ b.shape = s ++ [n * 2] ∧ WellFormed b ∧
      (∀ idx i, InRange idx s → i < n → arrAt 0 b (idx ++ [2 * i]) = arrAt 0 (⟨s ++ [n], l⟩ : Arr Int) (idx ++ [i]) ∧
        arrAt 0 b (idx ++ [2 * i + 1]) = 1 - arrAt 0 (⟨s ++ [n], l⟩ : Arr Int) (idx ++ [i])) ∧
      decodingManchesterArr b = .ok ⟨s ++ [n], l.map fun (x : Int) => (x : ℚ)⟩ := by
  have hl := snoc_wf ha
  obtain ⟨f, h1, h2, h3, h4⟩ := C24_roundtrip l hb
  obtain ⟨f', h1', h5⟩ := C24_cells l hb
  rw [h1] at h1'
  cases h1'
  refine ⟨⟨s ++ [n * 2], f⟩, ?_, rfl, ?_, fun idx i hi hin => ?_, ?_⟩
  · unfold codingManchesterArr
    rw [checkBinary_ok hb]
    simp only [bind, Except.bind]
    rw [newLastAxis_snoc, h1]
    rfl
  · unfold WellFormed
    rw [List.prod_append, List.prod_singleton]
    simp only
    rw [h2, hl]; ring
  · have hpos := snoc_pos hi hin
    obtain ⟨e1, e2⟩ := h5 (flatIndex s idx * n + i) (by rw [hl]; exact hpos)
    unfold arrAt
    simp only
    rw [flatIndex_snoc _ _ hi, flatIndex_snoc _ _ hi, flatIndex_snoc _ _ hi,
      show flatIndex s idx * (n * 2) + 2 * i = 2 * (flatIndex s idx * n + i) by ring,
      show flatIndex s idx * (n * 2) + (2 * i + 1) = 2 * (flatIndex s idx * n + i) + 1 by ring]
    exact ⟨e1, by omega⟩
  · unfold decodingManchesterArr
    rw [checkBinary_ok h3]
    simp only [bind, Except.bind]
    rw [newLastAxis_snoc, h4]
    simp only
    rw [Nat.mul_div_cancel _ two_pos, if_pos (by rw [List.length_map, hl, List.prod_append, List.prod_singleton])]
    rfl

/-- **C126**, differential Manchester: the middle of a cell has a transition exactly for a 0, any two cells in C order are separated
by one, decoding returns the array. -/
theorem C126_diff_manchester (s : List ℕ) (n : ℕ) (l : List Int) (ha : WellFormed (⟨s ++ [n], l⟩ : Arr Int)) (hb : IsBinary l) :
    ∃ b, codingDiffManchesterArr ⟨s ++ [n], l⟩ = .ok b ∧ b.shape = s ++ [n * 2] ∧ WellFormed b ∧
      (∀ idx i, InRange idx s → i < n → (arrAt 0 b (idx ++ [2 * i]) ≠ arrAt 0 b (idx ++ [2 * i + 1])
        ↔ arrAt 0 (⟨s ++ [n], l⟩ : Arr Int) (idx ++ [i]) = 0)) ∧
      (∀ idx i idx' i', InRange idx s → i < n → InRange idx' s → i' < n →
        flatIndex (s ++ [n]) (idx' ++ [i']) = flatIndex (s ++ [n]) (idx ++ [i]) + 1 →
        arrAt 0 b (idx ++ [2 * i + 1]) ≠ arrAt 0 b (idx' ++ [2 * i'])) ∧
      decodingDiffManchesterArr b = .ok ⟨s ++ [n], l⟩ := by
  have hl := snoc_wf ha
  obtain ⟨f, h1, h2, h3, h4, h5⟩ := C28_transitions l hb
  obtain ⟨f', h1', h6⟩ := C28_roundtrip l hb
  rw [h1] at h1'
  cases h1'
  have hat : ∀ idx j, InRange idx s → arrAt 0 (⟨s ++ [n * 2], f⟩ : Arr Int) (idx ++ [j]) = f.getD (flatIndex s idx * (n * 2) + j) 0 := by
    intro idx j hi
    unfold arrAt
    simp only
    rw [flatIndex_snoc _ _ hi]
  refine ⟨⟨s ++ [n * 2], f⟩, ?_, rfl, ?_, fun idx i hi hin => ?_, fun idx i idx' i' hi hin hi' hin' hnext => ?_, ?_⟩
  · unfold codingDiffManchesterArr
    rw [checkBinary_ok hb]
    simp only [bind, Except.bind]
    rw [newLastAxis_snoc, h1]
    rfl
  · unfold WellFormed
    rw [List.prod_append, List.prod_singleton]
    simp only
    rw [h2, hl]; ring
  · have hpos := snoc_pos hi hin
    have e := h4 (flatIndex s idx * n + i) (by rw [hl]; exact hpos)
    rw [hat _ _ hi, hat _ _ hi, show flatIndex s idx * (n * 2) + 2 * i = 2 * (flatIndex s idx * n + i) by ring,
      show flatIndex s idx * (n * 2) + (2 * i + 1) = 2 * (flatIndex s idx * n + i) + 1 by ring, e]
    unfold arrAt
    simp only
    rw [flatIndex_snoc _ _ hi]
  · rw [flatIndex_snoc _ _ hi, flatIndex_snoc _ _ hi'] at hnext
    have hpos := snoc_pos hi' hin'
    have e := h5 (flatIndex s idx * n + i) (by rw [hl, ← hnext]; exact hpos)
    rw [hat _ _ hi, hat _ _ hi', show flatIndex s idx * (n * 2) + (2 * i + 1) = 2 * (flatIndex s idx * n + i) + 1 by ring,
      show flatIndex s idx' * (n * 2) + 2 * i' = 2 * (flatIndex s idx' * n + i') by ring, hnext]
    exact e
  · unfold decodingDiffManchesterArr
    rw [checkBinary_ok h3]
    simp only [bind, Except.bind]
    rw [newLastAxis_snoc, h6]
    simp only
    rw [Nat.mul_div_cancel _ two_pos, if_pos (by rw [hl, List.prod_append, List.prod_singleton])]
    rfl

/-- **C126**, bipolar code: an array of any rank, 0-d arrays included, keeps its shape, zeros become 1 and marks 0 or 2, decoding
without error detection returns the array. -/
theorem C126_bipolar (a : Arr Int) (ha : WellFormed a) (hb : IsBinary a.data) :
    ∃ b, codingBipolarArr a = .ok b ∧
      Elementwise 0 0 (fun x y => (y = 0 ∨ y = 1 ∨ y = 2) ∧ (y = 1 ↔ x = 0)) a b ∧ decodingBipolarArr b = a := by
  obtain ⟨f, h1, h2, h3, h4⟩ := C25_roundtrip a.data hb
  have hf : f = List.zipWith (fun (x s : Int) => 1 + x * (-1) ^ (Int.toNat s)) a.data (codingDifferential a.data .ook) := by
    unfold codingBipolar at h1
    rw [checkBinary_ok hb] at h1
    exact (Except.ok.inj h1).symm
  refine ⟨⟨a.shape, f⟩, ?_, ⟨rfl, by unfold WellFormed; simp only; rw [h2]; exact ha, fun idx hi => ?_⟩, ?_⟩
  · unfold codingBipolarArr
    rw [checkBinary_ok hb, hf]
    rfl
  · exact h4 _ (by rw [ha]; exact flatIndex_lt hi)
  · unfold decodingBipolarArr
    rw [h3]

/-- **C126**, error detection of the bipolar code (partial, see `C126_negative_detect`): with all axes but the first of length 1 a
coded array is decoded without any mark of an error. -/
theorem C126_bipolar_detect_partial (n : ℕ) (rest : List ℕ) (l : List Int) (hr : rest.prod = 1)
    (ha : WellFormed (⟨n :: rest, l⟩ : Arr Int)) (hb : IsBinary l) :
    ∃ b, codingBipolarArr ⟨n :: rest, l⟩ = .ok b ∧
      decodingBipolarDetectArr b = .ok ⟨n :: rest, l.map fun (x : Int) => (x : ℚ)⟩ := by
  have hl : l.length = n := by
    have h : l.length = (n :: rest).prod := ha
    rwa [List.prod_cons, hr, mul_one] at h
  obtain ⟨f, h1, h2, h3, -⟩ := C25_roundtrip l hb
  obtain ⟨f', g1, g2⟩ := C26_valid_clean l hb
  rw [h1] at g1
  cases g1
  obtain ⟨b, k1, k2, k3⟩ := C126_bipolar ⟨n :: rest, l⟩ ha hb
  have hbf : b = ⟨n :: rest, f⟩ := by
    unfold codingBipolarArr at k1
    unfold codingBipolar at h1
    rw [checkBinary_ok hb] at k1 h1
    have e1 := Except.ok.inj k1
    have e2 := Except.ok.inj h1
    rw [← e1, ← e2]
    rfl
  refine ⟨b, k1, ?_⟩
  rw [hbf]
  unfold decodingBipolarDetectArr
  simp only
  rw [if_neg (by rw [h2, hl]; simp), g2, h3]

/-- **C126, negative.** Error detection raises for every other array with entries: IndexError if some axis but the first is longer
than 1, TypeError for a 0-d array. -/
theorem C126_negative_detect (a : Arr Int) (ha : WellFormed a) :
    (a.shape = [] → decodingBipolarDetectArr a = .error .typeError) ∧
    ∀ n rest, a.shape = n :: rest → 0 < n → rest.prod ≠ 1 → decodingBipolarDetectArr a = .error .indexError := by
  obtain ⟨s, l⟩ := a
  constructor
  · intro h
    simp only at h
    subst h
    rfl
  · intro n rest h hn hr
    simp only at h
    subst h
    have hl : l.length = (n :: rest).prod := ha
    rw [List.prod_cons] at hl
    unfold decodingBipolarDetectArr
    simp only
    rw [if_pos]
    rw [hl]
    intro h
    exact hr (Nat.eq_of_mul_eq_mul_left hn (by rw [h, mul_one]))

theorem codingMlt3Arr_eq (a : Arr Int) (hb : IsBinary a.data) :
    ∃ f, codingMlt3 a.data = .ok f ∧ codingMlt3Arr a = .ok ⟨a.shape, f⟩ := by
  refine ⟨(codingDifferential a.data .pam4).map fun x => if x = 3 then 1 else x, ?_, ?_⟩
  · unfold codingMlt3
    rw [checkBinary_ok hb]
    rfl
  · unfold codingMlt3Arr
    rw [checkBinary_ok hb]
    rfl

/-- **C126**, MLT-3: coding accepts every rank and keeps the shape; each entry is the level of the cycle 0, 1, 2, 1 reached by the
number of ones up to its multi-index in C order. -/
theorem C126_mlt3_code (a : Arr Int) (ha : WellFormed a) (hb : IsBinary a.data) :
    ∃ b, codingMlt3Arr a = .ok b ∧ b.shape = a.shape ∧ WellFormed b ∧
      ∀ idx, InRange idx a.shape → arrAt 0 b idx = mlt3Cycle ((a.data.take (flatIndex a.shape idx + 1)).count 1) := by
  obtain ⟨f, h1, h2⟩ := codingMlt3Arr_eq a hb
  obtain ⟨f', h3, h4, h5⟩ := C27_cycle a.data hb
  rw [h1] at h3
  cases h3
  exact ⟨_, h2, rfl, h4.trans ha, fun idx hi => h5 _ (by rw [ha]; exact flatIndex_lt hi)⟩

/-- **C126**, MLT-3 decoding (partial, see `C126_negative_mlt3`): arrays with all axes but the first of length 1 come back. -/
theorem C126_mlt3_partial (n : ℕ) (hn : 0 < n) (rest : List ℕ) (l : List Int) (hr : rest.prod = 1)
    (ha : WellFormed (⟨n :: rest, l⟩ : Arr Int)) (hb : IsBinary l) :
    ∃ b, codingMlt3Arr ⟨n :: rest, l⟩ = .ok b ∧ decodingMlt3Arr b = .ok ⟨n :: rest, l⟩ := by
  have hl : l.length = n := by
    have h : l.length = (n :: rest).prod := ha
    rwa [List.prod_cons, hr, mul_one] at h
  obtain ⟨f, h3, h1⟩ := codingMlt3Arr_eq ⟨n :: rest, l⟩ hb
  obtain ⟨f', g1, g2⟩ := C27_roundtrip l hb (by rw [← List.length_pos_iff, hl]; exact hn)
  rw [h3] at g1
  cases g1
  refine ⟨_, h1, ?_⟩
  obtain ⟨m, rfl⟩ : ∃ m, n = m + 1 := ⟨n - 1, by omega⟩
  unfold decodingMlt3Arr
  simp only
  rw [if_pos hr, g2]
  rfl

/-- **C126, negative.** Every other array is rejected by the MLT-3 decoder: ValueError if some axis but the first differs from 1,
IndexError for 0-d arrays and an empty first axis. -/
theorem C126_negative_mlt3 (a : Arr Int) :
    (a.shape = [] ∨ (∃ rest, a.shape = 0 :: rest) → decodingMlt3Arr a = .error .indexError) ∧
    ∀ n rest, a.shape = n :: rest → 0 < n → rest.prod ≠ 1 → decodingMlt3Arr a = .error .valueError := by
  obtain ⟨s, l⟩ := a
  constructor
  · rintro (h | ⟨rest, h⟩) <;> (simp only at h; subst h; rfl)
  · intro n rest h hn hr
    simp only at h
    subst h
    obtain ⟨m, rfl⟩ : ∃ m, n = m + 1 := ⟨n - 1, by omega⟩
    unfold decodingMlt3Arr
    simp only
    rw [if_neg hr]

/-- **C126**, the codes that change the last axis reject 0-d arrays with IndexError, the differential decoder with ValueError; it
also rejects arrays without entries. -/
theorem C126_rejects (x : Int) (hx : x = 0 ∨ x = 1) (c : Constellation) (a : Arr Int) (ha : a.shape.prod = 0) :
    codingManchesterArr ⟨[], [x]⟩ = .error .indexError ∧ decodingManchesterArr ⟨[], [x]⟩ = .error .indexError ∧
    codingDiffManchesterArr ⟨[], [x]⟩ = .error .indexError ∧ decodingDiffManchesterArr ⟨[], [x]⟩ = .error .indexError ∧
    decodingDifferentialArr ⟨[], [x]⟩ c = .error .valueError ∧ decodingDifferentialArr a c = .error .valueError := by
  refine ⟨?_, ?_, ?_, ?_, rfl, ?_⟩
  · rcases hx with rfl | rfl <;> rfl
  · rcases hx with rfl | rfl <;> rfl
  · rcases hx with rfl | rfl <;> rfl
  · rcases hx with rfl | rfl <;> rfl
  · unfold decodingDifferentialArr
    cases h : a.shape.getLast? with
    | none => rfl
    | some n => simp only; rw [if_pos ha]

/-- **C126**, Manchester decoding of any received binary array with an even last axis, coded or not: a cell without a transition
gives 1/2, any other cell its first bit. -/
theorem C126_manchester_received (s : List ℕ) (k : ℕ) (l : List Int) (ha : WellFormed (⟨s ++ [2 * k], l⟩ : Arr Int))
    (hb : IsBinary l) :
    ∃ d, decodingManchesterArr ⟨s ++ [2 * k], l⟩ = .ok d ∧ d.shape = s ++ [k] ∧ WellFormed d ∧
      ∀ idx i, InRange idx s → i < k → arrAt 0 d (idx ++ [i])
        = if arrAt 0 (⟨s ++ [2 * k], l⟩ : Arr Int) (idx ++ [2 * i]) = arrAt 0 (⟨s ++ [2 * k], l⟩ : Arr Int) (idx ++ [2 * i + 1])
          then 1 / 2 else ((arrAt 0 (⟨s ++ [2 * k], l⟩ : Arr Int) (idx ++ [2 * i]) : Int) : ℚ) := by
  have hl : l.length = 2 * (s.prod * k) := by rw [snoc_wf ha]; ring
  obtain ⟨d, h1, h2, h3⟩ := C24_received l hb (by omega)
  have hdl : d.length = s.prod * k := by omega
  refine ⟨⟨s ++ [k], d⟩, ?_, rfl, ?_, fun idx i hi hik => ?_⟩
  · unfold decodingManchesterArr
    rw [checkBinary_ok hb]
    simp only [bind, Except.bind]
    rw [newLastAxis_snoc, h1]
    simp only
    rw [Nat.mul_div_cancel_left _ two_pos, if_pos (by rw [hdl, List.prod_append, List.prod_singleton])]
    rfl
  · unfold WellFormed
    rw [List.prod_append, List.prod_singleton]
    exact hdl
  · have hpos := snoc_pos hi hik
    obtain ⟨e1, e2⟩ := h3 (flatIndex s idx * k + i) (by omega)
    unfold arrAt
    simp only
    rw [flatIndex_snoc _ _ hi, flatIndex_snoc _ _ hi, flatIndex_snoc _ _ hi,
      show flatIndex s idx * (2 * k) + 2 * i = 2 * (flatIndex s idx * k + i) by ring,
      show flatIndex s idx * (2 * k) + (2 * i + 1) = 2 * (flatIndex s idx * k + i) + 1 by ring]
    split_ifs with h
    · exact e1.2 h
    · exact e2 h

/-- **C126**, differential Manchester decoding of any received binary array with an even last axis: 0 exactly for a cell with a
transition. -/
theorem C126_diff_manchester_received (s : List ℕ) (k : ℕ) (l : List Int) (ha : WellFormed (⟨s ++ [2 * k], l⟩ : Arr Int))
    (hb : IsBinary l) :
    ∃ d, decodingDiffManchesterArr ⟨s ++ [2 * k], l⟩ = .ok d ∧ d.shape = s ++ [k] ∧ WellFormed d ∧
      ∀ idx i, InRange idx s → i < k → arrAt 0 d (idx ++ [i])
        = if arrAt 0 (⟨s ++ [2 * k], l⟩ : Arr Int) (idx ++ [2 * i]) = arrAt 0 (⟨s ++ [2 * k], l⟩ : Arr Int) (idx ++ [2 * i + 1])
          then 1 else 0 := by
  have hl : l.length = 2 * (s.prod * k) := by rw [snoc_wf ha]; ring
  obtain ⟨d, hd⟩ : ∃ d : List Int, d = (rows 2 l).map (fun r => 1 - |r.getD 1 0 - r.getD 0 0|) := ⟨_, rfl⟩
  have h1 : decodingDiffManchester l = .ok d := by
    unfold decodingDiffManchester
    rw [checkBinary_ok hb]
    simp only [bind, Except.bind]
    rw [if_neg (by omega), hd]
    rfl
  have hrl : (rows 2 l).length = s.prod * k := by rw [rows_length, hl]; omega
  have hdl : d.length = s.prod * k := by rw [hd, List.length_map, hrl]
  refine ⟨⟨s ++ [k], d⟩, ?_, rfl, ?_, fun idx i hi hik => ?_⟩
  · unfold decodingDiffManchesterArr
    rw [checkBinary_ok hb]
    simp only [bind, Except.bind]
    rw [newLastAxis_snoc, h1]
    simp only
    rw [Nat.mul_div_cancel_left _ two_pos, if_pos (by rw [hdl, List.prod_append, List.prod_singleton])]
    rfl
  · unfold WellFormed
    rw [List.prod_append, List.prod_singleton]
    exact hdl
  · have hpos := snoc_pos hi hik
    obtain ⟨q, hq⟩ : ∃ q, q = flatIndex s idx * k + i := ⟨_, rfl⟩
    have e : d.getD q 0 = 1 - |l.getD (2 * q + 1) 0 - l.getD (2 * q) 0| := by
      rw [hd, getD_map_lt _ [] 0 _ (by rw [hrl, hq]; exact hpos), rows_getD 0 2 l q 1 (by omega) (by omega),
        rows_getD 0 2 l q 0 (by omega) (by omega), show q * 2 + 1 = 2 * q + 1 by ring, show q * 2 + 0 = 2 * q by ring]
    unfold arrAt
    simp only
    rw [flatIndex_snoc _ _ hi, flatIndex_snoc _ _ hi, flatIndex_snoc _ _ hi,
      show flatIndex s idx * (2 * k) + 2 * i = 2 * (flatIndex s idx * k + i) by ring,
      show flatIndex s idx * (2 * k) + (2 * i + 1) = 2 * (flatIndex s idx * k + i) + 1 by ring, ← hq, e]
    rcases binary_getD hb (2 * q) with h0 | h0 <;> rcases binary_getD hb (2 * q + 1) with h1 | h1 <;> rw [h0, h1] <;> norm_num

/-- **C126**, both Manchester decoders reject every non-empty array with an odd last axis. -/
theorem C126_manchester_odd (s : List ℕ) (k : ℕ) (l : List Int) (hs : 0 < s.prod)
    (ha : WellFormed (⟨s ++ [2 * k + 1], l⟩ : Arr Int)) (hb : IsBinary l) :
    decodingManchesterArr ⟨s ++ [2 * k + 1], l⟩ = .error .valueError ∧
      decodingDiffManchesterArr ⟨s ++ [2 * k + 1], l⟩ = .error .valueError := by
  have hl : l.length = 2 * (s.prod * k) + s.prod := by rw [snoc_wf ha]; ring
  have hk : (2 * k + 1) / 2 = k := by omega
  by_cases hodd : l.length % 2 = 0
  · have hlen : (rows 2 l).length ≠ s.prod * k := by rw [rows_length, hl]; omega
    constructor
    · unfold decodingManchesterArr decodingManchester
      rw [checkBinary_ok hb]
      simp only [bind, Except.bind]
      rw [newLastAxis_snoc, if_neg (by omega), hk]
      simp only [pure, Except.pure]
      rw [if_neg]
      rw [List.length_map, List.prod_append, List.prod_singleton]
      exact hlen
    · unfold decodingDiffManchesterArr decodingDiffManchester
      rw [checkBinary_ok hb]
      simp only [bind, Except.bind]
      rw [newLastAxis_snoc, if_neg (by omega), hk]
      simp only [pure, Except.pure]
      rw [if_neg]
      rw [List.length_map, List.prod_append, List.prod_singleton]
      exact hlen
  · constructor
    · unfold decodingManchesterArr
      rw [checkBinary_ok hb]
      simp only [bind, Except.bind]
      rw [newLastAxis_snoc, C24_odd_rejected l hb (by omega)]
    · unfold decodingDiffManchesterArr decodingDiffManchester
      rw [checkBinary_ok hb]
      simp only [bind, Except.bind]
      rw [newLastAxis_snoc, if_pos hodd]

/-! ### Cases that meet the hypotheses -/

/-- a 2 x 1 x 2 array -/
example : WellFormed (⟨[2, 1, 2], [1, 0, 1, 1]⟩ : Arr Int) ∧ IsBinary [1, 0, 1, 1] := by
  constructor
  · rfl
  · intro x hx; simp at hx; omega

example : codingManchesterArr ⟨[2, 1, 2], [1, 0, 1, 1]⟩ = .ok ⟨[2, 1, 4], [1, 0, 0, 1, 1, 0, 1, 0]⟩ := by decide
example : codingDiffManchesterArr ⟨[2, 1, 2], [1, 0, 1, 1]⟩ = .ok ⟨[2, 1, 4], [0, 0, 1, 0, 1, 1, 0, 0]⟩ := by decide
example : codingBipolarArr ⟨[2, 1, 2], [1, 0, 1, 1]⟩ = .ok ⟨[2, 1, 2], [0, 1, 2, 0]⟩ := by decide
example : codingMlt3Arr ⟨[2, 1, 2], [1, 0, 1, 1]⟩ = .ok ⟨[2, 1, 2], [1, 1, 2, 1]⟩ ∧
    decodingMlt3Arr ⟨[2, 1, 2], [1, 1, 2, 1]⟩ = .error .valueError ∧
    decodingMlt3Arr ⟨[4, 1, 1], [1, 1, 2, 1]⟩ = .ok ⟨[4, 1, 1], [1, 0, 1, 1]⟩ := by decide
example : decodingDifferentialArr (codingDifferentialArr ⟨[2, 1, 2], [1, 3, 2, 1]⟩ .pam4) .pam4 = .ok ⟨[2, 1, 2], [1, 3, 2, 1]⟩ := by
  decide
example : decodingDifferentialArr (codingDifferentialArr ⟨[2, 1, 2], [1, 2, 2, 1]⟩ .pam4) .pam4 = .ok ⟨[2, 1, 2], [1, 2, 1, 1]⟩ := by
  decide

example : decodingManchesterArr ⟨[2, 1, 2], [1, 0, 1, 1]⟩ = .ok ⟨[2, 1, 1], [1, 1 / 2]⟩ := by decide +kernel
example : decodingManchesterArr ⟨[2, 3], [1, 0, 1, 1, 0, 0]⟩ = .error .valueError := by decide +kernel

end Verif
