import Verif.Lemmas.Eye
import Verif.Props.Delay

/-! Properties of the eye diagram (C57). -/

open Finset

namespace Verif
open Verif.Spec

/-- C57: the histogram counts every value of the range in exactly the bin of the computed edges that contains it, also
when the index computed in floating point is wrong by one in either direction. -/
theorem C57_histogram {K : Type} [Field K] [LinearOrder K] [IsStrictOrderedRing K] (edges : List K) (est : K → ℕ)
    (vals : List K) (hn : 2 ≤ edges.length) (he : ∀ k, k + 1 < edges.length → edges.getD k 0 < edges.getD (k + 1) 0)
    (hest : ∀ a t, InBin (fun k => edges.getD k 0) (edges.length - 1) t a → est a ≤ t + 1 ∧ t ≤ est a + 1) :
    (histCounts edges est vals).length = edges.length - 1 ∧
      (∀ k, k < edges.length - 1 → (histCounts edges est vals).getD k 0
        = (vals.filter (fun a => decide (InBin (fun k => edges.getD k 0) (edges.length - 1) k a))).length) := by
  refine ⟨by simp [histCounts], fun k hk => ?_⟩
  exact histCounts_getD edges est vals (by omega) (fun k hk => he k (by omega)) hest k hk

example : histCounts ([0, 1, 2, 3] : List ℚ) (fun _ => 1) [0, 1 / 2, 1, 2, 3, 3, 4] = [2, 1, 3] := by decide +kernel

/-- C57: with the oversampling of the signal equal to that of the diagram, entry `k` of each column is the number of unit
intervals whose sample of that phase lies in amplitude bin `k` (or its logarithm); the second half repeats the first. -/
theorem C57_counts (x : List ℝ) (osr q : ℕ) (fs : ℝ) (lg : Bool) (ho : 0 < osr) (hd : x.length % osr = 0) (hq : 0 < q)
    (hfs : 0 < fs) :
    ∃ eye amp, eyeDiagram x osr osr fs q lg = .ok (eye, amp) ∧ eye.length = 2 * osr ∧
      ∀ ii, ii < osr → eye.getD (osr + ii) [] = eye.getD ii [] ∧ (eye.getD ii []).length = q ∧
        ∀ k, k < q → (eye.getD ii []).getD k 0
          = if lg then Real.logb 10 ((phaseCount x osr (x.length / osr) (eyeEdge fs q) q ii k : ℝ) + 1 / 10)
            else (phaseCount x osr (x.length / osr) (eyeEdge fs q) q ii k : ℝ) := by
  obtain ⟨cols, hc, hl, h⟩ := eyeColumns_eq x osr q fs ho hd hq hfs
  obtain ⟨e1, e2⟩ := eyeDiagram_cols x osr osr q fs lg (le_refl _) cols hc
  refine ⟨_, _, e1, by simp [hl]; omega, fun ii hi => ?_⟩
  obtain ⟨h1, h2⟩ := e2 ii (by rw [hl]; exact hi)
  rw [hl] at h2
  refine ⟨h2.trans h1.symm, by rw [h1, List.length_map, (h ii hi).1], fun k hk => ?_⟩
  rw [h1, getD_map_lt _ 0 0 _ (by rw [(h ii hi).1]; exact hk), (h ii hi).2 k hk]
  rfl

/-- C57: the counts of a column add up to the number of unit intervals whose sample is within full scale; to the number of
unit intervals when all are. -/
theorem C57_column_sum (x : List ℝ) (osr q : ℕ) (fs : ℝ) (ho : 0 < osr) (hd : x.length % osr = 0) (hq : 0 < q)
    (hfs : 0 < fs) :
    ∃ eye amp, eyeDiagram x osr osr fs q false = .ok (eye, amp) ∧ ∀ ii, ii < osr →
      (eye.getD ii []).sum = ((range (x.length / osr)).filter (fun m => |x.getD (m * osr + ii) 0| ≤ fs)).card ∧
      ((∀ v ∈ x, |v| ≤ fs) → (eye.getD ii []).sum = ((x.length / osr : ℕ) : ℝ)) := by
  obtain ⟨eye, amp, e, hl, h⟩ := C57_counts x osr q fs false ho hd hq hfs
  refine ⟨eye, amp, e, fun ii hi => ?_⟩
  obtain ⟨_, h1, h2⟩ := h ii hi
  have hs : (eye.getD ii []).sum = ((range (x.length / osr)).filter (fun m => |x.getD (m * osr + ii) 0| ≤ fs)).card := by
    have e0 : (eye.getD ii []).sum = ∑ k ∈ range q, (eye.getD ii []).getD k 0 := by
      rw [← h1, list_sum_getD]
    have e1 : ∑ k ∈ range q, (eye.getD ii []).getD k 0
        = ((∑ k ∈ range q, phaseCount x osr (x.length / osr) (eyeEdge fs q) q ii k : ℕ) : ℝ) := by
      push_cast
      refine Finset.sum_congr rfl fun k hk => ?_
      rw [h2 k (mem_range.1 hk), if_neg (by simp)]
    rw [e0, e1]
    unfold phaseCount
    have hqp : (0 : ℝ) < q := by exact_mod_cast hq
    rw [sum_bins (eyeEdge fs q) q (x.length / osr) hq (fun k _ => eyeEdge_lt fs hfs q hq k) (fun m => x.getD (m * osr + ii) 0)]
    congr 2
    ext m
    simp only [mem_filter, and_congr_right_iff]
    intro _
    rw [eyeEdge_zero, eyeEdge_last fs q hq, abs_le]
  refine ⟨hs, fun hall => ?_⟩
  rw [hs, Finset.filter_true_of_mem, Finset.card_range]
  intro m hm
  rw [mem_range] at hm
  apply hall
  apply mem_of_getD
  have : (m + 1) * osr ≤ x.length := by
    have := Nat.mul_le_mul_right osr (show m + 1 ≤ x.length / osr by omega)
    exact this.trans (Nat.div_mul_le_self _ _)
  rw [Nat.succ_mul] at this
  omega

example : eyeColumns ([1, -1, 1 / 2, -1 / 2, 1, 3] : List ℚ) 2 4 1 = .ok [[0, 0, 0, 3], [1, 1, 0, 0]] := by
  decide +kernel

/-- C57: with interpolation (the oversampling of the diagram `up` times that of the signal) the columns at multiples of
`up` count the original samples, starting half a unit interval into the signal. -/
theorem C57_interpolated (x : List ℝ) (osrIn up q : ℕ) (fs : ℝ) (lg : Bool) (hi : 0 < osrIn) (hup : 1 < up)
    (hd : x.length % osrIn = 0) (hx : x ≠ []) (hq : 0 < q) (hfs : 0 < fs) :
    ∃ eye amp, eyeDiagram x osrIn (osrIn * up) fs q lg = .ok (eye, amp) ∧ eye.length = 2 * (osrIn * up) ∧
      ∀ r, r < osrIn → (eye.getD (r * up) []).length = q ∧
        ∀ k, k < q → (eye.getD (r * up) []).getD k 0 = eyeEntry lg
          ((range (x.length / osrIn - 1)).filter
            (fun m => InBin (eyeEdge fs q) q k (x.getD (osrIn / 2 + (m * osrIn + r)) 0))).card := by
  have hxl : 0 < x.length := List.length_pos_of_ne_nil hx
  obtain ⟨U, hU⟩ : ∃ U, x.length = osrIn * U := ⟨x.length / osrIn, (Nat.mul_div_cancel' (Nat.dvd_of_mod_eq_zero hd)).symm⟩
  have hU1 : 1 ≤ U := by
    rcases Nat.eq_zero_or_pos U with h | h
    · rw [h, Nat.mul_zero] at hU; omega
    · exact h
  have hN : osrIn ≤ x.length := by rw [hU]; exact Nat.le_mul_of_pos_right _ hU1
  obtain ⟨t, x2, x1, ht, hl, hs, -, -, -⟩ := C53_samples (fun a => getDdCoeffs "sinc" osrIn a true) x up osrIn
    (fun k _ _ => ⟨_, rfl, by
      unfold sincCoeffs getIndices arangeZ
      split <;> simp <;> omega⟩) (by omega) hxl hN
  have hdiv : osrIn * up / osrIn = up := Nat.mul_div_cancel_left _ hi
  have hlen : t.length = (U - 1) * (osrIn * up) := by
    rw [hl, hU, show osrIn * U - osrIn = osrIn * (U - 1) by rw [Nat.mul_sub_one]]; ring
  have hpos : 0 < osrIn * up := Nat.mul_pos hi (by omega)
  have hlt : osrIn < osrIn * up := by nlinarith
  obtain ⟨cols, hc, hcl, h⟩ := eyeColumns_eq t (osrIn * up) q fs hpos (by rw [hlen]; simp) hq hfs
  have e1 : eyeDiagram x osrIn (osrIn * up) fs q lg
      = .ok ((cols ++ cols).map (fun c => c.map (eyeEntry lg)), linspace (-1 * fs) fs q) := by
    unfold eyeDiagram eyeSignal
    rw [if_pos hlt, if_neg (by omega), hdiv, ht]
    show ((eyeColumns t (osrIn * up) q fs).bind _) = _
    rw [hc]; rfl
  refine ⟨_, _, e1, by simp [hcl]; omega, fun r hr => ?_⟩
  have hri : r * up < osrIn * up := Nat.mul_lt_mul_of_pos_right hr (by omega)
  have hcol : ((cols ++ cols).map (fun c => c.map (eyeEntry lg))).getD (r * up) []
      = (cols.getD (r * up) []).map (eyeEntry lg) := by
    rw [getD_map_lt _ [] [] _ (by simp [hcl]; omega), List.getD_append _ _ _ _ (by rw [hcl]; exact hri)]
  rw [hcol]
  refine ⟨by rw [List.length_map, (h _ hri).1], fun k hk => ?_⟩
  rw [getD_map_lt _ 0 0 _ (by rw [(h _ hri).1]; exact hk), (h _ hri).2 k hk]
  congr 1
  unfold phaseCount
  rw [hlen, Nat.mul_div_cancel _ hpos, hU, Nat.mul_div_cancel_left _ hi]
  congr 1
  ext m
  simp only [mem_filter, mem_range, and_congr_right_iff]
  intro hm
  have : m * (osrIn * up) + r * up = (m * osrIn + r) * up := by ring
  rw [this, hs (m * osrIn + r) (by
    rw [hU]
    have : (m + 1) * osrIn ≤ (U - 1) * osrIn := Nat.mul_le_mul_right _ (by omega)
    have e : osrIn * U = (U - 1) * osrIn + osrIn := by
      obtain ⟨V, rfl⟩ : ∃ V, U = V + 1 := ⟨U - 1, by omega⟩
      rw [Nat.add_sub_cancel]; ring
    rw [Nat.succ_mul] at this
    omega)]

/-- C57: a diagram of lower oversampling than the signal is not decimated: the code divides the signal into pieces of
`osr_diag` samples, so the columns add up to more than the number of unit intervals. -/
theorem C57_negative_decimation (x : List ℝ) (osrIn osrDiag q : ℕ) (fs : ℝ) (ho : 0 < osrDiag) (hlt : osrDiag < osrIn)
    (hd : x.length % osrDiag = 0) (hd' : x.length % osrIn = 0) (hx : x ≠ []) (hq : 0 < q) (hfs : 0 < fs)
    (hall : ∀ v ∈ x, |v| ≤ fs) :
    ∃ eye amp, eyeDiagram x osrIn osrDiag fs q false = .ok (eye, amp) ∧
      ∀ ii, ii < osrDiag → ((x.length / osrIn : ℕ) : ℝ) < (eye.getD ii []).sum := by
  obtain ⟨eye, amp, e, h⟩ := C57_column_sum x osrDiag q fs ho hd hq hfs
  have he : eyeDiagram x osrIn osrDiag fs q false = eyeDiagram x osrDiag osrDiag fs q false := by
    unfold eyeDiagram eyeSignal
    rw [if_neg (by omega), if_neg (by omega)]
  refine ⟨eye, amp, he.trans e, fun ii hi => ?_⟩
  rw [(h ii hi).2 hall]
  have hxl : 0 < x.length := List.length_pos_of_ne_nil hx
  have h1 : x.length / osrIn * osrIn = x.length := Nat.div_mul_cancel (Nat.dvd_of_mod_eq_zero hd')
  have h2 : x.length / osrDiag * osrDiag = x.length := Nat.div_mul_cancel (Nat.dvd_of_mod_eq_zero hd)
  have : x.length / osrIn < x.length / osrDiag := by
    by_contra hc
    rw [not_lt] at hc
    have h3 : x.length / osrDiag * osrDiag ≤ x.length / osrIn * osrDiag := Nat.mul_le_mul_right _ hc
    have h4 : 0 < x.length / osrIn := by
      rcases Nat.eq_zero_or_pos (x.length / osrIn) with h | h
      · rw [h] at h1; omega
      · exact h
    have h5 : x.length / osrIn * osrDiag < x.length / osrIn * osrIn := Nat.mul_lt_mul_of_pos_left hlt h4
    omega
  exact_mod_cast this

/-- C57: the amplitude axis has one value per bin, inside the (closed) bin; it runs from edge to edge. -/
theorem C57_axis (x : List ℝ) (osrIn osrDiag q : ℕ) (fs : ℝ) (lg : Bool) (eye : List (List ℝ)) (amp : List ℝ)
    (hq : 2 ≤ q) (hfs : 0 < fs) (h : eyeDiagram x osrIn osrDiag fs q lg = .ok (eye, amp)) :
    amp.length = q ∧ amp.getD 0 0 = -fs ∧ amp.getD (q - 1) 0 = fs ∧
      ∀ k, k < q → eyeEdge fs q k ≤ amp.getD k 0 ∧ amp.getD k 0 ≤ eyeEdge fs q (k + 1) := by
  have ha : amp = linspace (-1 * fs) fs q := by
    unfold eyeDiagram at h
    have : ∀ s : Py (List ℝ), (s.bind fun sig => (eyeColumns sig osrDiag q fs).bind fun cols =>
        Except.ok ((cols ++ cols).map (fun c => c.map (eyeEntry lg)), linspace (-1 * fs) fs q)) = .ok (eye, amp) →
        amp = linspace (-1 * fs) fs q := by
      intro s hs
      cases s with
      | error e => cases hs
      | ok sig =>
        rcases hc : eyeColumns sig osrDiag q fs with e | cols
        · rw [show (Except.ok sig : Py (List ℝ)).bind _ = (eyeColumns sig osrDiag q fs).bind _ from rfl, hc] at hs
          cases hs
        · rw [show (Except.ok sig : Py (List ℝ)).bind _ = (eyeColumns sig osrDiag q fs).bind _ from rfl, hc] at hs
          cases hs; rfl
    exact this _ h
  have hg : ∀ k, k < q → amp.getD k 0 = -fs + (k : ℝ) * (2 * fs / ((q : ℝ) - 1)) := by
    intro k hk
    obtain ⟨p, rfl⟩ : ∃ p, q = p + 1 := ⟨q - 1, by omega⟩
    rw [ha, linspace_getD _ _ p k (by omega) (by omega)]
    push_cast
    ring
  have hq1 : (0 : ℝ) < (q : ℝ) - 1 := by
    have : (2 : ℝ) ≤ q := by exact_mod_cast hq
    linarith
  have hq0 : (0 : ℝ) < q := by linarith
  refine ⟨by rw [ha, linspace_length], ?_, ?_, ?_⟩
  · rw [hg 0 (by omega)]; simp
  · rw [hg _ (by omega), Nat.cast_sub (by omega)]
    push_cast
    field_simp
    ring
  · intro k hk
    rw [hg k hk]
    unfold eyeEdge
    have hk' : (k : ℝ) + 1 ≤ q := by exact_mod_cast hk
    have hk0 : (0 : ℝ) ≤ k := Nat.cast_nonneg k
    constructor
    · have : (k : ℝ) * (2 * fs / q) ≤ k * (2 * fs / ((q : ℝ) - 1)) := by
        apply mul_le_mul_of_nonneg_left _ hk0
        apply div_le_div_of_nonneg_left (by linarith) hq1 (by linarith)
      linarith
    · have : (k : ℝ) * (2 * fs / ((q : ℝ) - 1)) ≤ ((k + 1 : ℕ) : ℝ) * (2 * fs / q) := by
        push_cast
        rw [← mul_div_assoc, ← mul_div_assoc, div_le_div_iff₀ hq1 hq0]
        nlinarith
      linarith

/-- C57: a signal that does not divide into unit intervals, a diagram without phases or bins and a negative full scale
raise ValueError. -/
theorem C57_rejects (x : List ℝ) (osrIn osrDiag q : ℕ) (fs : ℝ) (lg : Bool) (hge : osrDiag ≤ osrIn)
    (h : osrDiag = 0 ∨ x.length % osrDiag ≠ 0 ∨ q = 0 ∨ fs < 0) :
    eyeDiagram x osrIn osrDiag fs q lg = .error .valueError := by
  unfold eyeDiagram eyeSignal
  rw [if_neg (by omega)]
  show ((eyeColumns x osrDiag q fs).bind _) = _
  have : eyeColumns x osrDiag q fs = .error .valueError := by
    unfold eyeColumns
    by_cases h1 : osrDiag = 0 ∨ x.length % osrDiag ≠ 0
    · rw [if_pos h1]
    · rw [if_neg h1]
      have h2 : ∀ v : List ℝ, histogram v q (-1 * fs) fs = .error .valueError := by
        intro v
        unfold histogram
        rw [if_pos]
        rcases h with h | h | h | h
        · exact absurd (Or.inl h) h1
        · exact absurd (Or.inr h) h1
        · exact Or.inl h
        · right; linarith
      obtain ⟨m, hm⟩ : ∃ m, osrDiag = m + 1 := ⟨osrDiag - 1, by omega⟩
      rw [hm, List.range_succ_eq_map, List.mapM_cons, h2]
      rfl
  rw [this]; rfl

end Verif
