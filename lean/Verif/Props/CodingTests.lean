import Verif.Model.CodingTests
import Verif.Props.Coding2
import Verif.Props.Linear
import Verif.Lemmas.Noise

/-! **C85**: the project's tests of the Gray, differential, line and block codes succeed for everything they can
draw. -/

namespace Verif
open Spec

/-- symbols as drawn by the tests: 100 values below `2 ^ bits` -/
def SymbolDraw (c : Constellation) (p : List Int) : Prop := p.length = 100 ∧ ∀ x ∈ p, 0 ≤ x ∧ x < 2 ^ testBits c

/-- bits as drawn by the tests -/
def BitDraw (p : List Int) : Prop := p.length = 100 ∧ IsBinary p

/-- bits as drawn by the tests of the line coders: shape [100, 3] -/
def ArrayDraw (m : List (List Int)) : Prop := m.length = 100 ∧ Mat 3 m ∧ BinMat m

theorem draw_valid {c : Constellation} {p : List Int} (h : SymbolDraw c p) :
    ∀ x ∈ p, 0 ≤ x ∧ x < ((intLevels c).length : Int) := by
  intro x hx
  have := h.2 x hx
  refine ⟨this.1, lt_of_lt_of_le this.2 ?_⟩
  cases c <;> decide

/-- **C85**, `coding_gray_test`, every constellation (PAM3 included: the test never draws its third symbol). -/
theorem C85_gray_coding (c : Constellation) (p : List Int) (h : SymbolDraw c p) : codingGrayTest c p = .ok true := by
  have key : ∀ (L : List Int) (g : Int → Int), (∀ x ∈ p, npGet L x = .ok (g x)) →
      npTake L p = .ok (p.map g) := fun L g hg => npTake_ok L p g hg
  cases c
  case nrz => show Except.ok (grayRef .nrz p == p) = _; rw [show grayRef .nrz p = p from rfl]; simp
  case ook => show Except.ok (grayRef .ook p == p) = _; rw [show grayRef .ook p = p from rfl]; simp
  case pam3 =>
    have : codingGray p .pam3 = .ok p := by
      have := key [0, 1, 3] (fun x => x) (fun x hx => ?_)
      · rw [List.map_id'] at this
        exact this
      · have := h.2 x hx
        have hb : (2 : Int) ^ testBits .pam3 = 2 := by decide
        rw [hb] at this
        have : x = 0 ∨ x = 1 := by omega
        rcases this with rfl | rfl <;> decide
    unfold codingGrayTest codingGrayTestOf
    beta_reduce
    rw [this]
    show Except.ok (grayRef .pam3 p == p) = _
    rw [show grayRef .pam3 p = p from rfl]
    simp
  case pam4 =>
    have : codingGray p .pam4 = .ok (grayRef .pam4 p) := by
      refine key [0, 1, 3, 2] _ (fun x hx => ?_)
      have := draw_valid h x hx
      have hb : ((intLevels .pam4).length : Int) = 4 := rfl
      rw [hb] at this
      have : x = 0 ∨ x = 1 ∨ x = 2 ∨ x = 3 := by omega
      rcases this with rfl | rfl | rfl | rfl <;> decide
    unfold codingGrayTest codingGrayTestOf
    beta_reduce
    rw [this]
    show Except.ok (_ == _) = _
    simp

/-- **C85**, `decoding_gray_test`, every constellation. -/
theorem C85_gray_decoding (c : Constellation) (p : List Int) (h : SymbolDraw c p) : decodingGrayTest c p = .ok true := by
  by_cases hc : c = .pam3
  · subst hc
    have h2 : ∀ x ∈ p, x = 0 ∨ x = 1 := by
      intro x hx
      have := h.2 x hx
      have hb : (2 : Int) ^ testBits .pam3 = 2 := by decide
      rw [hb] at this
      omega
    have e : npTake [0, 1, 3] p = .ok (p.map (fun x => x)) := npTake_ok _ p _ (fun x hx => by
      rcases h2 x hx with rfl | rfl <;> decide)
    rw [List.map_id'] at e
    have e1 : codingGray p .pam3 = .ok p := e
    have e2 : decodingGray p .pam3 = .ok p := e
    unfold decodingGrayTest roundtripTestOf
    beta_reduce
    rw [e1]
    simp only [bind, Except.bind]
    rw [e2]
    simp [pure, Except.pure]
  · obtain ⟨q, h1, -, -, h4⟩ := C16_gray_roundtrip_partial c hc p (draw_valid h)
    unfold decodingGrayTest roundtripTestOf
    beta_reduce
    rw [h1]
    simp only [bind, Except.bind]
    rw [h4]
    simp [pure, Except.pure]

theorem diffRef_eq (m : Int) (p : List Int) : ∀ a : Int, diffRef m (a % m) p = (cumsumFrom a p).map (· % m) := by
  induction p with
  | nil => intro a; rfl
  | cons s t ih =>
    intro a
    unfold diffRef cumsumFrom
    rw [List.map_cons, Int.emod_add_emod, ih]

/-- **C85**, `coding_differential_test`. -/
theorem C85_differential_coding (c : Constellation) (p : List Int) : codingDifferentialTest c p = .ok true := by
  have := diffRef_eq ((intLevels c).length : Int) p 0
  rw [Int.zero_emod] at this
  unfold codingDifferentialTest codingDifferentialTestOf codingDifferential
  rw [this]
  simp

/-- **C85**, `decoding_differential_test`. -/
theorem C85_differential_decoding (c : Constellation) (p : List Int) (h : SymbolDraw c p) :
    decodingDifferentialTest c p = .ok true := by
  have hne : p ≠ [] := by rintro rfl; have := h.1; simp at this
  unfold decodingDifferentialTest roundtripTestOf
  simp only [bind, Except.bind]
  rw [C22_decode_code_partial c p hne (draw_valid h)]
  simp [bind, Except.bind, pure, Except.pure]

theorem mat_ext {w : ℕ} {a b : List (List Int)} (hl : a.length = b.length) (ha : Mat w a) (hb : Mat w b)
    (h : ∀ r < a.length, ∀ k < w, entry a r k = entry b r k) : a = b := by
  apply ext_getD [] hl
  intro r hr
  have h1 : (a.getD r []).length = w := ha _ (mem_of_getD [] _ hr)
  apply ext_getD 0 (by rw [h1, hb _ (mem_of_getD [] _ (hl ▸ hr))])
  intro k hk
  exact h r hr k (by omega)

theorem manchesterRef_eq (p : List Int) : manchesterRef p = (p.map (fun b => [b, 1 - b])).flatten := by
  induction p with
  | nil => rfl
  | cons s t ih => simp [manchesterRef, ih]

/-- **C85**, `coding_manchester_test`. -/
theorem C85_manchester_coding (m : List (List Int)) (h : ArrayDraw m) : codingManchesterTest m = .ok true := by
  unfold codingManchesterTest lineCoderTestOf codingManchester2
  rw [manchester_cells (binMat_flat h.2.2), manchesterRef_eq, h.1]
  simp [bind, Except.bind, pure, Except.pure]

/-- **C85**, `decoding_manchester_test`. -/
theorem C85_manchester_decoding (p : List Int) (h : BitDraw p) : decodingManchesterTest p = .ok true := by
  obtain ⟨c, h1, -, -, h4⟩ := C24_roundtrip p h.2
  unfold decodingManchesterTest decodingManchesterTestOf
  rw [h1]
  simp only [bind, Except.bind]
  rw [h4]
  simp [pure, Except.pure]

theorem bipolarRef_eq (p : List Int) (hp : IsBinary p) : ∀ a : Int, 0 ≤ a →
    bipolarRef (if a % 2 = 0 then -1 else 1) p
      = List.zipWith (fun (x s : Int) => 1 + x * (-1) ^ (Int.toNat s)) p ((cumsumFrom a p).map (· % 2)) := by
  induction p with
  | nil => intro a _; rfl
  | cons s t ih =>
    intro a ha
    unfold bipolarRef cumsumFrom
    rw [List.map_cons, List.zipWith_cons_cons]
    have hs := hp s (by simp)
    have hi := ih (fun x hx => hp x (by simp [hx])) (a + s) (by omega)
    rcases hs with rfl | rfl
    · rw [add_zero] at hi ⊢
      have h01 : ¬ (0 : Int) = 1 := by norm_num
      rw [if_neg h01, hi]
      simp
    · rw [if_pos rfl, ← hi]
      rcases Int.emod_two_eq_zero_or_one a with h0 | h0
      · have h1 : (a + 1) % 2 = 1 := by omega
        rw [h0, h1]
        norm_num
      · have h1 : (a + 1) % 2 = 0 := by omega
        rw [h0, h1]
        norm_num

/-- **C85**, `coding_bipolar_test`. -/
theorem C85_bipolar_coding (m : List (List Int)) (h : ArrayDraw m) : codingBipolarTest m = .ok true := by
  have hb := binMat_flat h.2.2
  obtain ⟨c, f, h1, h2, h3, h4, h5, -⟩ := C84_bipolar 3 m h.2.1 h.2.2
  have e : bipolarRef (-1) m.flatten = f := by
    have := bipolarRef_eq m.flatten hb 0 le_rfl
    rw [if_pos (by norm_num)] at this
    rw [this]
    unfold codingBipolar at h2
    rw [checkBinary_ok hb] at h2
    exact Except.ok.inj h2
  unfold codingBipolarTest lineCoderTestOf
  rw [h1]
  simp only [bind, Except.bind]
  rw [e, ← h5, ← h.1, ← h3, reshape2_of_flat h4]
  simp [pure, Except.pure]

/-- **C85**, `decoding_bipolar_test`. -/
theorem C85_bipolar_decoding (p : List Int) (h : BitDraw p) : decodingBipolarTest p = .ok true := by
  obtain ⟨c, h1, -, h3, -⟩ := C25_roundtrip p h.2
  obtain ⟨c', h1', h4⟩ := C26_valid_clean p h.2
  rw [h1] at h1'
  cases h1'
  unfold decodingBipolarTest decodingBipolarTestOf
  rw [h1]
  simp only [bind, Except.bind]
  rw [h4, h3]
  simp [pure, Except.pure]

theorem mlt3Ref_eq (p : List Int) (hp : IsBinary p) : ∀ a : ℕ,
    mlt3Ref (a % 4) p = ((cumsumFrom (a : Int) p).map (· % 4)).map (fun x => if x = 3 then 1 else x) := by
  induction p with
  | nil => intro a; rfl
  | cons s t ih =>
    intro a
    unfold mlt3Ref cumsumFrom
    rw [List.map_cons, List.map_cons]
    have hs := hp s (by simp)
    have hget : ∀ b : ℕ, ([0, 1, 2, 1] : List Int).getD (b % 4) 0 = if (b : Int) % 4 = 3 then 1 else (b : Int) % 4 := by
      intro b
      have h4 : b % 4 < 4 := Nat.mod_lt _ (by norm_num)
      have hc : (b : Int) % 4 = ((b % 4 : ℕ) : Int) := by omega
      rw [hc]
      generalize b % 4 = k at h4
      match k, h4 with
      | 0, _ => rfl
      | 1, _ => rfl
      | 2, _ => rfl
      | 3, _ => rfl
    rcases hs with rfl | rfl
    · simp only [add_zero]
      rw [if_neg (by norm_num), ih (fun x hx => hp x (by simp [hx])) a, hget]
    · simp only [if_true]
      have := ih (fun x hx => hp x (by simp [hx])) (a + 1)
      push_cast at this
      rw [Nat.mod_add_mod, this, hget]
      push_cast
      rfl

/-- **C85**, `coding_mlt3_test`. -/
theorem C85_mlt3_coding (m : List (List Int)) (h : ArrayDraw m) : codingMlt3Test m = .ok true := by
  have hb := binMat_flat h.2.2
  obtain ⟨c, f, h1, h2, h3, h4, h5⟩ := C84_mlt3 3 m h.2.1 h.2.2
  have e : mlt3Ref 0 m.flatten = f := by
    have := mlt3Ref_eq m.flatten hb 0
    rw [show (0 : ℕ) % 4 = 0 from rfl] at this
    rw [this]
    unfold codingMlt3 at h2
    rw [checkBinary_ok hb] at h2
    exact Except.ok.inj h2
  unfold codingMlt3Test lineCoderTestOf
  rw [h1]
  simp only [bind, Except.bind]
  rw [e, ← h5, ← h.1, ← h3, reshape2_of_flat h4]
  simp [pure, Except.pure]

/-- **C85**, `decoding_mlt3_test`. -/
theorem C85_mlt3_decoding (p : List Int) (h : BitDraw p) : decodingMlt3Test p = .ok true := by
  have hne : p ≠ [] := by rintro rfl; have := h.1; simp at this
  obtain ⟨c, h1, h2⟩ := C27_roundtrip p h.2 hne
  unfold decodingMlt3Test roundtripTestOf
  rw [h1]
  simp only [bind, Except.bind]
  rw [h2]
  simp [pure, Except.pure]

theorem diffManchesterRef_eq (p : List Int) (hp : IsBinary p) : ∀ i : ℕ, i < 2 →
    diffManchesterRef i p = (dmCells (i : Int) p).flatten := by
  induction p with
  | nil => intro i _; rfl
  | cons s t ih =>
    intro i hi
    unfold diffManchesterRef dmCells
    rw [List.flatten_cons]
    have hs := hp s (by simp)
    have ih' := ih (fun x hx => hp x (by simp [hx]))
    have h01 : i = 0 ∨ i = 1 := by omega
    rcases hs with rfl | rfl <;> rcases h01 with rfl | rfl
    · have := ih' 0 (by omega)
      simp at this ⊢
      exact this
    · have := ih' 1 (by omega)
      simp at this ⊢
      exact this
    · have := ih' 1 (by omega)
      simp at this ⊢
      exact this
    · have := ih' 0 (by omega)
      simp at this ⊢
      exact this

/-- **C85**, `coding_differential_manchester_test`. -/
theorem C85_diff_manchester_coding (m : List (List Int)) (h : ArrayDraw m) : codingDiffManchesterTest m = .ok true := by
  have hb := binMat_flat h.2.2
  unfold codingDiffManchesterTest lineCoderTestOf codingDiffManchester2
  rw [codingDiffManchester_eq hb, diffManchesterRef_eq m.flatten hb 0 (by norm_num), h.1]
  simp [bind, Except.bind, pure, Except.pure]

/-- **C85**, `decoding_differential_manchester_test`. -/
theorem C85_diff_manchester_decoding (p : List Int) (h : BitDraw p) : decodingDiffManchesterTest p = .ok true := by
  obtain ⟨c, h1, h2⟩ := C28_roundtrip p h.2
  unfold decodingDiffManchesterTest roundtripTestOf
  rw [h1]
  simp only [bind, Except.bind]
  rw [h2]
  simp [pure, Except.pure]

/-! ### the parity code -/

theorem parityG_length (k : ℕ) : (parityG k).length = k := by simp [parityG]

theorem parityG_matrix (k : ℕ) : BinaryMatrix (k + 1) (parityG k) := by
  intro r hr
  unfold parityG at hr
  rw [List.mem_map] at hr
  obtain ⟨i, _, rfl⟩ := hr
  refine ⟨by simp, fun x hx => ?_⟩
  rw [List.mem_append] at hx
  rcases hx with hx | hx
  · rw [List.mem_map] at hx
    obtain ⟨j, _, rfl⟩ := hx
    split
    · exact Or.inr rfl
    · exact Or.inl rfl
  · rw [List.mem_singleton] at hx
    exact Or.inr hx

theorem parityG_entry (k i j : ℕ) (hi : i < k) (hj : j < k + 1) :
    ((parityG k).getD i []).getD j 0 = if j = k then 1 else if i = j then 1 else 0 := by
  unfold parityG
  rw [getD_map_lt _ 0 [] _ (by simpa using hi), getD_of_lt 0 (List.range _) (by simpa using hi), List.getElem_range]
  by_cases hjk : j = k
  · subst hjk
    rw [if_pos rfl, List.getD_eq_getElem?_getD, List.getElem?_append_right (by simp)]
    simp
  · rw [if_neg hjk, List.getD_eq_getElem?_getD, List.getElem?_append_left (by simp; omega), ← List.getD_eq_getElem?_getD,
      getD_map_lt _ 0 0 _ (by simp; omega), getD_of_lt 0 (List.range _) (by simp; omega), List.getElem_range]

theorem parity_codeBit (k : ℕ) (u : ℕ → Int) (j : ℕ) (hj : j < k + 1) :
    codeBit (parityG k) u j = if j = k then (∑ i ∈ Finset.range k, u i) % 2 else u j % 2 := by
  unfold codeBit
  rw [parityG_length]
  have : ∀ i ∈ Finset.range k, u i * ((parityG k).getD i []).getD j 0
      = u i * if j = k then 1 else if i = j then 1 else 0 := by
    intro i hi
    rw [parityG_entry k i j (Finset.mem_range.1 hi) hj]
  rw [Finset.sum_congr rfl this]
  by_cases hjk : j = k
  · simp [hjk]
  · simp only [if_neg hjk]
    rw [Finset.sum_eq_single j]
    · simp
    · intro b _ hb
      simp [hb]
    · intro h
      rw [Finset.mem_range] at h
      omega

theorem parity_independent (k : ℕ) : RowsIndependent (k + 1) (parityG k) := by
  intro u hu h x hx
  rw [Word, parityG_length] at hu
  obtain ⟨i, hi, rfl⟩ := List.getElem_of_mem hx
  rw [hu.1] at hi
  have := h i (by omega)
  rw [parity_codeBit k _ i (by omega), if_neg (by omega)] at this
  unfold seq at this
  rw [getD_of_lt 0 u (by omega)] at this
  rcases hu.2 _ (List.getElem_mem (by omega : i < u.length)) with e | e
  · exact e
  · rw [e] at this
    norm_num at this

theorem parity_row (k : ℕ) (hk : 0 < k) (b : List Int) (hb : Word k b) : vecMat (parityG k) b = b ++ [b.sum % 2] := by
  have hG := parityG_matrix k
  have hc : cols (parityG k) = k + 1 := cols_eq hG (by rw [parityG_length]; exact hk)
  apply ext_getD 0
  · rw [vecMat_length, hc]
    simp [hb.1]
  · intro j hj
    rw [vecMat_length, hc] at hj
    rw [vecMat_getD _ b (by rw [parityG_length]; exact hb.1) j (by omega),
      parity_codeBit k _ j hj]
    by_cases hjk : j = k
    · subst hjk
      rw [if_pos rfl, List.getD_eq_getElem?_getD, List.getElem?_append_right (by rw [hb.1])]
      simp only [hb.1, Nat.sub_self, List.getElem?_cons_zero, Option.getD_some]
      congr 1
      rw [list_sum_getD' b, hb.1]
      rfl
    · rw [if_neg hjk, List.getD_eq_getElem?_getD, List.getElem?_append_left (by rw [hb.1]; omega), ← List.getD_eq_getElem?_getD]
      unfold seq
      rcases binary_getD hb.2 j with e | e <;> rw [e] <;> rfl

theorem parity_pad (k : ℕ) (hk : 0 < k) (p : List Int) :
    (p ++ List.replicate (if p.length % k > 0 then k - p.length % k else 0) 0 : List Int) = padTo k p := by
  unfold padTo
  rw [nBlocks_of_mod _ _ hk]

/-- **C85**, `coding_linear_block_test`: for every `k ≥ 1` (the test draws 1 to 5) and every pattern. -/
theorem C85_linear_coding (k : ℕ) (hk : 0 < k) (p : List Int) (hp : IsBinary p) : codingLinearTest k p = .ok true := by
  unfold codingLinearTest codingLinearTestOf
  rw [codingLinear_eq (parityG_matrix k) (by rw [parityG_length]; exact hk) hp, parityG_length]
  unfold parityRef
  simp only [bind, Except.bind, pure, Except.pure]
  rw [parity_pad k hk p]
  congr 1
  rw [beq_iff_eq]
  congr 1
  apply List.map_congr_left
  intro b hb
  exact (parity_row k hk b (rows_word k (padTo_binary k hp) b hb)).symm

/-- **C85**, `decoding_linear_block_test`. -/
theorem C85_linear_decoding (k : ℕ) (hk : 0 < k) (p : List Int) (hp : IsBinary p) :
    decodingLinearTest k p = .ok true := by
  have hk' : 0 < (parityG k).length := by rw [parityG_length]; exact hk
  obtain ⟨c, h1, h2⟩ := C31_roundtrip (parityG_matrix k) hk' (by omega) (parity_independent k) p hp
  obtain ⟨c', h1', hcb, -⟩ := C30_encoder (parityG_matrix k) hk' p hp
  rw [h1] at h1'
  cases h1'
  obtain ⟨out, pe, after, h3, h4, -⟩ := C33_error_prob_partial (parityG_matrix k) hk' (by omega) c hcb
  rw [h2] at h3
  cases h3
  unfold decodingLinearTest decodingLinearTestOf
  rw [h1]
  simp only [bind, Except.bind]
  rw [h2, h4]
  simp [pure, Except.pure]

/-! ### what the tests cannot see -/

/-- **C85**: the Gray tests of PAM3 never draw the symbol on which the coder and decoder fail: the round trip of
symbol 2 raises, and yet both tests succeed for every draw. -/
theorem C85_pam3_blind : (∀ p, SymbolDraw .pam3 p → decodingGrayTest .pam3 p = .ok true ∧ (2 : Int) ∉ p) ∧
    ∃ e, decodingGrayTest .pam3 [2] = .error e := by
  refine ⟨fun p h => ⟨C85_gray_decoding _ p h, fun h2 => ?_⟩, ?_⟩
  · have := (h.2 2 h2).2
    revert this
    decide
  · exact ⟨_, rfl⟩

/-- the draws exist -/
example : SymbolDraw .pam4 (List.replicate 50 3 ++ List.replicate 50 1) := by unfold SymbolDraw; decide +kernel
example : ArrayDraw (List.replicate 99 [1, 0, 1] ++ [[0, 0, 1]]) := by unfold ArrayDraw Mat BinMat; decide +kernel
example : BitDraw (List.replicate 49 1 ++ [0] ++ List.replicate 50 1) := by unfold BitDraw IsBinary; decide +kernel

/-- the reference loops are not vacuous: they reject a wrong coder's output -/
example : grayRef .pam4 [0, 1, 2, 3] = [0, 1, 3, 2] ∧ mlt3Ref 0 [1, 1, 0, 1, 1] = [1, 2, 2, 1, 0] ∧
    bipolarRef (-1) [1, 0, 1] = [0, 1, 2] ∧ diffManchesterRef 0 [0, 1, 0] ≠ diffManchesterRef 0 [0, 0, 0] ∧
    parityRef 3 [1, 1, 0, 1] = [1, 1, 0, 0, 1, 0, 0, 1] := by decide +kernel

end Verif
