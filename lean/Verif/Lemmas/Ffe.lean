import Verif.Model.Ffe
import Verif.Spec.Ffe
import Verif.Lemmas.FilterClass
import Verif.Lemmas.Framing
import Verif.Lemmas.Slicer

/-! Lemmas: the loop of `ffe_dfe` solves the equalizer recursion. -/

open Finset

namespace Verif

open Spec (withPast NearestFirst decisionsBefore fedBack IsEqualizer)

variable {K : Type} [Field K] [LinearOrder K]

set_option linter.unusedSectionVars false

/-! ### decision instants -/

theorem decisionsBefore_eq (osr φ n : ℕ) (ho : 0 < osr) :
    decisionsBefore osr φ n = (n - (φ + osr / 2) + osr - 1) / osr := by
  unfold decisionsBefore
  have : ({k ∈ range n | k * osr + φ + osr / 2 < n} : Finset ℕ) = range ((n - (φ + osr / 2) + osr - 1) / osr) := by
    ext k
    rw [mem_filter, mem_range, mem_range, arange_count _ _ ho]
    have : k ≤ k * osr := Nat.le_mul_of_pos_right k ho
    omega
  rw [this, card_range]

theorem decisionsBefore_lt (osr φ n k : ℕ) (ho : 0 < osr) :
    k < decisionsBefore osr φ n ↔ k * osr + φ + osr / 2 < n := by
  rw [decisionsBefore_eq _ _ _ ho, arange_count _ _ ho]
  omega

theorem eq_of_lt_iff {a b : ℕ} (h : ∀ k, k < a ↔ k < b) : a = b := by
  have h1 := h a
  have h2 := h b
  omega

theorem decisionsBefore_zero (osr φ : ℕ) : decisionsBefore osr φ 0 = 0 := by simp [decisionsBefore]

/-- a new decision is fed back after sample `n` iff `n` is `osr/2` samples after the sampling phase -/
theorem decisionsBefore_succ (osr φ n : ℕ) (ho : 0 < osr) (hφ : φ < osr) :
    (n % osr = (φ + osr / 2) % osr ∧ osr / 2 ≤ n →
      decisionsBefore osr φ (n + 1) = decisionsBefore osr φ n + 1 ∧
        decisionsBefore osr φ n * osr + φ = n - osr / 2) ∧
    (¬(n % osr = (φ + osr / 2) % osr ∧ osr / 2 ≤ n) →
      decisionsBefore osr φ (n + 1) = decisionsBefore osr φ n) := by
  constructor
  · rintro ⟨h1, h2⟩
    obtain ⟨m, hm⟩ : ∃ m, n = m + osr / 2 := ⟨n - osr / 2, by omega⟩
    have hmod : m % osr = φ := by
      have : (m + osr / 2) ≡ (φ + osr / 2) [MOD osr] := by rw [← hm]; exact h1
      have := Nat.ModEq.add_right_cancel' _ this
      rw [Nat.ModEq, Nat.mod_eq_of_lt hφ] at this
      exact this
    have hq : m / osr * osr + φ = m := by rw [← hmod]; exact Nat.div_add_mod' m osr
    have e : decisionsBefore osr φ n = m / osr := eq_of_lt_iff fun k => by
      rw [decisionsBefore_lt _ _ _ _ ho]
      constructor
      · intro h
        by_contra hc
        have := Nat.mul_le_mul_right osr (Nat.not_lt.1 hc)
        omega
      · intro h
        have := Nat.mul_le_mul_right osr (Nat.succ_le_of_lt h)
        rw [Nat.succ_mul] at this
        omega
    refine ⟨eq_of_lt_iff fun k => ?_, by rw [e]; omega⟩
    rw [decisionsBefore_lt _ _ _ _ ho, e]
    constructor
    · intro h
      by_contra hc
      have := Nat.mul_le_mul_right osr (show m / osr + 1 ≤ k by omega)
      rw [Nat.succ_mul] at this
      omega
    · intro h
      have := Nat.mul_le_mul_right osr (show k ≤ m / osr by omega)
      omega
  · intro h
    refine eq_of_lt_iff fun k => ?_
    rw [decisionsBefore_lt _ _ _ _ ho, decisionsBefore_lt _ _ _ _ ho]
    constructor
    · intro hk
      by_contra hc
      refine h ⟨?_, by omega⟩
      rw [show n = φ + osr / 2 + k * osr by omega, Nat.add_mul_mod_self_right]
    · intro hk; omega

theorem phase_cond (osr n : ℕ) (phase : ℤ) (ho : 0 < osr) :
    ((n : ℤ) % osr = (phase + (osr / 2 : ℕ)) % osr) ↔ n % osr = ((phase % osr).toNat + osr / 2) % osr := by
  have h1 : 0 ≤ phase % osr := Int.emod_nonneg _ (by omega)
  have h2 : (phase + ((osr / 2 : ℕ) : ℤ)) % osr = ((((phase % osr).toNat + osr / 2) % osr : ℕ) : ℤ) := by
    rw [Int.natCast_mod, Int.natCast_add, Int.toNat_of_nonneg h1, Int.emod_add_emod]
  rw [h2]
  omega

/-- the DFE memory, as a list, at sample `n` -/
def memAt (osr φ k : ℕ) (zi d : List K) (n : ℕ) : List K := (List.range k).map (fedBack osr φ zi d n)

theorem memAt_length (osr φ k : ℕ) (zi d : List K) (n : ℕ) : (memAt osr φ k zi d n).length = k := by simp [memAt]

theorem memAt_getD (osr φ k : ℕ) (zi d : List K) (n j : ℕ) (hj : j < k) :
    (memAt osr φ k zi d n).getD j 0 = fedBack osr φ zi d n j := by
  unfold memAt
  rw [getD_map_lt _ 0 0 _ (by simpa using hj), getD_of_lt 0 (List.range _) (by simpa using hj), List.getElem_range]

theorem memAt_zero (osr φ : ℕ) (zi d : List K) : memAt osr φ zi.length zi d 0 = zi := by
  refine ext_getD 0 (memAt_length _ _ _ _ _ _) fun j hj => ?_
  rw [memAt_length] at hj
  rw [memAt_getD _ _ _ _ _ _ _ hj]
  simp [fedBack, decisionsBefore_zero]

/-- only decisions made before sample `n` are fed back at sample `n` -/
theorem fedBack_append (osr φ : ℕ) (ho : 0 < osr) (zi d e : List K) (n j : ℕ) (hn : n ≤ d.length) :
    fedBack osr φ zi (d ++ e) n j = fedBack osr φ zi d n j := by
  unfold fedBack
  split
  · rename_i h
    have : (decisionsBefore osr φ n - 1 - j) * osr + φ + osr / 2 < n :=
      (decisionsBefore_lt _ _ _ _ ho).1 (by omega)
    have : (decisionsBefore osr φ n - 1 - j) * osr + φ < d.length := by omega
    simp [List.getD_eq_getElem?_getD, List.getElem?_append_left this]
  · rfl

theorem memAt_append (osr φ k : ℕ) (ho : 0 < osr) (zi d e : List K) (n : ℕ) (hn : n ≤ d.length) :
    memAt osr φ k zi (d ++ e) n = memAt osr φ k zi d n := by
  unfold memAt
  exact List.map_congr_left fun j _ => fedBack_append osr φ ho zi d e n j hn

theorem dropLast_getD {α : Type*} (e : α) (l : List α) (j : ℕ) (h : j + 1 < l.length) :
    l.dropLast.getD j e = l.getD j e := by
  rw [List.dropLast_eq_take, take_getD _ _ _ _ (by omega)]

theorem dfeMemory_eq (osr : ℕ) (phase : ℤ) (k : ℕ) (ho : 0 < osr) (hk : 0 < k) (zi d : List K) (n : ℕ)
    (_hn : d.length = n + 1) :
    dfeMemory k osr phase n d (memAt osr (phase % osr).toNat k zi d n)
      = memAt osr (phase % osr).toNat k zi d (n + 1) := by
  obtain ⟨φ, hφ⟩ : ∃ φ, φ = (phase % osr).toNat := ⟨_, rfl⟩
  have hlt : φ < osr := by
    have := Int.emod_lt_of_pos phase (show (0 : ℤ) < osr by omega)
    omega
  have s := decisionsBefore_succ osr φ n ho hlt
  rw [← hφ]
  have nochange : ¬(n % osr = (φ + osr / 2) % osr ∧ osr / 2 ≤ n) →
      memAt osr φ k zi d n = memAt osr φ k zi d (n + 1) := by
    intro hc
    unfold memAt
    refine List.map_congr_left fun j _ => ?_
    unfold fedBack
    rw [s.2 hc]
  unfold dfeMemory
  by_cases h1 : n % osr = (φ + osr / 2) % osr
  · rw [if_pos ((phase_cond osr n phase ho).2 (by rw [← hφ]; exact h1))]
    by_cases h2 : osr / 2 ≤ n
    · rw [if_pos h2]
      obtain ⟨e1, e2⟩ := s.1 ⟨h1, h2⟩
      have : (if k > 1 then d.getD (n - osr / 2) 0 :: (memAt osr φ k zi d n).dropLast else [d.getD (n - osr / 2) 0])
          = d.getD (n - osr / 2) 0 :: (memAt osr φ k zi d n).dropLast := by
        split
        · rfl
        · have : k = 1 := by omega
          subst this
          simp [memAt]
      rw [this]
      refine ext_getD 0 (by rw [List.length_cons, List.length_dropLast, memAt_length, memAt_length]; omega) ?_
      intro j hj
      rw [List.length_cons, List.length_dropLast, memAt_length] at hj
      rw [memAt_getD _ _ _ _ _ _ _ (by omega)]
      unfold fedBack
      rw [e1]
      cases j with
      | zero =>
        rw [if_pos (by omega), List.getD_cons_zero, Nat.add_sub_cancel, Nat.sub_zero, e2]
      | succ j =>
        rw [List.getD_cons_succ, dropLast_getD _ _ _ (by rw [memAt_length]; omega),
          memAt_getD _ _ _ _ _ _ _ (by omega)]
        unfold fedBack
        by_cases hj' : j < decisionsBefore osr φ n
        · rw [if_pos hj', if_pos (by omega)]
          congr 3
          omega
        · rw [if_neg hj', if_neg (by omega)]
          congr 1
          omega
    · rw [if_neg h2]; exact nochange (fun h => h2 h.2)
  · rw [if_neg (fun h => h1 (by rw [hφ]; exact (phase_cond osr n phase ho).1 h))]
    exact nochange (fun h => h1 h.1)

theorem sliceScalar_eq (levels : Option (List K)) (lv : List K) (hlv : lv = levels.getD [-3, -1, 1, 3]) (hne : lv ≠ [])
    (x : K) : sliceScalar levels x = .ok (sliceOne lv x) := by
  unfold sliceScalar
  simp only [← hlv]
  rw [if_neg (by simpa using hne)]

/-- the slicer input for a frame -/
def frameOut (ffe dfe : List K) (fr mem : List K) : K := dotL fr ffe.reverse - dotL mem dfe

theorem dfeLoop_eq (ffe dfe : List K) (levels : Option (List K)) (lv : List K)
    (hlv : lv = levels.getD [-3, -1, 1, 3]) (hne : lv ≠ []) (osr : ℕ) (ho : 0 < osr) (phase : ℤ)
    (hk : 0 < dfe.length) (zi : List K) (frs : List (List K)) (hfr : ∀ fr ∈ frs, fr.length = ffe.length) :
    ∀ (ys : List K), ∃ zs, dfeLoop ffe dfe levels osr phase ys.length (ys.map (sliceOne lv))
        (memAt osr (phase % osr).toNat dfe.length zi (ys.map (sliceOne lv)) ys.length) frs
        = .ok (zs, memAt osr (phase % osr).toNat dfe.length zi ((ys ++ zs).map (sliceOne lv)) (ys.length + frs.length)) ∧
      zs.length = frs.length ∧
      ∀ r, r < frs.length → zs.getD r 0 = frameOut ffe dfe (frs.getD r [])
        (memAt osr (phase % osr).toNat dfe.length zi ((ys ++ zs).map (sliceOne lv)) (ys.length + r)) := by
  induction frs with
  | nil =>
    intro ys
    exact ⟨[], by simp [dfeLoop], rfl, by simp⟩
  | cons fr frs ih =>
    intro ys
    obtain ⟨φ, hφ⟩ : ∃ φ, φ = (phase % osr).toNat := ⟨_, rfl⟩
    obtain ⟨mem, hmem⟩ : ∃ m, m = memAt osr φ dfe.length zi (ys.map (sliceOne lv)) ys.length := ⟨_, rfl⟩
    obtain ⟨s, hs⟩ : ∃ s, s = frameOut ffe dfe fr mem := ⟨_, rfl⟩
    obtain ⟨zs, e1, e2, e3⟩ := ih (fun f hf => hfr f (by simp [hf])) (ys ++ [s])
    have happ : ∀ l : List K, (ys ++ [s]) ++ l = ys ++ s :: l := by simp
    have hd : (ys ++ [s]).map (sliceOne lv) = ys.map (sliceOne lv) ++ [sliceOne lv s] := by simp
    have hm := dfeMemory_eq osr phase dfe.length ho hk zi ((ys ++ [s]).map (sliceOne lv)) ys.length (by simp)
    rw [← hφ] at e1 e3 hm ⊢
    rw [hd, memAt_append osr φ _ ho _ _ _ _ (by simp), ← hmem, ← hd] at hm
    rw [happ] at e1 e3
    have hl1 : (ys ++ [s]).length = ys.length + 1 := by simp
    rw [hl1] at e1 e3
    refine ⟨s :: zs, ?_, by simp [e2], ?_⟩
    · rw [← hmem]
      unfold dfeLoop
      rw [if_neg (by rw [hmem, memAt_length, hfr fr (by simp)]; simp)]
      have hs' : dotL fr ffe.reverse - dotL mem dfe = s := hs.symm
      rw [hs']
      simp only [sliceScalar_eq levels lv hlv hne]
      show (if osr = 0 then _ else _) = _
      rw [if_neg (by omega), ← hd, hm]
      show ((dfeLoop _ _ _ _ _ _ _ _ _).bind _) = _
      rw [e1]
      show Except.ok _ = _
      rw [List.length_cons, show ys.length + 1 + frs.length = ys.length + (frs.length + 1) by omega]
    · intro r hr
      cases r with
      | zero =>
        rw [List.getD_cons_zero, List.getD_cons_zero, hs, hmem, Nat.add_zero, List.map_append,
          memAt_append osr φ _ ho _ _ _ _ (by simp)]
      | succ r =>
        rw [List.getD_cons_succ, List.getD_cons_succ, e3 r (by simpa using hr),
          show ys.length + 1 + r = ys.length + (r + 1) by omega]


/-! ### frames -/

theorem ext_withPast (z x : List K) (m : ℕ) : (z ++ x).getD m 0 = withPast z.reverse x ((m : ℤ) - z.length) := by
  rcases Nat.lt_or_ge m z.length with h | h
  · rw [show (m : ℤ) - z.length = -((z.length - 1 - m : ℕ) : ℤ) - 1 by omega, withPast_neg]
    simp only [List.getD_eq_getElem?_getD]
    rw [List.getElem?_append_left h, List.getElem?_reverse (by omega)]
    congr 2
    omega
  · rw [show (m : ℤ) - z.length = ((m - z.length : ℕ) : ℤ) by omega, withPast_nat]
    simp only [List.getD_eq_getElem?_getD]
    rw [List.getElem?_append_right h]

theorem frame_dot (ffe z x fr : List K) (hz : z.length + 1 = ffe.length) (r : ℕ) (hl : fr.length = ffe.length)
    (hfr : ∀ c, c < ffe.length → fr.getD c 0 = (z ++ x).getD (r + c) 0) :
    dotL fr ffe.reverse = ∑ i ∈ range ffe.length, ffe.getD i 0 * withPast z.reverse x ((r : ℤ) - i) := by
  rw [dotL_eq _ _ (by simp [hl]), hl, ← sum_range_reflect]
  refine sum_congr rfl fun i hi => ?_
  rw [mem_range] at hi
  rw [hfr _ (by omega), ext_withPast, mul_comm]
  congr 1
  · simp only [List.getD_eq_getElem?_getD]
    rw [List.getElem?_reverse (by omega)]
    congr 2
    omega
  · congr 1
    omega

theorem ffe_frames (ffe z x : List K) (hz : z.length + 1 = ffe.length) (hx : 0 < x.length) :
    ∃ M, buffer (z ++ x) ffe.length ((ffe.length : ℤ) - 1) 0 = .ok M ∧ M.length = x.length ∧
      (∀ fr ∈ M, fr.length = ffe.length) ∧
      (∀ r, r < x.length → ∀ c, c < ffe.length → (M.getD r []).getD c 0 = (z ++ x).getD (r + c) 0) ∧
      M.getLast? = some (lastN ffe.length (z ++ x)) := by
  obtain ⟨M, e, hlen, hM⟩ := bufferFrames_spec (z ++ x) (by intro h; simp at h; simp [h.2] at hx) ffe.length
    ((ffe.length : ℤ) - 1) 0 (by omega)
  have hN : M.length = x.length := by
    refine eq_of_lt_iff fun r => ?_
    rw [hlen, nFrames_iff _ _ _ _ (by omega), List.length_append]
    rw [show (ffe.length : ℤ) - (ffe.length - 1) = 1 by ring]
    have : max ((ffe.length : ℤ) - 1) 0 = z.length := by omega
    rw [this]
    push_cast
    omega
  have hent : ∀ r, r < x.length → ∀ c, c < ffe.length → (M.getD r []).getD c 0 = (z ++ x).getD (r + c) 0 := by
    intro r hr c hc
    rw [(hM r (by omega)).2 c hc]
    unfold Spec.sample
    rw [show (ffe.length : ℤ) - (ffe.length - 1) = 1 by ring, if_pos (by omega)]
    congr 1
    omega
  have hw : ∀ fr ∈ M, fr.length = ffe.length := by
    intro fr hfr
    obtain ⟨r, hr, rfl⟩ := List.getElem_of_mem hfr
    have := (hM r hr).1
    rwa [getD_of_lt _ _ hr] at this
  refine ⟨M, by unfold buffer; rw [e]; rfl, hN, hw, hent, ?_⟩
  rw [List.getLast?_eq_getElem?, List.getElem?_eq_getElem (by omega)]
  congr 1
  refine ext_getD 0 (by rw [hw _ (List.getElem_mem _), lastN, List.length_drop, List.length_append]; omega) ?_
  intro c hc
  rw [hw _ (List.getElem_mem _)] at hc
  rw [← getD_of_lt [] M (by omega), hent _ (by omega) c hc, lastN, drop_getD, List.length_append]
  congr 1
  omega


/-! ### FFE only -/

theorem convValid_length (ffe z x : List K) (hz : z.length + 1 = ffe.length) :
    (convValid ffe (z ++ x)).length = x.length := by
  simp only [convValid, List.length_map, List.length_range, List.length_append]; omega

theorem list_sum_range_map (n : ℕ) (f : ℕ → K) : ((List.range n).map f).sum = ∑ i ∈ range n, f i := by
  induction n with
  | zero => simp
  | succ n ih => rw [List.range_succ, List.map_append, List.sum_append, ih, sum_range_succ]; simp

theorem convValid_getD (ffe z x : List K) (hz : z.length + 1 = ffe.length) (n : ℕ) (hn : n < x.length) :
    (convValid ffe (z ++ x)).getD n 0 = ∑ i ∈ range ffe.length, ffe.getD i 0 * withPast z.reverse x ((n : ℤ) - i) := by
  have hlen : n < (List.range ((z ++ x).length + 1 - ffe.length)).length := by
    rw [List.length_range, List.length_append]; omega
  unfold convValid
  rw [getD_map_lt _ 0 0 _ hlen, getD_of_lt 0 (List.range _) hlen, List.getElem_range, list_sum_range_map]
  refine sum_congr rfl fun i hi => ?_
  rw [mem_range] at hi
  rw [ext_withPast]
  congr 2
  omega

theorem ffeDfe_ffe (x ffe : List K) (levels : Option (List K)) (osr : ℕ) (phase : ℤ) (ziF ziD : Option (List K))
    (z : List K) (h : initFfe ffe ziF = .ok z) (hL : 2 ≤ ffe.length) (hx : 0 < x.length) :
    ffeDfe x ffe none levels osr phase ziF ziD = .ok (.ffe (convValid ffe (z ++ x)) (lastN ffe.length x)) := by
  unfold ffeDfe
  simp only []
  rw [if_neg (by omega), h]
  show (if _ then _ else _) = _
  rw [if_neg (by omega)]
  rfl

theorem initFfe_length (ffe z : List K) (zi : Option (List K)) (hL : 0 < ffe.length) (h : initFfe ffe zi = .ok z) :
    z.length + 1 = ffe.length := by
  cases zi with
  | none => simp only [initFfe] at h; rw [if_neg (by omega)] at h; cases h; simp; omega
  | some w =>
    simp only [initFfe] at h; split at h <;> cases h
    rw [List.length_drop]; omega

/-- the memory returned after a chunk describes the past of the next chunk -/
theorem past_step (L : ℕ) (z x c : List K) (hz : z.length + 1 = L) (hx : 0 < x.length) (t : ℤ)
    (ht : -((L : ℤ) - 1) ≤ t) :
    withPast ((lastN L (z ++ x)).drop 1).reverse c t = withPast z.reverse (x ++ c) (t + x.length) := by
  have hd : ((lastN L (z ++ x)).drop 1) = (z ++ x).drop x.length := by
    unfold lastN
    rw [List.drop_drop]
    congr 1
    rw [List.length_append]
    omega
  have hl : ((z ++ x).drop x.length).length = z.length := by simp
  rw [hd]
  have e1 := ext_withPast ((z ++ x).drop x.length) c (t + z.length).toNat
  have e2 := ext_withPast z (x ++ c) ((t + z.length).toNat + x.length)
  rw [hl, show (((t + z.length).toNat : ℕ) : ℤ) - z.length = t by omega] at e1
  rw [show (((t + z.length).toNat + x.length : ℕ) : ℤ) - z.length = t + x.length by omega] at e2
  rw [← e1, ← e2, ← List.append_assoc]
  rw [show (z ++ x).drop x.length ++ c = ((z ++ x) ++ c).drop x.length by
    rw [List.drop_append_of_le_length (l₁ := z ++ x) (by simp)], drop_getD, Nat.add_comm]

theorem lastN_append (L : ℕ) (z x : List K) (h : L ≤ x.length) : lastN L (z ++ x) = lastN L x := by
  unfold lastN
  rw [List.length_append, show z.length + x.length - L = z.length + (x.length - L) by omega]
  simp

/-! ### with DFE -/

theorem nearestFirst_unique (lv : List K) (x y y' : K) (h : NearestFirst lv x y) (h' : NearestFirst lv x y') :
    y = y' := by
  obtain ⟨i, hi, e, h1, h2⟩ := h
  obtain ⟨j, hj, e', h1', h2'⟩ := h'
  rcases Nat.lt_trichotomy i j with h | h | h
  · have := h2' i h
    exact absurd (h1 _ (e' ▸ List.getElem_mem hj)) (by rw [← e] at this; exact not_le.2 this)
  · subst h; rw [e, e']
  · have := h2 j h
    exact absurd (h1' _ (e ▸ List.getElem_mem hi)) (by rw [← e'] at this; exact not_le.2 this)

theorem fedBack_congr (osr φ : ℕ) (ho : 0 < osr) (zi d d' : List K) (n j : ℕ)
    (h : ∀ m, m < n → d.getD m 0 = d'.getD m 0) : fedBack osr φ zi d n j = fedBack osr φ zi d' n j := by
  unfold fedBack
  split
  · rename_i hj
    have : (decisionsBefore osr φ n - 1 - j) * osr + φ + osr / 2 < n :=
      (decisionsBefore_lt _ _ _ _ ho).1 (by omega)
    exact h _ (by omega)
  · rfl

/-- the equalizer recursion has one solution -/
theorem isEqualizer_unique (ffe dfe lv : List K) (osr φ : ℕ) (ho : 0 < osr) (h zi x y d y' d' : List K)
    (e : IsEqualizer ffe dfe lv osr φ h zi x y d) (e' : IsEqualizer ffe dfe lv osr φ h zi x y' d') :
    y = y' ∧ d = d' := by
  have key : ∀ n, n < x.length → y.getD n 0 = y'.getD n 0 ∧ d.getD n 0 = d'.getD n 0 := by
    intro n
    induction n using Nat.strong_induction_on with
    | _ n ih =>
      intro hn
      have hy : y.getD n 0 = y'.getD n 0 := by
        rw [e.slicer_in n hn, e'.slicer_in n hn]
        congr 1
        refine sum_congr rfl fun j _ => ?_
        rw [fedBack_congr osr φ ho zi d d' n j (fun m hm => (ih m hm (by omega)).2)]
      refine ⟨hy, ?_⟩
      have h2 := e'.decision n hn
      rw [← hy] at h2
      exact nearestFirst_unique _ _ _ _ (e.decision n hn) h2
  exact ⟨ext_getD 0 (by rw [e.length_y, e'.length_y]) (fun n hn => (key n (by rw [← e.length_y]; exact hn)).1),
    ext_getD 0 (by rw [e.length_d, e'.length_d]) (fun n hn => (key n (by rw [← e.length_d]; exact hn)).2)⟩

variable [IsStrictOrderedRing K]

/-- the memories after a call -/
def eqOut (L : ℕ) (y zf zd : List K) : EqOut K := if L = 1 then .dfe y zd else .both y zf zd

theorem ffeDfe_dfe (x ffe dfe : List K) (levels : Option (List K)) (lv : List K)
    (hlv : lv = levels.getD [-3, -1, 1, 3]) (hne : lv ≠ []) (osr : ℕ) (ho : 0 < osr) (phase : ℤ)
    (hk : 0 < dfe.length) (hL : 0 < ffe.length) (hx : 0 < x.length)
    (ziF ziD : Option (List K)) (z zi : List K) (hz : initFfe ffe ziF = .ok z) (hzi : initDfe dfe ziD = .ok zi)
    (hlen : zi.length = dfe.length) :
    ∃ y, ffeDfe x ffe (some dfe) levels osr phase ziF ziD
        = .ok (eqOut ffe.length y (lastN ffe.length (z ++ x))
          (memAt osr (phase % osr).toNat dfe.length zi (y.map (sliceOne lv)) x.length)) ∧
      IsEqualizer ffe dfe lv osr (phase % osr).toNat z.reverse zi x y (y.map (sliceOne lv)) := by
  have hzl := initFfe_length ffe z ziF hL hz
  obtain ⟨M, eM, hM, hw, hent, hlast⟩ := ffe_frames ffe z x hzl hx
  obtain ⟨y, e1, e2, e3⟩ := dfeLoop_eq ffe dfe levels lv hlv hne osr ho phase hk zi M hw []
  have hm0 : memAt osr (phase % osr).toNat dfe.length zi [] 0 = zi := by rw [← hlen]; exact memAt_zero _ _ _ _
  simp only [List.map_nil, List.length_nil, List.nil_append, Nat.zero_add] at e1 e3
  rw [hm0, hM] at e1
  refine ⟨y, ?_, ?_⟩
  · unfold ffeDfe
    simp only [hzi, hz]
    show ((buffer (z ++ x) ffe.length ((ffe.length : ℤ) - 1) 0).bind _) = _
    rw [eM]
    show ((dfeLoop ffe dfe levels osr phase 0 [] zi M).bind _) = _
    rw [e1]
    show (if ffe.length = 1 then _ else _) = _
    unfold eqOut
    split
    · rfl
    · rw [hlast]; rfl
  · refine ⟨by omega, by rw [List.length_map]; omega, ?_, ?_⟩
    · intro n hn
      rw [e3 n (by omega), frameOut, frame_dot ffe z x (M.getD n []) hzl n
        (hw _ (mem_of_getD [] M (by omega))) (hent n hn),
        dotL_eq _ _ (memAt_length _ _ _ _ _ _), memAt_length]
      congr 1
      refine sum_congr rfl fun j hj => ?_
      rw [memAt_getD _ _ _ _ _ _ _ (mem_range.1 hj), mul_comm]
    · intro n hn
      rw [getD_map_lt _ 0 0 _ (by omega)]
      exact sliceOne_spec lv hne _

/-! ### concatenation -/

theorem decisionsBefore_add (osr φ m n : ℕ) (ho : 0 < osr) (hφ : φ + osr / 2 < osr) :
    decisionsBefore osr φ (m * osr + n) = m + decisionsBefore osr φ n := by
  refine eq_of_lt_iff fun k => ?_
  rw [decisionsBefore_lt _ _ _ _ ho]
  rcases Nat.lt_or_ge k m with h | h
  · have := Nat.mul_le_mul_right osr (show k + 1 ≤ m by omega)
    rw [Nat.succ_mul] at this
    constructor <;> intro <;> omega
  · obtain ⟨k', rfl⟩ : ∃ k', k = m + k' := ⟨k - m, by omega⟩
    have := decisionsBefore_lt osr φ n k' ho
    rw [Nat.add_mul]
    constructor <;> intro <;> omega

theorem fedBack_concat (osr φ k m : ℕ) (ho : 0 < osr) (hφ : φ + osr / 2 < osr) (zi d1 d2 : List K)
    (h1 : d1.length = m * osr) (n j : ℕ) (hj : j < k) :
    fedBack osr φ zi (d1 ++ d2) (m * osr + n) j = fedBack osr φ (memAt osr φ k zi d1 (m * osr)) d2 n j := by
  have hm : decisionsBefore osr φ (m * osr) = m := by
    have := decisionsBefore_add osr φ m 0 ho hφ
    rwa [decisionsBefore_zero, Nat.add_zero] at this
  unfold fedBack
  rw [decisionsBefore_add _ _ _ _ ho hφ]
  obtain ⟨q, hq⟩ : ∃ q, q = decisionsBefore osr φ n := ⟨_, rfl⟩
  rw [← hq]
  by_cases hjq : j < q
  · rw [if_pos hjq, if_pos (by omega)]
    have : (m + q - 1 - j) * osr + φ = d1.length + ((q - 1 - j) * osr + φ) := by
      rw [h1, show m + q - 1 - j = m + (q - 1 - j) by omega, Nat.add_mul]; ring
    rw [this]
    simp only [List.getD_eq_getElem?_getD]
    rw [List.getElem?_append_right (by omega), Nat.add_sub_cancel_left]
  · rw [if_neg hjq, memAt_getD _ _ _ _ _ _ _ (by omega)]
    unfold fedBack
    rw [hm]
    by_cases hjm : j < m + q
    · rw [if_pos hjm, if_pos (by omega)]
      have hlt : (m - 1 - (j - q)) * osr + φ < d1.length := by
        have := Nat.mul_le_mul_right osr (show m - 1 - (j - q) + 1 ≤ m by omega)
        rw [Nat.succ_mul] at this
        omega
      rw [show m + q - 1 - j = m - 1 - (j - q) by omega]
      simp only [List.getD_eq_getElem?_getD]
      rw [List.getElem?_append_left hlt]
    · rw [if_neg hjm, if_neg (by omega)]
      congr 1
      omega

theorem isEqualizer_concat (ffe dfe lv : List K) (osr φ m : ℕ) (ho : 0 < osr) (hφ : φ + osr / 2 < osr)
    (z zi x1 x2 y1 y2 d1 d2 : List K) (hz : z.length + 1 = ffe.length) (hm : x1.length = m * osr)
    (hx1 : 0 < x1.length)
    (e1 : IsEqualizer ffe dfe lv osr φ z.reverse zi x1 y1 d1)
    (e2 : IsEqualizer ffe dfe lv osr φ ((lastN ffe.length (z ++ x1)).drop 1).reverse
      (memAt osr φ dfe.length zi d1 x1.length) x2 y2 d2) :
    IsEqualizer ffe dfe lv osr φ z.reverse zi (x1 ++ x2) (y1 ++ y2) (d1 ++ d2) := by
  have hy1 := e1.length_y
  have hd1 := e1.length_d
  have left : ∀ (u v : List K) (n : ℕ), n < u.length → (u ++ v).getD n 0 = u.getD n 0 := by
    intro u v n hn
    simp [List.getD_eq_getElem?_getD, List.getElem?_append_left hn]
  have right : ∀ (u v : List K) (n : ℕ), (u ++ v).getD (u.length + n) 0 = v.getD n 0 := by
    intro u v n
    rw [List.getD_eq_getElem?_getD, List.getElem?_append_right (by omega), Nat.add_sub_cancel_left,
      List.getD_eq_getElem?_getD]
  refine ⟨by simp [hy1, e2.length_y], by simp [hd1, e2.length_d], ?_, ?_⟩
  · intro n hn
    rcases Nat.lt_or_ge n x1.length with h | h
    · rw [left _ _ _ (by omega), e1.slicer_in n h]
      congr 1
      · refine sum_congr rfl fun i _ => ?_
        rw [withPast_append _ _ _ _ (by omega)]
      · refine sum_congr rfl fun j _ => ?_
        rw [fedBack_append _ _ ho _ _ _ _ _ (by omega)]
    · obtain ⟨k, rfl⟩ : ∃ k, n = x1.length + k := ⟨n - x1.length, by omega⟩
      have hk : k < x2.length := by rw [List.length_append] at hn; omega
      rw [show x1.length + k = y1.length + k by omega, right, e2.slicer_in k hk]
      congr 1
      · refine sum_congr rfl fun i hi => ?_
        rw [mem_range] at hi
        rw [past_step ffe.length z x1 x2 hz hx1 _ (by omega)]
        congr 2
        omega
      · refine sum_congr rfl fun j hj => ?_
        have := fedBack_concat osr φ dfe.length m ho hφ zi d1 d2 (by omega) k j (mem_range.1 hj)
        rw [hm, ← this, hy1, hm]
  · intro n hn
    rcases Nat.lt_or_ge n x1.length with h | h
    · rw [left _ _ _ (by omega), left _ _ _ (by omega)]
      exact e1.decision n h
    · obtain ⟨k, rfl⟩ : ∃ k, n = x1.length + k := ⟨n - x1.length, by omega⟩
      have hk : k < x2.length := by rw [List.length_append] at hn; omega
      have := e2.decision k hk
      rw [show x1.length + k = y1.length + k by omega, right, show y1.length + k = d1.length + k by omega, right]
      exact this

theorem memAt_concat (osr φ k m : ℕ) (ho : 0 < osr) (hφ : φ + osr / 2 < osr) (zi d1 d2 : List K)
    (h1 : d1.length = m * osr) (n : ℕ) :
    memAt osr φ k zi (d1 ++ d2) (m * osr + n) = memAt osr φ k (memAt osr φ k zi d1 (m * osr)) d2 n := by
  refine ext_getD 0 (by simp [memAt_length]) fun j hj => ?_
  rw [memAt_length] at hj
  rw [memAt_getD _ _ _ _ _ _ _ hj, memAt_getD _ _ _ _ _ _ _ hj, fedBack_concat _ _ k _ ho hφ _ _ _ h1 _ _ hj]

theorem lastN_concat (L : ℕ) (z x c : List K) (hz : z.length + 1 = L) (hx : 0 < x.length) (hc : 0 < c.length) :
    lastN L ((lastN L (z ++ x)).drop 1 ++ c) = lastN L (z ++ (x ++ c)) := by
  have hd : ((lastN L (z ++ x)).drop 1) = (z ++ x).drop x.length := by
    unfold lastN
    rw [List.drop_drop]
    congr 1
    rw [List.length_append]
    omega
  rw [hd, ← List.append_assoc]
  unfold lastN
  rw [show (z ++ x).drop x.length ++ c = ((z ++ x) ++ c).drop x.length by
    rw [List.drop_append_of_le_length (l₁ := z ++ x) (by simp)], List.drop_drop]
  congr 1
  simp only [List.length_drop, List.length_append]
  omega


/-! ### chunks -/

theorem initDfe_length (dfe zi : List K) (z : Option (List K)) (h : initDfe dfe z = .ok zi) :
    zi.length = dfe.length := by
  cases z with
  | none => simp only [initDfe] at h; cases h; simp
  | some w => simp only [initDfe] at h; split at h <;> cases h; assumption

/-- the memories are accepted by the next call -/
def MemOk (ffe : List K) (dfe : Option (List K)) (m : Option (List K) × Option (List K)) : Prop :=
  (∃ z, initFfe ffe m.1 = .ok z) ∧ ∀ d, dfe = some d → ∃ zi, initDfe d m.2 = .ok zi

theorem chunks_of_two (ffe : List K) (dfe levels : Option (List K)) (osr : ℕ) (phase : ℤ) (P : List K → Prop)
    (V : Option (List K) × Option (List K) → Prop) (hP : ∀ x y, P x → P y → P (x ++ y))
    (h1 : ∀ m x, V m → P x → ∃ r, ffeDfe x ffe dfe levels osr phase m.1 m.2 = .ok r ∧ V r.memories ∧
      r.signal.length = x.length)
    (h2 : ∀ m x y r s, V m → P x → P y → ffeDfe x ffe dfe levels osr phase m.1 m.2 = .ok r →
      ffeDfe y ffe dfe levels osr phase r.memories.1 r.memories.2 = .ok s →
      ∃ t, ffeDfe (x ++ y) ffe dfe levels osr phase m.1 m.2 = .ok t ∧ t.signal = r.signal ++ s.signal ∧
        t.memories = s.memories)
    (cs : List (List K)) (hne : cs ≠ []) (hcs : ∀ c ∈ cs, P c) :
    ∀ m, V m → ∃ ys r, ffeDfeChunks ffe dfe levels osr phase m cs = .ok (ys, r.memories) ∧
      ffeDfe cs.flatten ffe dfe levels osr phase m.1 m.2 = .ok r ∧
      ys.map List.length = cs.map List.length ∧ ys.flatten = r.signal := by
  induction cs with
  | nil => exact absurd rfl hne
  | cons c cs ih =>
    intro m hm
    obtain ⟨r, e, hv, hl⟩ := h1 m c hm (hcs c (by simp))
    cases cs with
    | nil =>
      refine ⟨[r.signal], r, ?_, by simpa using e, by simp [hl], by simp⟩
      simp only [ffeDfeChunks, e]
      rfl
    | cons c' cs =>
      obtain ⟨ys, s, e1, e2, e3, e4⟩ := ih (by simp) (fun d hd => hcs d (by simp [hd])) r.memories hv
      have hflat : P (c' :: cs).flatten := by
        have : ∀ l : List (List K), l ≠ [] → (∀ d ∈ l, P d) → P l.flatten := by
          intro l
          induction l with
          | nil => intro h; exact absurd rfl h
          | cons a l ihl =>
            intro _ ha
            cases l with
            | nil => simpa using ha a (by simp)
            | cons b l =>
              rw [List.flatten_cons]
              exact hP _ _ (ha a (by simp)) (ihl (by simp) (fun d hd => ha d (by simp [hd])))
        exact this _ (by simp) (fun d hd => hcs d (by simp [hd]))
      obtain ⟨t, f1, f2, f3⟩ := h2 m c _ r s hm (hcs c (by simp)) hflat e e2
      refine ⟨r.signal :: ys, t, ?_, by rw [List.flatten_cons]; exact f1, by simp [hl, e3], ?_⟩
      · rw [ffeDfeChunks, e]
        show ((ffeDfeChunks ffe dfe levels osr phase r.memories (c' :: cs)).bind _) = _
        rw [e1, f3]
        rfl
      · rw [List.flatten_cons, f2, e4]

theorem eqOut_signal (L : ℕ) (y zf zd : List K) : (eqOut L y zf zd).signal = y := by
  unfold eqOut; split <;> rfl

theorem eqOut_memories (L : ℕ) (y zf zd : List K) :
    (eqOut L y zf zd).memories = (if L = 1 then none else some zf, some zd) := by
  unfold eqOut; split <;> rfl

theorem initFfe_eqOut (ffe y zf zd : List K) (hzf : zf.length = ffe.length) :
    initFfe ffe (eqOut ffe.length y zf zd).memories.1 = .ok (zf.drop 1) := by
  rw [eqOut_memories]
  by_cases h : ffe.length = 1
  · simp only [if_pos h, initFfe]
    rw [if_neg (by omega), h]
    have : zf.drop 1 = [] := by rw [List.drop_eq_nil_iff]; omega
    rw [this]; rfl
  · simp only [if_neg h, initFfe]
    rw [if_pos hzf]

theorem lastN_length (L : ℕ) (z x : List K) (hz : z.length + 1 = L) (hx : 0 < x.length) :
    (lastN L (z ++ x)).length = L := by
  simp only [lastN, List.length_drop, List.length_append]; omega

/-- equalizing two pieces with handed over memories equals equalizing at once -/
theorem ffeDfe_two (ffe dfe : List K) (levels : Option (List K)) (hne : levels.getD [-3, -1, 1, 3] ≠ [])
    (osr : ℕ) (ho : 0 < osr) (phase : ℤ) (hφ : (phase % osr).toNat + osr / 2 < osr)
    (hk : 0 < dfe.length) (hL : 0 < ffe.length) (m : Option (List K) × Option (List K)) (x1 x2 : List K)
    (r1 r2 : EqOut K) (hm : MemOk ffe (some dfe) m) (h1 : 0 < x1.length ∧ osr ∣ x1.length)
    (h2 : 0 < x2.length ∧ osr ∣ x2.length)
    (e1 : ffeDfe x1 ffe (some dfe) levels osr phase m.1 m.2 = .ok r1)
    (e2 : ffeDfe x2 ffe (some dfe) levels osr phase r1.memories.1 r1.memories.2 = .ok r2) :
    ∃ r, ffeDfe (x1 ++ x2) ffe (some dfe) levels osr phase m.1 m.2 = .ok r ∧ r.signal = r1.signal ++ r2.signal ∧
      r.memories = r2.memories := by
  obtain ⟨⟨z, hz⟩, hzi⟩ := hm
  obtain ⟨zi, hzi⟩ := hzi dfe rfl
  have hzl := initFfe_length ffe z _ hL hz
  have hzil := initDfe_length dfe zi _ hzi
  obtain ⟨y1, f1, g1⟩ := ffeDfe_dfe x1 ffe dfe levels _ rfl hne osr ho phase hk hL h1.1 _ _ z zi hz hzi hzil
  rw [e1] at f1
  cases f1
  obtain ⟨zf, hzf⟩ : ∃ zf, zf = lastN ffe.length (z ++ x1) := ⟨_, rfl⟩
  obtain ⟨zd, hzd⟩ : ∃ zd, zd = memAt osr (phase % osr).toNat dfe.length zi
    (y1.map (sliceOne (levels.getD [-3, -1, 1, 3]))) x1.length := ⟨_, rfl⟩
  have hzdl : zd.length = dfe.length := by rw [hzd, memAt_length]
  rw [← hzf, ← hzd] at e2
  have hzf2 := initFfe_eqOut ffe y1 zf zd (by rw [hzf, lastN_length _ _ _ hzl h1.1])
  have hzd2 : initDfe dfe (eqOut ffe.length y1 zf zd).memories.2 = .ok zd := by
    rw [eqOut_memories]; simp only [initDfe]; rw [if_pos hzdl]
  obtain ⟨y2, f2, g2⟩ := ffeDfe_dfe x2 ffe dfe levels _ rfl hne osr ho phase hk hL h2.1 _ _ _ zd hzf2 hzd2 hzdl
  rw [e2] at f2
  cases f2
  obtain ⟨y, f, g⟩ := ffeDfe_dfe (x1 ++ x2) ffe dfe levels _ rfl hne osr ho phase hk hL
    (by rw [List.length_append]; omega) _ _ z zi hz hzi hzil
  obtain ⟨q, hq⟩ := h1.2
  rw [hzf, hzd] at g2
  have gc := isEqualizer_concat ffe dfe _ osr (phase % osr).toNat q ho hφ z zi x1 x2 y1 y2 _ _ hzl
    (by rw [hq, Nat.mul_comm]) h1.1 g1 g2
  obtain ⟨hy, hd⟩ := isEqualizer_unique _ _ _ _ _ ho _ _ _ _ _ _ _ g gc
  refine ⟨_, f, ?_, ?_⟩
  · rw [eqOut_signal, eqOut_signal, eqOut_signal, hy]
  · rw [eqOut_memories, eqOut_memories, hzf, lastN_concat _ _ _ _ hzl h1.1 h2.1, hd, List.length_append, hq,
      Nat.mul_comm osr q, memAt_concat osr _ _ q ho hφ zi _ _ (by rw [g1.length_d, hq, Nat.mul_comm]), hzd, hq,
      Nat.mul_comm osr q]

/-- the same without DFE, for pieces that fill the filter -/
theorem ffe_two (ffe : List K) (levels : Option (List K)) (osr : ℕ) (phase : ℤ)
    (hL : 2 ≤ ffe.length) (m : Option (List K) × Option (List K)) (x1 x2 : List K)
    (r1 r2 : EqOut K) (hm : MemOk ffe none m) (h1 : ffe.length ≤ x1.length) (h2 : ffe.length ≤ x2.length)
    (e1 : ffeDfe x1 ffe none levels osr phase m.1 m.2 = .ok r1)
    (e2 : ffeDfe x2 ffe none levels osr phase r1.memories.1 r1.memories.2 = .ok r2) :
    ∃ r, ffeDfe (x1 ++ x2) ffe none levels osr phase m.1 m.2 = .ok r ∧ r.signal = r1.signal ++ r2.signal ∧
      r.memories = r2.memories := by
  obtain ⟨⟨z, hz⟩, -⟩ := hm
  have hzl := initFfe_length ffe z _ (by omega) hz
  rw [ffeDfe_ffe x1 ffe levels osr phase _ _ z hz hL (by omega)] at e1
  cases e1
  have hz2 : initFfe ffe (some (lastN ffe.length x1)) = .ok ((lastN ffe.length x1).drop 1) := by
    simp only [initFfe]; rw [if_pos (by simp only [lastN, List.length_drop]; omega)]
  have e2' : ffeDfe x2 ffe none levels osr phase (some (lastN ffe.length x1)) none = .ok r2 := e2
  rw [ffeDfe_ffe x2 ffe levels osr phase _ _ _ hz2 hL (by omega)] at e2'
  cases e2'
  refine ⟨_, ffeDfe_ffe (x1 ++ x2) ffe levels osr phase _ _ z hz hL (by rw [List.length_append]; omega), ?_, ?_⟩
  · have hz2l : ((lastN ffe.length x1).drop 1).length + 1 = ffe.length := by
      simp only [lastN, List.length_drop]; omega
    show convValid ffe (z ++ (x1 ++ x2)) = convValid ffe (z ++ x1) ++ convValid ffe ((lastN ffe.length x1).drop 1 ++ x2)
    refine ext_getD 0 ?_ ?_
    · rw [convValid_length _ _ _ hzl, List.length_append, List.length_append, convValid_length _ _ _ hzl,
        convValid_length _ _ _ hz2l]
    · intro n hn
      rw [convValid_length _ _ _ hzl] at hn
      rw [convValid_getD _ _ _ hzl n hn]
      rcases Nat.lt_or_ge n x1.length with h | h
      · rw [List.getD_append _ _ _ _ (by rw [convValid_length _ _ _ hzl]; exact h), convValid_getD _ _ _ hzl n h]
        refine sum_congr rfl fun i _ => ?_
        rw [withPast_append _ _ _ _ (by omega)]
      · rw [List.getD_append_right _ _ _ _ (by rw [convValid_length _ _ _ hzl]; exact h),
          convValid_length _ _ _ hzl, convValid_getD _ _ _ hz2l _ (by rw [List.length_append] at hn; omega)]
        refine sum_congr rfl fun i hi => ?_
        rw [mem_range] at hi
        rw [← lastN_append ffe.length z x1 h1, past_step ffe.length z x1 x2 hzl (by omega) _ (by omega)]
        congr 2
        omega
  · show (some (lastN ffe.length (x1 ++ x2)), (none : Option (List K))) = (some (lastN ffe.length x2), none)
    rw [lastN_append _ _ _ h2]

/-! ### no error propagation -/

theorem sliceOne_near (lv : List K) (a w : K) (ha : a ∈ lv) (h : ∀ l ∈ lv, l ≠ a → 2 * |w| < |l - a|) :
    sliceOne lv (a + w) = a := by
  have hne : lv ≠ [] := List.ne_nil_of_mem ha
  by_contra hc
  have h1 := sliceOne_le lv hne (a + w) a ha
  have h2 := h _ (sliceOne_mem lv hne (a + w)) hc
  rw [add_sub_cancel_left] at h1
  have h3 : |sliceOne lv (a + w) - a| ≤ |a + w - sliceOne lv (a + w)| + |w| := by
    have : sliceOne lv (a + w) - a = -(a + w - sliceOne lv (a + w)) + w := by ring
    rw [this]
    exact (abs_add_le _ _).trans (by rw [abs_neg])
  linarith

theorem decisionsBefore_one (n : ℕ) : decisionsBefore 1 0 n = n := by
  refine eq_of_lt_iff fun k => ?_
  rw [decisionsBefore_lt _ _ _ _ (by omega)]
  simp

theorem fedBack_one (zi d : List K) (n j : ℕ) : fedBack 1 0 zi d n j = withPast zi d ((n : ℤ) - 1 - j) := by
  unfold fedBack
  rw [decisionsBefore_one]
  by_cases h : j < n
  · rw [if_pos h, show (n : ℤ) - 1 - j = ((n - 1 - j : ℕ) : ℤ) by omega, withPast_nat]
    simp
  · rw [if_neg h, show (n : ℤ) - 1 - j = -((j - n : ℕ) : ℤ) - 1 by omega, withPast_neg]

theorem phase_one (phase : ℤ) : (phase % (1 : ℕ)).toNat = 0 := by simp

end Verif
