import Verif.Lemmas.BitErrors

/-! Property theorems C79: bit errors of Gray coded links. -/

open Finset

namespace Verif
open Verif.Spec

/-- **C79.** Bits → symbols → Gray code, and back. If every received symbol is the sent one or a neighbour of it, then the
number of bit errors equals the number of symbol errors, for every constellation but PAM3 and all inversion and bit
order options. -/
theorem C79_bit_errors (c : Constellation) (hc : c ≠ .pam3) (w : ℕ) (hw1 : 1 ≤ w) (hw : numLevels c = 2 ^ w) (f : SymFlags)
    (bits : List Int) (hbin : IsBinary bits) (hlen : bits.length % w = 0)
    (hsafe : w = 1 ∨ bits.length / w ≠ 1 ∨ f.matrixOp = false) :
    ∃ sym : List Int, (do let s ← bin2symbol bits (numLevels c) f; codingGray s c) = .ok sym ∧ sym.length = bits.length / w ∧
      (∀ x ∈ sym, 0 ≤ x ∧ x < numLevels c) ∧
      ∀ rec : List Int, rec.length = sym.length → (∀ x ∈ rec, 0 ≤ x ∧ x < numLevels c) →
        (∀ i < sym.length, |rec.getD i 0 - sym.getD i 0| ≤ 1) →
        ∃ out, (do let s ← decodingGray rec c; symbol2bin s (numLevels c) f) = .ok out ∧ out.length = bits.length ∧
          mismatches bits.length (stream out) (stream bits) = mismatches sym.length (stream rec) (stream sym) := by
  obtain ⟨T, hT, hrx, hT1⟩ := gray_chain c hc w hw f
  obtain ⟨s, hs, hsl, hsr⟩ := C14_symbol_range bits hbin w hw1 f
  have hsr' : ∀ x ∈ s, 0 ≤ x ∧ x < (intLevels c).length := by
    intro x hx
    rw [numLevels_eq, hw]
    exact_mod_cast hsr x hx
  obtain ⟨q, hq, hql, hqr, hqd⟩ := C16_gray_roundtrip_partial c hc s hsr'
  rw [numLevels_eq] at hqr
  have hsafe' : ∀ r : List Int, r.length = q.length → (w = 1 ∨ r.length ≠ 1 ∨ f.matrixOp = false) := by
    intro r hr
    rw [hr, hql, hsl]
    exact hsafe
  have hback : (q.map T).flatten = bits := by
    have h1 := hrx q hqr (hsafe' q rfl)
    rw [hqd] at h1
    have h2 := C12_bits_roundtrip_partial bits hbin w hw1 f hsafe
    rw [hs, hlen, Nat.sub_zero, List.take_length] at h2
    change symbol2bin s (2 ^ w) f = _ at h2
    change symbol2bin s (numLevels c) f = _ at h1
    rw [hw, h2] at h1
    exact (Except.ok.inj h1).symm
  have hbl : bits.length = w * q.length := by
    rw [hql, hsl, Nat.mul_div_cancel' (Nat.dvd_of_mod_eq_zero hlen)]
  refine ⟨q, ?_, by rw [hql, hsl], hqr, fun rec hrl hrr hn => ?_⟩
  · rw [hw, hs]
    exact hq
  · refine ⟨_, hrx rec hrr (hsafe' rec hrl), ?_, ?_⟩
    · rw [hbl, List.length_flatten, List.map_map]
      rw [show (rec.map (List.length ∘ T)) = List.replicate rec.length w from by
        rw [List.eq_replicate_iff]
        refine ⟨by simp, fun b hb => ?_⟩
        obtain ⟨x, _, rfl⟩ := List.mem_map.1 hb
        exact hT x]
      rw [List.sum_replicate, hrl, smul_eq_mul, Nat.mul_comm]
    · have h := mismatches_flatten T w hT rec q hrl (fun i hi => by
        have h1 : rec.getD i 0 ∈ rec := by
          rw [List.getD_eq_getElem?_getD, List.getElem?_eq_getElem (by omega)]
          exact List.getElem_mem _
        have h2 : q.getD i 0 ∈ q := by
          rw [List.getD_eq_getElem?_getD, List.getElem?_eq_getElem hi]
          exact List.getElem_mem _
        exact hT1 _ _ (hrr _ h1) (hqr _ h2) (hn i hi))
      rw [hback, ← hbl] at h
      exact h

/-- PAM4 with all options, three symbols of which the middle one is received one level too high: one bit error -/
example : (do let s ← bin2symbol [1, 0, 1, 1, 0, 1] 4 ⟨true, true, true, true⟩; codingGray s .pam4) = .ok [3, 2, 1] ∧
    (do let s ← decodingGray [3, 3, 1] .pam4; symbol2bin s 4 ⟨true, true, true, true⟩) = .ok [1, 0, 1, 0, 0, 1] := by
  decide

/-- **C79** (why Gray coding is needed). Without it, the PAM4 symbols 1 and 2 are neighbours but differ in both bits,
whatever the options: one symbol error costs two bit errors. -/
theorem C79_uncoded_two_bits (f : SymFlags) :
    ∃ a b, symbol2bin [1, 1] 4 f = .ok a ∧ symbol2bin [1, 2] 4 f = .ok b ∧ mismatches 4 (stream a) (stream b) = 2 := by
  obtain ⟨f1, f2, f3, f4⟩ := f
  revert f1 f2 f3 f4
  have h : ∀ f1 f2 f3 f4 : Bool, symbol2bin [1, 1] 4 ⟨f1, f2, f3, f4⟩
        = .ok (([1, 1].map (fun s => rxRow ⟨f1, f2, f3, f4⟩ (symBits 2 s))).flatten) ∧
      symbol2bin [1, 2] 4 ⟨f1, f2, f3, f4⟩ = .ok (([1, 2].map (fun s => rxRow ⟨f1, f2, f3, f4⟩ (symBits 2 s))).flatten) ∧
      mismatches 4 (stream (([1, 1].map (fun s => rxRow ⟨f1, f2, f3, f4⟩ (symBits 2 s))).flatten))
        (stream (([1, 2].map (fun s => rxRow ⟨f1, f2, f3, f4⟩ (symBits 2 s))).flatten)) = 2 := by
    decide +kernel
  intro f1 f2 f3 f4
  exact ⟨_, _, h f1 f2 f3 f4⟩

/-- the level index of a decision: off by at most one for noise below three half level distances, right below half -/
theorem decision_near (c : Constellation) (fs : Bool) (k : ℕ) (hk : k < numLevels c) (y : ℝ)
    (hy : |y - (getLevels c fs).getD k 0| < 3 / 2 * ((getLevels c fs).getD 1 0 - (getLevels c fs).getD 0 0)) :
    ∃ m : ℕ, m < numLevels c ∧ sliceOne (getLevels c fs) y = (getLevels c fs).getD m 0 ∧ m ≤ k + 1 ∧ k ≤ m + 1 ∧
      (|y - (getLevels c fs).getD k 0| < ((getLevels c fs).getD 1 0 - (getLevels c fs).getD 0 0) / 2 → m = k) := by
  have hlen : (getLevels c fs).length = numLevels c := by rw [getLevels_length, numLevels_eq]
  have hne : getLevels c fs ≠ [] := List.ne_nil_of_length_pos (by omega)
  obtain ⟨d, hd, l0, hlv⟩ : ∃ d : ℝ, 0 < d ∧ ∃ l0 : ℝ, ∀ k < numLevels c, (getLevels c fs).getD k 0 = l0 + k * d := by
    obtain ⟨g, hg, e, -⟩ := getLevels_eq c fs
    rw [e]
    cases c
    · refine ⟨2 * g, by positivity, -g, fun k hk => ?_⟩
      simp only [numLevels] at hk
      interval_cases k <;> simp [intLevels] <;> ring
    · refine ⟨g, by positivity, 0, fun k hk => ?_⟩
      simp only [numLevels] at hk
      interval_cases k <;> simp [intLevels]
    · refine ⟨g, by positivity, -g, fun k hk => ?_⟩
      simp only [numLevels] at hk
      interval_cases k <;> simp [intLevels]
      ring
    · refine ⟨2 * g, by positivity, -3 * g, fun k hk => ?_⟩
      simp only [numLevels] at hk
      interval_cases k <;> simp [intLevels] <;> ring
  have hn2 : 2 ≤ numLevels c := by cases c <;> simp [numLevels]
  rw [hlv 1 (by omega), hlv 0 (by omega), hlv k hk] at *
  obtain ⟨i, hi, he, hmin, -⟩ := sliceOne_spec (getLevels c fs) hne y
  have hi' : i < numLevels c := by omega
  have hsi : sliceOne (getLevels c fs) y = (getLevels c fs).getD i 0 := by
    rw [he, List.getD_eq_getElem?_getD, List.getElem?_eq_getElem hi]; rfl
  have hnear : ∀ j < numLevels c, |y - (l0 + i * d)| ≤ |y - (l0 + j * d)| := by
    intro j hj
    have := hmin ((getLevels c fs).getD j 0) (by
      rw [List.getD_eq_getElem?_getD, List.getElem?_eq_getElem (by omega)]
      exact List.getElem_mem _)
    rwa [hsi, hlv i hi', hlv j hj] at this
  have key : ∀ j < numLevels c, (i < j → y ≤ l0 + (i + j) * d / 2) ∧ (j < i → l0 + (i + j) * d / 2 ≤ y) := by
    intro j hj
    have h := sq_le_sq.2 (hnear j hj)
    constructor
    · intro hij
      have h1 : (0 : ℝ) < (j - i) * d := mul_pos (by rw [sub_pos]; exact_mod_cast hij) hd
      by_contra hcon
      push Not at hcon
      nlinarith
    · intro hij
      have h1 : (0 : ℝ) < (i - j) * d := mul_pos (by rw [sub_pos]; exact_mod_cast hij) hd
      by_contra hcon
      push Not at hcon
      nlinarith
  have hy' := abs_lt.1 hy
  push_cast at hy'
  refine ⟨i, hi', hsi, ?_, ?_, fun hs => ?_⟩
  · by_contra hcon
    have h1 := (key (k + 1) (by omega)).2 (by omega)
    have h2 : (k : ℝ) + 2 ≤ i := by exact_mod_cast (by omega : k + 2 ≤ i)
    push_cast at h1
    nlinarith [mul_le_mul_of_nonneg_right h2 hd.le]
  · by_contra hcon
    have h1 := (key (k - 1) (by omega)).1 (by omega)
    have h2 : (i : ℝ) + 2 ≤ k := by exact_mod_cast (by omega : i + 2 ≤ k)
    rw [Nat.cast_sub (by omega)] at h1
    push_cast at h1
    nlinarith [mul_le_mul_of_nonneg_right h2 hd.le]
  · have hs' := abs_lt.1 hs
    push_cast at hs'
    by_contra hcon
    rcases Nat.lt_or_gt_of_ne hcon with h | h
    · have h1 := (key k hk).1 h
      have h2 : (i : ℝ) + 1 ≤ k := by exact_mod_cast h
      nlinarith [mul_le_mul_of_nonneg_right h2 hd.le]
    · have h1 := (key k hk).2 h
      have h2 : (k : ℝ) + 1 ≤ i := by exact_mod_cast h
      nlinarith [mul_le_mul_of_nonneg_right h2 hd.le]

/-- **C79**, from bits to levels and back through slicer and demapper. Let the noise of each sample be below three half
level distances. Then the number of bit errors is at most the number of samples whose noise reaches half a level
distance; in particular there are no errors below that. -/
theorem C79_noise (c : Constellation) (hc : c ≠ .pam3) (w : ℕ) (hw1 : 1 ≤ w) (hw : numLevels c = 2 ^ w) (f : SymFlags)
    (fs : Bool) (bits : List Int) (hbin : IsBinary bits) (hlen : bits.length % w = 0)
    (hsafe : w = 1 ∨ bits.length / w ≠ 1 ∨ f.matrixOp = false) :
    ∃ lv : List ℝ, (do let s ← bin2symbol bits (numLevels c) f; let q ← codingGray s c; mapping q c fs none false) = .ok lv ∧
      lv.length = bits.length / w ∧
      ∀ y : List ℝ, y.length = lv.length →
        (∀ i < lv.length, |y.getD i 0 - lv.getD i 0|
          < 3 / 2 * ((getLevels c fs).getD 1 0 - (getLevels c fs).getD 0 0)) →
        ∃ (z : List ℝ) (rec out : List Int), slicer (.vec y) (some (getLevels c fs)) = .ok (.vec z) ∧ (demapping z c fs false).1 = .ok rec ∧
          (do let s ← decodingGray rec c; symbol2bin s (numLevels c) f) = .ok out ∧ out.length = bits.length ∧
          mismatches bits.length (stream out) (stream bits)
            ≤ ((range lv.length).filter (fun i =>
                ((getLevels c fs).getD 1 0 - (getLevels c fs).getD 0 0) / 2 ≤ |y.getD i 0 - lv.getD i 0|)).card := by
  obtain ⟨sym, hs, hsl, hsr, hrec⟩ := C79_bit_errors c hc w hw1 hw f bits hbin hlen hsafe
  have hlvl : (getLevels c fs).length = numLevels c := by rw [getLevels_length, numLevels_eq]
  have hm : mapping sym c fs none false = .ok (sym.map (fun x => (getLevels c fs).getD x.toNat 0)) := by
    simp only [mapping, Bool.false_eq_true, if_false]
    exact npTake_ok _ _ _ (fun x hx => npGet_valid _ 0 x (hsr x hx).1 (by rw [hlvl]; exact (hsr x hx).2))
  refine ⟨sym.map (fun x => (getLevels c fs).getD x.toNat 0), ?_, by rw [List.length_map, hsl], fun y hy hn => ?_⟩
  · cases h1 : bin2symbol bits (numLevels c) f with
    | error e => rw [h1] at hs; cases hs
    | ok s =>
      rw [h1] at hs
      change codingGray s c = _ at hs
      show (do let q ← codingGray s c; mapping q c fs none false) = _
      rw [hs]
      exact hm
  rw [List.length_map] at hy hn
  have hlvi : ∀ i < sym.length, (sym.map (fun x => (getLevels c fs).getD x.toNat 0)).getD i 0
      = (getLevels c fs).getD (sym.getD i 0).toNat 0 := fun i hi => getD_map_lt _ 0 0 _ hi
  have hsi : ∀ i < sym.length, 0 ≤ sym.getD i 0 ∧ (sym.getD i 0).toNat < numLevels c := by
    intro i hi
    have := hsr (sym.getD i 0) (by
      rw [List.getD_eq_getElem?_getD, List.getElem?_eq_getElem hi]
      exact List.getElem_mem _)
    omega
  have hdec : ∀ i, ∃ m : ℕ, i < sym.length → m < numLevels c ∧
      sliceOne (getLevels c fs) (y.getD i 0) = (getLevels c fs).getD m 0 ∧
      |(m : ℤ) - sym.getD i 0| ≤ 1 ∧
      (|y.getD i 0 - (sym.map (fun x => (getLevels c fs).getD x.toNat 0)).getD i 0|
        < ((getLevels c fs).getD 1 0 - (getLevels c fs).getD 0 0) / 2 → (m : ℤ) = sym.getD i 0) := by
    intro i
    by_cases hi : i < sym.length
    · obtain ⟨m, h1, h2, h3, h4, h5⟩ := decision_near c fs (sym.getD i 0).toNat (hsi i hi).2 (y.getD i 0) (by
        rw [← hlvi i hi]; exact hn i hi)
      refine ⟨m, fun _ => ⟨h1, h2, ?_, fun h => ?_⟩⟩
      · rw [abs_le]
        have := hsi i hi
        omega
      · rw [hlvi i hi] at h
        have := h5 h
        have := hsi i hi
        omega
    · exact ⟨0, fun h => absurd h hi⟩
  choose M hM using hdec
  set rec : List Int := (List.range sym.length).map (fun i => (M i : ℤ)) with hrd
  have hrg : ∀ i < sym.length, rec.getD i 0 = (M i : ℤ) := fun i hi => map_range_getD _ _ _ _ hi
  have hne : getLevels c fs ≠ [] := List.ne_nil_of_length_pos (by rw [hlvl, hw]; positivity)
  have hrr : ∀ x ∈ rec, 0 ≤ x ∧ x < numLevels c := by
    intro x hx
    obtain ⟨i, hi, rfl⟩ := List.mem_map.1 hx
    have := (hM i (List.mem_range.1 hi)).1
    constructor <;> omega
  obtain ⟨out, ho1, ho2, ho3⟩ := hrec rec (by simp [hrd]) hrr (fun i hi => by
    rw [hrg i hi]; exact (hM i hi).2.2.1)
  obtain ⟨lz, hz1, hz2, hz3⟩ := C17_mapping_roundtrip c fs false rec hrr
  have hz : mapping rec c fs none false = .ok (y.map (sliceOne (getLevels c fs))) := by
    simp only [mapping, Bool.false_eq_true, if_false]
    rw [npTake_ok _ _ (fun x => (getLevels c fs).getD x.toNat 0)
      (fun x hx => npGet_valid _ 0 x (hrr x hx).1 (by rw [hlvl]; exact (hrr x hx).2))]
    congr 1
    refine ext_getD 0 (by simp [hrd, hy]) (fun i hi => ?_)
    have hi : i < sym.length := by simpa [hrd] using hi
    rw [getD_map_lt (fun x : Int => (getLevels c fs).getD x.toNat 0) 0 0 rec (by simpa [hrd] using hi),
      getD_map_lt (sliceOne (getLevels c fs)) 0 0 y (by omega), hrg i hi, Int.toNat_natCast, (hM i hi).2.1]
  rw [hz] at hz1
  obtain rfl := Except.ok.inj hz1
  refine ⟨_, rec, out, ?_, hz3, ho1, ho2, ?_⟩
  · simp [slicer, hne]
  · rw [ho3, mismatches, List.length_map]
    apply card_le_card
    intro i hi
    rw [mem_filter, mem_range] at hi ⊢
    refine ⟨hi.1, ?_⟩
    by_contra hcon
    push Not at hcon
    apply hi.2
    show rec.getD i 0 = sym.getD i 0
    rw [hrg i hi.1]
    exact (hM i hi.1).2.2.2 hcon

/-- the conditions on constellation and word length -/
example : numLevels .pam4 = 2 ^ 2 ∧ numLevels .nrz = 2 ^ 1 ∧ numLevels .ook = 2 ^ 1 ∧ IsBinary [1, 0, 1, 1, 0, 1] := by
  refine ⟨rfl, rfl, rfl, fun x hx => ?_⟩
  simp at hx
  omega

end Verif
