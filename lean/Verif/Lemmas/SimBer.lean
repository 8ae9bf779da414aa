import Verif.Model.SimLink
import Verif.Lemmas.Checker
import Mathlib.Algebra.Order.BigOperators.Group.Finset

/-! Lemmas for the pattern generator and the error checker of the example simulation. -/

namespace Verif
open Spec Gf2

theorem binary_code_inj : ∀ {l m : List Int}, l.length = m.length → (∀ x ∈ l, x = 0 ∨ x = 1) →
    (∀ x ∈ m, x = 0 ∨ x = 1) → code l = code m → l = m
  | [], [], _, _, _, _ => rfl
  | x :: xs, y :: ys, h, hl, hm, hc => by
    simp only [code] at hc
    have hx := hl x (by simp)
    have hy := hm y (by simp)
    have h1 : (x % 2).toNat = (y % 2).toNat := by
      have := mod2_toNat_lt x
      have := mod2_toNat_lt y
      omega
    have h2 : code xs = code ys := by omega
    rw [binary_code_inj (by simpa using h) (fun a ha => hl a (by simp [ha]))
      (fun a ha => hm a (by simp [ha])) h2]
    congr 1
    rcases hx with rfl | rfl <;> rcases hy with rfl | rfl <;> simp_all

/-- any two non-zero seeds give the same stream up to the phase -/
theorem phase_between (p : PrbsEnum) (seed w : List Int) (hseed : seed.length = p.value)
    (hne : ∃ x ∈ seed, x % 2 = 1) (hw : w.length = p.value) (hwn : ∃ x ∈ w, x % 2 = 1) :
    ∃ φ, ∀ t, bitAt (getPolynomial p) w t = bitAt (getPolynomial p) seed (φ + t) := by
  have hP := two_pow_sub_pos (value_pos p)
  have hol : (List.replicate p.value (1:Int)).length = p.value := by simp
  obtain ⟨a, ha⟩ := exists_phase p seed hseed hne
  obtain ⟨c, hc⟩ := exists_phase p w hw hwn
  have hle : a ≤ a * (2 ^ p.value - 1) := Nat.le_mul_of_pos_right _ hP
  refine ⟨c + (a * (2 ^ p.value - 1) - a), fun t => ?_⟩
  rw [hc, ha, ← bitAt_mod p _ hol, ← bitAt_mod p _ hol (a + _)]
  congr 1
  rw [show a + (c + (a * (2 ^ p.value - 1) - a) + t) = (c + t) + a * (2 ^ p.value - 1) by omega,
    Nat.add_mul_mod_self_right]

/-- every non-zero word of register length occurs in the stream -/
theorem window_exists (p : PrbsEnum) (seed w : List Int) (hseed : seed.length = p.value)
    (hne : ∃ x ∈ seed, x % 2 = 1) (hw : w.length = p.value) (hbin : ∀ x ∈ w, x = 0 ∨ x = 1)
    (hwn : (1 : Int) ∈ w) :
    ∃ φ, ∀ i < p.value, bitAt (getPolynomial p) seed (φ + i) = stream w i := by
  have hv := value_pos p
  have hl := poly_length p
  have hle : p.value ≤ 2 ^ p.value - 1 := by
    have := @Nat.lt_two_pow_self p.value
    omega
  obtain ⟨φ, hφ⟩ := phase_between p seed w.reverse hseed hne (by simpa using hw)
    ⟨1, by simpa using hwn, rfl⟩
  have hrl : w.reverse.length = p.value := by simpa using hw
  have hreg : reg (getPolynomial p) w.reverse (2 ^ p.value - 1) = w.reverse := by
    refine binary_code_inj (reg_length _ _ _ (by omega)) (fun x hx => ?_) (by simpa using hbin) ?_
    · obtain ⟨i, hi, rfl⟩ := List.getElem_of_mem hx
      rw [reg_length _ _ _ (by omega)] at hi
      have := reg_getD (getPolynomial p) w.reverse (2 ^ p.value - 1) i hi
      rw [if_pos (by omega)] at this
      rw [← List.getD_eq_getElem (d := 0), this]
      exact bitAt_mem _ _ _
    · rw [code_reg _ _ (by rw [hl, hrl]) (by omega), hrl]
      have hlt := code_lt w.reverse
      rw [hrl] at hlt
      exact supported_id p _ hlt
  refine ⟨φ + (2 ^ p.value - 1 - p.value), fun i hi => ?_⟩
  rw [Nat.add_assoc, ← hφ]
  have h1 := reg_getD (getPolynomial p) w.reverse (2 ^ p.value - 1) (p.value - 1 - i) (by omega)
  rw [if_pos (by omega), hreg] at h1
  rw [show 2 ^ p.value - 1 - p.value + i = 2 ^ p.value - 1 - 1 - (p.value - 1 - i) by omega, ← h1]
  simp only [stream, List.getD_eq_getElem?_getD]
  rw [List.getElem?_reverse (by omega)]
  congr 2
  omega

theorem errorBit_count {data : List Int} {f : ℕ → Int} {th : Int} {l : Bool} {c : Int} {e : List Bool}
    (h : ExactReport data f th l c e) : e.count true = mismatches data.length (stream data) f := by
  have : e = (List.range data.length).map (fun i => decide (stream data i ≠ f i)) := by
    apply List.ext_getElem?
    intro i
    rw [map_range_getElem?]
    by_cases hi : i < data.length
    · rw [if_pos hi, h.flags i hi]
    · rw [if_neg hi, List.getElem?_eq_none (by rw [h.length]; omega)]
  rw [this, count_true_map_range]
  unfold mismatches
  congr 1
  apply Finset.filter_congr
  intro i _; simp

/-- the checker given one period as reference locks to the phase with the fewest differences -/
theorem prbsChecker_min (p : PrbsEnum) (seed : List Int) (hseed : seed.length = p.value) (th : Int)
    (data : List Int) (hbin : ∀ x ∈ data, x = 0 ∨ x = 1) (hd : data ≠ []) :
    ∃ r φ, prbsChecker p data false th
        (some ((List.range (2 ^ p.value - 1)).map (bitAt (getPolynomial p) seed))) = .ok r ∧
      ExactReport data (fun i => bitAt (getPolynomial p) seed (φ + i)) th
        r.lostLock r.correctBitCount r.errorBit ∧
      ∀ ψ, mismatches (min (2 ^ p.value - 1) data.length) (stream data)
          (fun i => bitAt (getPolynomial p) seed (φ + i))
        ≤ mismatches (min (2 ^ p.value - 1) data.length) (stream data)
          (fun i => bitAt (getPolynomial p) seed (ψ + i)) := by
  have hP := two_pow_sub_pos (value_pos p)
  set c := bitAt (getPolynomial p) seed with hc
  have hcm : ∀ t, c (t % (2 ^ p.value - 1)) = c t := fun t => bitAt_mod p _ hseed t
  set seq := (List.range (2 ^ p.value - 1)).map c with hseq
  have hsl : seq.length = 2 ^ p.value - 1 := by simp [hseq]
  have hsbin : ∀ x ∈ seq, x = 0 ∨ x = 1 := by
    intro x hx
    rw [hseq, List.mem_map] at hx
    obtain ⟨t, -, rfl⟩ := hx
    exact bitAt_mem _ _ _
  obtain ⟨s, xc, hs, hlock, hmin⟩ := lockBinary_spec seq data
    (List.ne_nil_of_length_pos (by omega)) hd hsbin hbin
  rw [hsl] at hmin
  have hstr : ∀ k i, i < 2 ^ p.value - 1 → stream (seq.rotate k) i = c (k + i) := by
    intro k i hi
    rw [stream_rotate _ _ _ (by omega), hsl]
    have hm := Nat.mod_lt (k + i) hP
    simp only [stream, hseq, List.getD_eq_getElem?_getD, map_range_getElem?, if_pos hm,
      Option.getD_some]
    exact hcm _
  obtain ⟨h1, h2⟩ := tile_ceil_take (seq.rotate s) data.length (2 ^ p.value - 1) hP (by simp [hsl])
  obtain ⟨r, hr, hrep⟩ := compareBits_spec data _ h1.symm th (fun i => c (s + i)) (fun i hi => by
    have hm := Nat.mod_lt i hP
    rw [h2 i hi, List.length_rotate, hsl, hstr _ _ hm, ← hcm, ← hcm (s + i), Nat.add_mod_mod])
  refine ⟨r, s, ?_, hrep, fun ψ => ?_⟩
  · simp only [prbsChecker, List.length_replicate, pure, Except.pure, bind, Except.bind,
      Bool.false_eq_true, if_false, hlock]
    exact hr
  · have h := hmin ψ
    rw [mismatches_comm, mismatches_congr (g := stream (seq.rotate s)) (fun i _ => rfl)
      (fun i hi => hstr s i (by omega)), mismatches_comm _ (stream (seq.rotate ψ)),
      mismatches_congr (g := stream (seq.rotate ψ)) (fun i _ => rfl)
      (fun i hi => hstr ψ i (by omega))] at h
    exact h

theorem berInit_eq (p : PrbsEnum) (seed : List Int) (hseed : seed.length = p.value) :
    berInit p seed = .ok ⟨(List.range (2 ^ p.value - 1)).map (bitAt (getPolynomial p) seed), 0, 0⟩ := by
  unfold berInit
  rw [prbsGenerator_supported p seed hseed]
  rfl

theorem checkBer_min (p : PrbsEnum) (seed : List Int) (hseed : seed.length = p.value) (a n : ℕ)
    (data : List Int) (hbin : ∀ x ∈ data, x = 0 ∨ x = 1) (hd : data ≠ []) :
    ∃ φ, checkBer p ⟨(List.range (2 ^ p.value - 1)).map (bitAt (getPolynomial p) seed), a, n⟩ data
        = .ok ((mismatches data.length (stream data) (fun i => bitAt (getPolynomial p) seed (φ + i)) : ℚ)
            / data.length,
          ⟨(List.range (2 ^ p.value - 1)).map (bitAt (getPolynomial p) seed),
            a + mismatches data.length (stream data) (fun i => bitAt (getPolynomial p) seed (φ + i)),
            n + data.length⟩) ∧
      ∀ ψ, mismatches (min (2 ^ p.value - 1) data.length) (stream data)
          (fun i => bitAt (getPolynomial p) seed (φ + i))
        ≤ mismatches (min (2 ^ p.value - 1) data.length) (stream data)
          (fun i => bitAt (getPolynomial p) seed (ψ + i)) := by
  obtain ⟨r, φ, hr, hrep, hmin⟩ := prbsChecker_min p seed hseed 100 data hbin hd
  refine ⟨φ, ?_, hmin⟩
  have hl : data.length ≠ 0 := by simpa using hd
  unfold checkBer
  simp only [hr, bind, Except.bind, hrep.length, if_neg hl, errorBit_count hrep]
  rfl

/-- averaging over the phases: some phase differs in at most `2^(n-1)/(2^n-1)` of the positions -/
theorem exists_phase_half (p : PrbsEnum) (seed : List Int) (hseed : seed.length = p.value)
    (hne : ∃ x ∈ seed, x % 2 = 1) (L : ℕ) (f : ℕ → Int) (hf : ∀ i < L, f i = 0 ∨ f i = 1) :
    ∃ φ, mismatches L f (fun i => bitAt (getPolynomial p) seed (φ + i)) * (2 ^ p.value - 1)
      ≤ L * 2 ^ (p.value - 1) := by
  have hP := two_pow_sub_pos (value_pos p)
  have hswap : ∑ φ ∈ Finset.range (2 ^ p.value - 1),
      mismatches L f (fun i => bitAt (getPolynomial p) seed (φ + i)) ≤ L * 2 ^ (p.value - 1) := by
    simp only [mismatches, Finset.card_filter]
    rw [Finset.sum_comm]
    have : ∀ i ∈ Finset.range L, (∑ φ ∈ Finset.range (2 ^ p.value - 1),
        if f i ≠ bitAt (getPolynomial p) seed (φ + i) then 1 else 0) ≤ 2 ^ (p.value - 1) := by
      intro i hi
      rw [← Finset.card_filter]
      obtain ⟨h1, h0⟩ := bitAt_balance p seed hseed hne i
      rw [count_map_range] at h1 h0
      rcases hf i (by simpa using hi) with h | h
      · refine le_trans (Finset.card_le_card (t := (Finset.range (2 ^ p.value - 1)).filter
          (fun t => bitAt (getPolynomial p) seed (i + t) = 1)) ?_) h1.le
        intro t ht
        simp only [Finset.mem_filter] at ht ⊢
        refine ⟨ht.1, ?_⟩
        rw [Nat.add_comm]
        rcases bitAt_mem (getPolynomial p) seed (t + i) with h' | h'
        · exact absurd (h.trans h'.symm) ht.2
        · exact h'
      · refine le_trans (Finset.card_le_card (t := (Finset.range (2 ^ p.value - 1)).filter
          (fun t => bitAt (getPolynomial p) seed (i + t) = 0)) ?_) (h0.le.trans (by omega))
        intro t ht
        simp only [Finset.mem_filter] at ht ⊢
        refine ⟨ht.1, ?_⟩
        rw [Nat.add_comm]
        rcases bitAt_mem (getPolynomial p) seed (t + i) with h' | h'
        · exact h'
        · exact absurd (h.trans h'.symm) ht.2
    calc _ ≤ ∑ i ∈ Finset.range L, 2 ^ (p.value - 1) := Finset.sum_le_sum this
      _ = L * 2 ^ (p.value - 1) := by simp
  by_contra hcon
  push Not at hcon
  have hlt : ∑ φ ∈ Finset.range (2 ^ p.value - 1), L * 2 ^ (p.value - 1)
      < ∑ φ ∈ Finset.range (2 ^ p.value - 1),
        mismatches L f (fun i => bitAt (getPolynomial p) seed (φ + i)) * (2 ^ p.value - 1) :=
    Finset.sum_lt_sum_of_nonempty (by simpa using (by omega : 2 ^ p.value - 1 ≠ 0)) (fun φ _ => hcon φ)
  rw [Finset.sum_const, Finset.card_range, smul_eq_mul, Nat.mul_comm, ← Finset.sum_mul] at hlt
  exact absurd (Nat.mul_le_mul_right (2 ^ p.value - 1) hswap) (by omega)

end Verif
