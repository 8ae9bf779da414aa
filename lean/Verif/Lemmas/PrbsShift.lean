import Verif.Lemmas.PrbsCorr
import Verif.Lemmas.SimBer

/-! Lemmas for the window counts and the superposition property of the PRBS streams (C76). -/

namespace Verif
open Spec Gf2 Finset

theorem card_residue {n k v : ℕ} (hk : k ≤ n) (hv : v < 2 ^ k) :
    ((Ico 1 (2 ^ n)).filter (fun x => x % 2 ^ k = v)).card
      = 2 ^ (n - k) - if v = 0 then 1 else 0 := by
  have hkp : 0 < 2 ^ k := by positivity
  have hn : 2 ^ n = 2 ^ k * 2 ^ (n - k) := by rw [← pow_add]; congr 1; omega
  have hfull : (range (2 ^ n)).filter (fun x => x % 2 ^ k = v)
      = (range (2 ^ (n - k))).image (fun j => v + 2 ^ k * j) := by
    ext x
    simp only [mem_filter, mem_range, mem_image]
    constructor
    · rintro ⟨h1, h2⟩
      refine ⟨x / 2 ^ k, ?_, ?_⟩
      · rw [Nat.div_lt_iff_lt_mul hkp, Nat.mul_comm, ← hn]; exact h1
      · rw [← h2]; exact Nat.mod_add_div x (2 ^ k)
    · rintro ⟨j, hj, rfl⟩
      constructor
      · rw [hn]
        calc v + 2 ^ k * j < 2 ^ k + 2 ^ k * j := by omega
          _ = 2 ^ k * (j + 1) := by ring
          _ ≤ _ := Nat.mul_le_mul_left _ hj
      · rw [Nat.add_mul_mod_self_left, Nat.mod_eq_of_lt hv]
  have hcard : ((range (2 ^ n)).filter (fun x => x % 2 ^ k = v)).card = 2 ^ (n - k) := by
    rw [hfull, card_image_of_injective, card_range]
    intro a b hab
    have : 2 ^ k * a = 2 ^ k * b := by simpa using hab
    exact Nat.eq_of_mul_eq_mul_left hkp this
  have hr : range (2 ^ n) = insert 0 (Ico 1 (2 ^ n)) := by
    ext x
    have : 0 < 2 ^ n := by positivity
    simp only [mem_range, mem_insert, mem_Ico]
    omega
  rw [hr, filter_insert] at hcard
  by_cases h0 : v = 0
  · rw [if_pos (by rw [h0]; exact Nat.zero_mod _), card_insert_of_notMem (by simp)] at hcard
    rw [if_pos h0]; omega
  · rw [if_neg (by rw [Nat.zero_mod]; exact fun h => h0 h.symm)] at hcard
    rw [if_neg h0, hcard]; rfl

theorem code_take (l : List Int) (k : ℕ) (hk : k ≤ l.length) :
    code (l.take k) = code l % 2 ^ k := by
  induction l generalizing k with
  | nil => simp [code, Nat.zero_mod]
  | cons x xs ih =>
    cases k with
    | zero => simp [code, Nat.mod_one]
    | succ k =>
      rw [List.take_succ_cons]
      simp only [code]
      rw [ih k (by simpa using hk), Nat.pow_succ']
      have := mod2_toNat_lt x
      rw [Nat.mod_mul, show ((x % 2).toNat + 2 * code xs) % 2 = (x % 2).toNat by omega,
        show ((x % 2).toNat + 2 * code xs) / 2 = code xs by omega]

/-- the bits of a window of length at most `n`, read from the register -/
theorem window_iff (p : PrbsEnum) (seed w : List Int) (hseed : seed.length = p.value)
    (hbin : ∀ x ∈ w, x = 0 ∨ x = 1) (hw : w.length ≤ p.value) (s : ℕ) :
    (∀ i < w.length, bitAt (getPolynomial p) seed (s + i) = w.getD i 0) ↔
      (step p.value (code (getPolynomial p)))^[s + w.length] (code seed) % 2 ^ w.length
        = code w.reverse := by
  have hl := poly_length p
  have hv := value_pos p
  have hrl := reg_length (getPolynomial p) seed (s + w.length) (by omega)
  have hc := code_take (reg (getPolynomial p) seed (s + w.length)) w.length (by omega)
  rw [code_reg _ _ (by omega) (by omega), hseed] at hc
  rw [← hc]
  have hget : ∀ i < w.length, ((reg (getPolynomial p) seed (s + w.length)).take w.length).getD i 0
      = bitAt (getPolynomial p) seed (s + (w.length - 1 - i)) := by
    intro i hi
    have := reg_getD (getPolynomial p) seed (s + w.length) i (by omega)
    rw [if_pos (by omega)] at this
    rw [List.getD_eq_getElem?_getD, List.getElem?_take, if_pos hi, ← List.getD_eq_getElem?_getD, this]
    congr 1; omega
  have htl : ((reg (getPolynomial p) seed (s + w.length)).take w.length).length = w.length := by
    rw [List.length_take]; omega
  constructor
  · intro h
    congr 1
    refine code_inj (by rw [htl, List.length_reverse]) (fun i hi => ?_)
    rw [htl] at hi
    rw [hget i hi, h _ (by omega)]
    simp only [List.getD_eq_getElem?_getD]
    rw [List.getElem?_reverse hi]
  · intro h i hi
    have he := binary_code_inj (by rw [htl, List.length_reverse]) (fun x hx => ?_)
      (by simpa using hbin) h
    · have := hget (w.length - 1 - i) (by omega)
      rw [he] at this
      simp only [List.getD_eq_getElem?_getD] at this ⊢
      rw [List.getElem?_reverse (by omega)] at this
      rw [show s + i = s + (w.length - 1 - (w.length - 1 - i)) by omega, ← this]
      congr 2; omega
    · obtain ⟨i, hi, rfl⟩ := List.getElem_of_mem hx
      rw [htl] at hi
      have := hget i hi
      rw [List.getD_eq_getElem _ _ (by omega)] at this
      rw [this]
      exact bitAt_mem _ _ _

theorem code_reverse_zero {w : List Int} (hbin : ∀ x ∈ w, x = 0 ∨ x = 1) :
    code w.reverse = 0 ↔ ∀ x ∈ w, x = 0 := by
  constructor
  · intro h x hx
    rcases hbin x hx with h0 | h1
    · exact h0
    · exact absurd h (code_ne_zero ⟨1, by simpa using h1 ▸ hx, rfl⟩)
  · intro h
    exact code_eq_zero (fun x hx => by rw [h x (by simpa using hx)]; rfl)

/-- number of occurrences of a word of length at most `n` in one period -/
theorem window_card (p : PrbsEnum) (seed w : List Int) (hseed : seed.length = p.value)
    (hne : ∃ x ∈ seed, x % 2 = 1) (hbin : ∀ x ∈ w, x = 0 ∨ x = 1) (hw : w.length ≤ p.value)
    (start : ℕ) :
    ((range (2 ^ p.value - 1)).filter (fun t =>
      ∀ i < w.length, bitAt (getPolynomial p) seed (start + t + i) = w.getD i 0)).card
      = 2 ^ (p.value - w.length) - if (∀ x ∈ w, x = 0) then 1 else 0 := by
  have hv := value_pos p
  have hclt : code seed < 2 ^ p.value := by rw [← hseed]; exact code_lt _
  have hs := iterate_step_lt hv (code (getPolynomial p)) (start + w.length) _ hclt
  have hs0 := step_iter_pos p hclt (code_ne_zero hne) (start + w.length)
  obtain ⟨himg, hinj⟩ := orbit_full hv hs hs0 (supported_maximal p hs hs0)
  have hvlt : code w.reverse < 2 ^ w.length := by
    have := code_lt w.reverse
    rwa [List.length_reverse] at this
  have h := card_residue hw hvlt
  rw [← himg, filter_image, card_image_of_injOn (hinj.mono (by
    rw [coe_filter]; exact fun x hx => by simpa using hx.1))] at h
  simp only [← code_reverse_zero hbin]
  rw [← h]
  congr 1
  apply filter_congr
  intro t _
  rw [window_iff p seed w hseed hbin hw, ← Function.iterate_add_apply]
  rw [show start + t + w.length = t + (start + w.length) by omega]

/-- the stream of a cellwise sum of seeds is the sum of the streams modulo two -/
theorem bitAt_add_seed (poly s₁ s₂ : List Int) (h₁ : poly.length = s₁.length)
    (h₂ : poly.length = s₂.length) (t : ℕ) :
    bitAt poly (List.zipWith (· + ·) s₁ s₂) t = (bitAt poly s₁ t + bitAt poly s₂ t) % 2 := by
  have h12 : poly.length = (List.zipWith (· + ·) s₁ s₂).length := by
    rw [List.length_zipWith]; omega
  have e1 := lfsrStream_bitAt poly s₁ h₁
  have e2 := lfsrStream_bitAt poly s₂ h₂
  have : LfsrStream poly (List.zipWith (· + ·) s₁ s₂)
      (fun t => (bitAt poly s₁ t + bitAt poly s₂ t) % 2) := by
    intro t
    show (_ + _) % 2 = _
    rw [e1 t, e2 t, ← Int.add_emod, ← sum_add_distrib, Finset.sum_int_mod]
    conv_rhs => rw [Finset.sum_int_mod]
    congr 1
    apply sum_congr rfl
    intro i hi
    rw [mem_range] at hi
    rw [← mul_add, Int.mul_emod, Int.mul_emod (poly.getD i 0)]
    congr 2
    split_ifs with hlt
    · rw [Int.emod_emod]
    · congr 1
      simp only [List.getD_eq_getElem?_getD, List.getElem?_zipWith]
      rw [List.getElem?_eq_getElem (by omega), List.getElem?_eq_getElem (by omega)]
      rfl
  exact congrFun (lfsrStream_unique (lfsrStream_bitAt _ _ h12) this) t

end Verif
