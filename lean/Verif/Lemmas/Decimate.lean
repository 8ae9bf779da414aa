import Verif.Lemmas.EstimPrbs2
import Mathlib.Algebra.CharP.Two
import Mathlib.Data.ZMod.Basic

/-! Every second bit of a maximal length sequence: the same sequence at another phase. -/

open Finset

namespace Verif
open Gf2

/-- the terms off the diagonal of a symmetric double sum cancel in characteristic two -/
theorem sum_symm_two (n : ℕ) (F : ℕ → ℕ → ZMod 2) (hF : ∀ i j, F i j = F j i) :
    ∑ i ∈ range n, ∑ j ∈ range n, F i j = ∑ i ∈ range n, F i i := by
  rw [← sum_product', ← diag_union_offDiag, sum_union (disjoint_diag_offDiag _)]
  have h0 : ∑ x ∈ (range n).offDiag, F x.1 x.2 = 0 := by
    refine sum_involution (fun x _ => (x.2, x.1)) ?_ ?_ ?_ ?_
    · intro x _
      rw [hF x.2 x.1]
      exact CharTwo.add_self_eq_zero _
    · intro x hx _ h
      rw [mem_offDiag] at hx
      exact hx.2.2 (congrArg Prod.snd h)
    · intro x hx
      rw [mem_offDiag] at hx ⊢
      exact ⟨hx.2.1, hx.1, hx.2.2.symm⟩
    · intro x _
      rfl
  rw [h0, add_zero, sum_diag]

/-- squaring: with a linear recurrence modulo two also the recurrence at twice the distances holds -/
theorem frobenius_rec (n : ℕ) (c β : ℕ → ZMod 2) (h : ∀ t, β (t + n) = ∑ i ∈ range n, c i * β (t + (n - 1 - i))) (t : ℕ) :
    β (t + 2 * n) = ∑ i ∈ range n, c i * β (t + 2 * (n - 1 - i)) := by
  rw [show t + 2 * n = (t + n) + n by omega, h]
  have e : ∀ i ∈ range n, c i * β (t + n + (n - 1 - i)) = ∑ j ∈ range n, c i * c j * β (t + (n - 1 - i) + (n - 1 - j)) := by
    intro i _
    rw [show t + n + (n - 1 - i) = t + (n - 1 - i) + n by omega, h, mul_sum]
    exact sum_congr rfl fun j _ => by ring
  rw [sum_congr rfl e, sum_symm_two n (fun i j => c i * c j * β (t + (n - 1 - i) + (n - 1 - j)))]
  · refine sum_congr rfl fun i _ => ?_
    have hc : c i * c i = c i := by
      generalize c i = x
      revert x; decide
    rw [hc]
    congr 2
    omega
  · intro i j
    rw [mul_comm (c i), add_right_comm]

/-- the recurrence of the generator, modulo two -/
theorem bitAt_rec (poly seed : List Int) (h : poly.length = seed.length) (t : ℕ) :
    ((bitAt poly seed (t + poly.length) : ℤ) : ZMod 2)
      = ∑ i ∈ range poly.length, ((poly.getD i 0 : ℤ) : ZMod 2) * ((bitAt poly seed (t + (poly.length - 1 - i)) : ℤ) : ZMod 2) := by
  rw [lfsrStream_bitAt poly seed h (t + poly.length)]
  rw [show ((((∑ i ∈ range poly.length, poly.getD i 0 * (if i < t + poly.length then bitAt poly seed (t + poly.length - 1 - i)
      else seed.getD (i - (t + poly.length)) 0)) % 2 : ℤ)) : ZMod 2)
      = ((∑ i ∈ range poly.length, poly.getD i 0 * (if i < t + poly.length then bitAt poly seed (t + poly.length - 1 - i)
      else seed.getD (i - (t + poly.length)) 0) : ℤ) : ZMod 2) from ZMod.intCast_mod _ 2]
  push_cast
  refine sum_congr rfl fun i hi => ?_
  rw [mem_range] at hi
  rw [if_pos (by omega)]
  congr 3
  omega

/-- a binary sequence with the recurrence of the generator is a stretch of its sequence -/
theorem phase_of_rec (p : PrbsEnum) (seed : List Int) (hseed : seed.length = p.value) (hne : ∃ x ∈ seed, x % 2 = 1) (c : ℕ → ℤ)
    (hc : ∀ t, c t = 0 ∨ c t = 1)
    (hrec : ∀ t, ((c (t + p.value) : ℤ) : ZMod 2)
      = ∑ i ∈ range p.value, (((getPolynomial p).getD i 0 : ℤ) : ZMod 2) * ((c (t + (p.value - 1 - i)) : ℤ) : ZMod 2))
    (hper : ∀ t, c (t + (2 ^ p.value - 1)) = c t) (hnz : ∃ t, c t = 1) :
    ∃ τ, ∀ t, c t = bitAt (getPolynomial p) seed (t + τ) := by
  have hv := value_pos p
  have hl := poly_length p
  obtain ⟨s, hs⟩ : ∃ s : List Int, s = (List.range p.value).map fun i => c (p.value - 1 - i) := ⟨_, rfl⟩
  have hsl : s.length = p.value := by rw [hs]; simp
  have hsg : ∀ i, i < p.value → s.getD i 0 = c (p.value - 1 - i) := fun i hi => by rw [hs, map_range_getD _ _ _ _ hi]
  -- the sequence from time `n` on is generated from its first `n` values
  have hst : Spec.LfsrStream (getPolynomial p) s (fun t => c (t + p.value)) := by
    intro t
    have h2 : ((c (t + p.value) : ℤ) : ZMod 2) = ((∑ i ∈ range (getPolynomial p).length, (getPolynomial p).getD i 0 *
        (if i < t then c (t - 1 - i + p.value) else s.getD (i - t) 0) : ℤ) : ZMod 2) := by
      rw [hrec, hl]
      push_cast
      refine sum_congr rfl fun i hi => ?_
      rw [mem_range] at hi
      by_cases h : i < t
      · rw [if_pos h]
        congr 3
        omega
      · rw [if_neg h, hsg _ (by omega)]
        congr 3
        omega
    rw [ZMod.intCast_eq_intCast_iff] at h2
    have h3 : c (t + p.value) % 2 = c (t + p.value) := by rcases hc (t + p.value) with h | h <;> rw [h] <;> rfl
    have h4 : c (t + p.value) % 2 = _ % 2 := h2
    rw [h3] at h4
    exact h4
  have hgen : ∀ t, c (t + p.value) = bitAt (getPolynomial p) s t := fun t =>
    congrFun (lfsrStream_unique hst (lfsrStream_bitAt _ _ (by omega))) t
  have hper' : ∀ k t, c (t + k * (2 ^ p.value - 1)) = c t := by
    intro k
    induction k with
    | zero => intro t; rw [zero_mul, add_zero]
    | succ k ih => intro t; rw [add_mul, one_mul, ← add_assoc, hper, ih]
  have hN : p.value ≤ p.value * (2 ^ p.value - 1) := Nat.le_mul_of_pos_right _ (two_pow_sub_pos hv)
  have hs1 : ∃ x ∈ s, x % 2 = 1 := by
    by_contra hcon
    obtain ⟨t, ht⟩ := hnz
    have hz : ∀ x ∈ s, x % 2 = 0 := fun x hx => by
      have : ¬ x % 2 = 1 := fun h => hcon ⟨x, hx, h⟩
      omega
    have h0 := bitAt_zero_seed (getPolynomial p) s (by omega) (by omega) hz (t + p.value * (2 ^ p.value - 1) - p.value)
    rw [← hgen, show t + p.value * (2 ^ p.value - 1) - p.value + p.value = t + p.value * (2 ^ p.value - 1) by omega, hper', ht] at h0
    exact absurd h0 (by decide)
  have hclt : code seed < 2 ^ p.value := by rw [← hseed]; exact code_lt _
  have hslt : code s < 2 ^ p.value := by rw [← hsl]; exact code_lt _
  have hc0 := code_ne_zero hne
  have hmem : code s ∈ Finset.Ico 1 (2 ^ p.value) := by
    rw [mem_Ico]
    have := code_ne_zero hs1
    omega
  rw [← (orbit_full hv hclt hc0 (supported_maximal p hclt hc0)).1, mem_image] at hmem
  obtain ⟨d, -, hd⟩ := hmem
  have hsd : ∀ t, bitAt (getPolynomial p) s t = bitAt (getPolynomial p) seed (t + d) := by
    intro t
    rw [bitAt_eq_code _ _ (by omega) (by omega), bitAt_eq_code _ _ (by omega) (by omega), hsl, hseed, ← hd,
      show t + d + 1 = (t + 1) + d by omega, Function.iterate_add_apply _ (t + 1) d]
  refine ⟨p.value * (2 ^ p.value - 1) - p.value + d, fun t => ?_⟩
  rw [← hper' p.value t, show t + p.value * (2 ^ p.value - 1) = (t + (p.value * (2 ^ p.value - 1) - p.value)) + p.value by omega, hgen, hsd]
  congr 1
  omega

/-- every second bit -/
theorem decimate (p : PrbsEnum) (seed : List Int) (hseed : seed.length = p.value) (hne : ∃ x ∈ seed, x % 2 = 1) :
    ∃ τ < 2 ^ p.value - 1, ∀ t, bitAt (getPolynomial p) seed (2 * t) = bitAt (getPolynomial p) seed (t + τ) := by
  have hl := poly_length p
  have hper : ∀ t, bitAt (getPolynomial p) seed (t + (2 ^ p.value - 1)) = bitAt (getPolynomial p) seed t := bitAt_period p seed hseed
  have h1 : ∀ t, ((bitAt (getPolynomial p) seed (2 * (t + p.value)) : ℤ) : ZMod 2)
      = ∑ i ∈ range p.value, (((getPolynomial p).getD i 0 : ℤ) : ZMod 2) * ((bitAt (getPolynomial p) seed (2 * (t + (p.value - 1 - i))) : ℤ) : ZMod 2) := by
    intro t
    have hr := bitAt_rec (getPolynomial p) seed (by omega)
    rw [hl] at hr
    have := frobenius_rec p.value (fun i => (((getPolynomial p).getD i 0 : ℤ) : ZMod 2))
      (fun t => ((bitAt (getPolynomial p) seed t : ℤ) : ZMod 2)) hr (2 * t)
    rw [mul_add, this]
    exact sum_congr rfl fun i _ => by rw [mul_add]
  have h2 : ∀ t, bitAt (getPolynomial p) seed (2 * (t + (2 ^ p.value - 1))) = bitAt (getPolynomial p) seed (2 * t) := by
    intro t
    rw [mul_add, two_mul (2 ^ p.value - 1), ← add_assoc, hper, hper]
  have h3 : ∃ t, bitAt (getPolynomial p) seed (2 * t) = 1 := by
    have hb := (bitAt_balance p seed hseed hne 0).1
    rw [count_map_range] at hb
    have hpos : 0 < 2 ^ (p.value - 1) := Nat.two_pow_pos _
    rw [← hb, card_pos] at hpos
    obtain ⟨t, ht⟩ := hpos
    rw [mem_filter] at ht
    simp only [Nat.zero_add] at ht
    rcases Nat.even_or_odd' t with ⟨k, hk | hk⟩
    · exact ⟨k, by rw [← hk]; exact ht.2⟩
    · refine ⟨k + 2 ^ (p.value - 1), ?_⟩
      have h2 : 2 * 2 ^ (p.value - 1) = 2 ^ p.value := by rw [← Nat.pow_succ']; congr 1; have := value_pos p; omega
      have h1 : 1 ≤ 2 ^ p.value := Nat.one_le_two_pow
      rw [show 2 * (k + 2 ^ (p.value - 1)) = t + (2 ^ p.value - 1) by omega, hper]
      exact ht.2
  obtain ⟨τ, h⟩ := phase_of_rec p seed hseed hne (fun t => bitAt (getPolynomial p) seed (2 * t)) (fun t => bitAt_mem _ _ _) h1 h2 h3
  refine ⟨τ % (2 ^ p.value - 1), Nat.mod_lt _ (two_pow_sub_pos (value_pos p)), fun t => ?_⟩
  have e := h t
  rw [e, ← bitAt_mod p seed hseed, ← bitAt_mod p seed hseed (t + τ % _), Nat.add_mod_mod]

/-- the bits in between -/
theorem decimate_odd (p : PrbsEnum) (seed : List Int) (hseed : seed.length = p.value) (τ : ℕ)
    (h : ∀ t, bitAt (getPolynomial p) seed (2 * t) = bitAt (getPolynomial p) seed (t + τ)) (t : ℕ) :
    bitAt (getPolynomial p) seed (2 * t + 1) = bitAt (getPolynomial p) seed (t + τ + 2 ^ (p.value - 1)) := by
  have h2 : 2 * 2 ^ (p.value - 1) = 2 ^ p.value := by rw [← Nat.pow_succ']; congr 1; have := value_pos p; omega
  have h1 : 1 ≤ 2 ^ p.value := Nat.one_le_two_pow
  rw [← bitAt_period p seed hseed, show 2 * t + 1 + (2 ^ p.value - 1) = 2 * (t + 2 ^ (p.value - 1)) by omega, h]
  congr 1
  omega

end Verif
