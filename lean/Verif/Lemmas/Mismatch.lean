import Verif.Lemmas.Decimate
import Verif.Lemmas.CdrTest

/-! A two-level maximal length sequence equalized towards the four-level reference of the same generator. -/

open Finset

namespace Verif
open Spec

section Abstract
variable {N : ℕ} [NeZero N] (u : ZMod N → ℝ)

/-- coefficients of few non-zero entries: their sum -/
theorem sq_sum_support (X : ZMod N → ℝ) (V : Finset (ZMod N)) (hV : ∀ r, r ∉ V → X r = 0) : (∑ r, X r) ^ 2 ≤ (V.card : ℝ) * ∑ r, X r ^ 2 := by
  rw [← sum_subset (subset_univ V) (fun r _ h => hV r h), ← sum_subset (subset_univ V) (fun r _ h => by rw [hV r h]; norm_num)]
  exact sq_sum_le_card_mul_sum_sq

/-- … and every value of the filtered sequence -/
theorem sq_out_support (hu1 : ∀ z, u z * u z = 1) (X : ZMod N → ℝ) (V : Finset (ZMod N)) (hV : ∀ r, r ∉ V → X r = 0) (z : ZMod N) :
    (∑ r, X r * u (z + r)) ^ 2 ≤ (V.card : ℝ) * ∑ r, X r ^ 2 := by
  have h := sq_sum_support (fun r => X r * u (z + r)) V (fun r hr => by rw [hV r hr, zero_mul])
  refine h.trans (le_of_eq ?_)
  congr 1
  exact sum_congr rfl fun r _ => by rw [mul_pow, sq (u _), hu1, mul_one]

/-- the energy over part of the period -/
theorem part_energy (hu : ∀ τ, ∑ z, u z * u (z + τ) = if τ = 0 then (N : ℝ) else -1) (hu1 : ∀ z, u z * u z = 1) (X : ZMod N → ℝ)
    (V : Finset (ZMod N)) (hV : ∀ r, r ∉ V → X r = 0) (T : Finset (ZMod N)) :
    ((N : ℝ) + 1 - ((Tᶜ.card : ℝ) + 1) * V.card) * ∑ r, X r ^ 2 ≤ ∑ z ∈ T, (∑ r, X r * u (z + r)) ^ 2 := by
  have h1 := filtered_energy u hu X
  have h2 := sq_sum_support X V hV
  have h3 : ∑ z ∈ Tᶜ, (∑ r, X r * u (z + r)) ^ 2 ≤ Tᶜ.card * ((V.card : ℝ) * ∑ r, X r ^ 2) := by
    rw [← nsmul_eq_mul]
    exact sum_le_card_nsmul _ _ _ fun z _ => sq_out_support u hu1 X V hV z
  have h4 := sum_add_sum_compl T (fun z => (∑ r, X r * u (z + r)) ^ 2)
  linarith

/-- coefficients of a combination of delayed four-level symbols -/
noncomputable def refTaps (E : ℕ → ℝ) (D : ℕ) (ga si : ℝ) (α β : ZMod N) (r : ZMod N) : ℝ :=
  ∑ s ∈ range (D + 1), E s * (ga * (2 * (if α - s = r then 1 else 0) + si * (if β - s = r then 1 else 0)))

theorem refTaps_out (E : ℕ → ℝ) (D : ℕ) (ga si : ℝ) (α β z : ZMod N) :
    ∑ r, refTaps E D ga si α β r * u (z + r) = ∑ s ∈ range (D + 1), E s * (ga * (2 * u (z - s + α) + si * u (z - s + β))) := by
  simp only [refTaps, sum_mul]
  rw [sum_comm]
  refine sum_congr rfl fun s _ => ?_
  have e : ∀ r, E s * (ga * (2 * (if α - s = r then 1 else 0) + si * (if β - s = r then 1 else 0))) * u (z + r)
      = E s * ga * 2 * (if α - (s : ZMod N) = r then u (z + r) else 0) + E s * ga * si * (if β - (s : ZMod N) = r then u (z + r) else 0) := by
    intro r
    split_ifs <;> ring
  rw [sum_congr rfl fun r _ => e r, sum_add_distrib, ← mul_sum, ← mul_sum, sum_ite_eq univ (α - (s : ZMod N)) (fun r => u (z + r)),
    sum_ite_eq univ (β - (s : ZMod N)) (fun r => u (z + r)), if_pos (mem_univ _), if_pos (mem_univ _),
    show z + (α - s) = z - s + α by ring, show z + (β - s) = z - s + β by ring]
  ring

/-- where the coefficients of the reference can be non-zero -/
def refSupp (D : ℕ) (α β : ZMod N) : Finset (ZMod N) :=
  (range (D + 1)).image (fun s : ℕ => α - (s : ZMod N)) ∪ (range (D + 1)).image (fun s : ℕ => β - (s : ZMod N))

omit [NeZero N] in
theorem refSupp_card (D : ℕ) (α β : ZMod N) : (refSupp D α β).card ≤ 2 * (D + 1) := by
  refine (card_union_le _ _).trans ?_
  have h1 := card_image_le (s := range (D + 1)) (f := fun s : ℕ => α - (s : ZMod N))
  have h2 := card_image_le (s := range (D + 1)) (f := fun s : ℕ => β - (s : ZMod N))
  rw [card_range] at h1 h2
  omega

omit [NeZero N] in
theorem refTaps_zero (E : ℕ → ℝ) (D : ℕ) (ga si : ℝ) (α β r : ZMod N) (h : r ∉ refSupp D α β) : refTaps E D ga si α β r = 0 := by
  rw [refSupp, mem_union, not_or, mem_image, mem_image] at h
  refine sum_eq_zero fun s hs => ?_
  rw [if_neg (fun e => h.1 ⟨s, hs, e⟩), if_neg (fun e => h.2 ⟨s, hs, e⟩)]
  ring

/-- conditions on the two places of the bits of a symbol -/
structure FarApart (D : ℕ) (α β : ZMod N) : Prop where
  ab : ∀ s : ℕ, s ≤ D → α - (s : ZMod N) ≠ β
  ba : ∀ s : ℕ, s ≤ D → β - (s : ZMod N) ≠ α
  self : ∀ s : ℕ, 0 < s → s ≤ D → (s : ZMod N) ≠ 0

omit [NeZero N] in
theorem refTaps_first (E : ℕ → ℝ) (D : ℕ) (ga si : ℝ) (α β : ZMod N) (h : FarApart D α β) : refTaps E D ga si α β α = E 0 * (2 * ga) := by
  rw [refTaps, sum_range_succ', sum_eq_zero, Nat.cast_zero, sub_zero, sub_zero, if_pos rfl, if_neg (fun e => h.ba 0 (by omega) (by rw [Nat.cast_zero, sub_zero]; exact e))]
  · ring
  · intro s hs
    rw [mem_range] at hs
    rw [if_neg (fun e => h.self (s + 1) (by omega) (by omega) (by rwa [sub_eq_self] at e)), if_neg (h.ba (s + 1) (by omega))]
    ring

omit [NeZero N] in
theorem refTaps_second (E : ℕ → ℝ) (D : ℕ) (ga si : ℝ) (α β : ZMod N) (h : FarApart D α β) : refTaps E D ga si α β β = E 0 * (si * ga) := by
  rw [refTaps, sum_range_succ', sum_eq_zero, Nat.cast_zero, sub_zero, sub_zero, if_pos rfl, if_neg (fun e => h.ab 0 (by omega) (by rw [Nat.cast_zero, sub_zero]; exact e))]
  · ring
  · intro s hs
    rw [mem_range] at hs
    rw [if_neg (h.ab (s + 1) (by omega)), if_neg (fun e => h.self (s + 1) (by omega) (by omega) (by rwa [sub_eq_self] at e))]
    ring

/-- the squared error of the equalized sequence -/
theorem mismatch_energy (hu : ∀ τ, ∑ z, u z * u (z + τ) = if τ = 0 then (N : ℝ) else -1) (hu1 : ∀ z, u z * u z = 1) (G : ZMod N → ℝ)
    (W : Finset (ZMod N)) (hG : ∀ r, r ∉ W → G r = 0) (E : ℕ → ℝ) (hE : E 0 = 1) (D : ℕ) (ga si : ℝ) (hsi : si = 1 ∨ si = -1) (α β : ZMod N)
    (hab : FarApart D α β) (hW : ¬ (α ∈ W ∧ β ∈ W)) (T : Finset (ZMod N)) :
    ((N : ℝ) + 1 - ((Tᶜ.card : ℝ) + 1) * (W.card + 2 * (D + 1))) * ga ^ 2
      ≤ ∑ z ∈ T, (∑ r, G r * u (z + r) - ∑ s ∈ range (D + 1), E s * (ga * (2 * u (z - s + α) + si * u (z - s + β)))) ^ 2 := by
  obtain ⟨X, hX⟩ : ∃ X : ZMod N → ℝ, X = fun r => G r - refTaps E D ga si α β r := ⟨_, rfl⟩
  have hV : ∀ r, r ∉ W ∪ refSupp D α β → X r = 0 := by
    intro r hr
    rw [mem_union, not_or] at hr
    rw [hX]
    simp only
    rw [hG r hr.1, refTaps_zero _ _ _ _ _ _ _ hr.2, sub_zero]
  have hout : ∀ z, ∑ r, G r * u (z + r) - ∑ s ∈ range (D + 1), E s * (ga * (2 * u (z - s + α) + si * u (z - s + β))) = ∑ r, X r * u (z + r) := by
    intro z
    rw [← refTaps_out, ← sum_sub_distrib, hX]
    exact sum_congr rfl fun r _ => by ring
  have hQ : ga ^ 2 ≤ ∑ r, X r ^ 2 := by
    have one : ∀ r, X r ^ 2 ≤ ∑ r, X r ^ 2 := fun r => single_le_sum (f := fun r => X r ^ 2) (fun r _ => sq_nonneg _) (mem_univ r)
    rcases not_and_or.1 hW with h | h
    · refine le_trans ?_ (one α)
      rw [hX]
      simp only
      rw [hG _ h, refTaps_first E D ga si α β hab, hE]
      nlinarith [sq_nonneg ga]
    · refine le_trans (le_of_eq ?_) (one β)
      rw [hX]
      simp only
      rw [hG _ h, refTaps_second E D ga si α β hab, hE]
      rcases hsi with rfl | rfl <;> ring
  rw [sum_congr rfl fun z _ => by rw [hout z]]
  have hc : ((W ∪ refSupp D α β).card : ℝ) ≤ W.card + 2 * (D + 1) := by
    have h1 := card_union_le W (refSupp D α β)
    have h2 := refSupp_card (N := N) D α β
    have h3 : (W ∪ refSupp D α β).card ≤ W.card + 2 * (D + 1) := by omega
    exact_mod_cast h3
  have hpe := part_energy u hu hu1 X _ hV T
  have hpos : 0 ≤ ∑ z ∈ T, (∑ r, X r * u (z + r)) ^ 2 := sum_nonneg fun _ _ => sq_nonneg _
  have hT : (0 : ℝ) ≤ (Tᶜ.card : ℝ) + 1 := by positivity
  have hm := mul_le_mul_of_nonneg_left hc hT
  rcases le_total ((N : ℝ) + 1 - ((Tᶜ.card : ℝ) + 1) * (W.card + 2 * (D + 1))) 0 with h | h
  · exact le_trans (mul_nonpos_of_nonpos_of_nonneg h (sq_nonneg _)) hpos
  · refine (mul_le_mul_of_nonneg_left hQ h).trans (le_trans ?_ hpe)
    exact mul_le_mul_of_nonneg_right (by linarith) (hQ.trans' (sq_nonneg _))

/-- the number of values on the wrong side: `w` is a filtered sequence of which bit `β` takes no part -/
theorem wrong_side (hu : ∀ τ, ∑ z, u z * u (z + τ) = if τ = 0 then (N : ℝ) else -1) (hu1 : ∀ z, u z * u z = 1) (X : ZMod N → ℝ)
    (V : Finset (ZMod N)) (hV : ∀ r, r ∉ V → X r = 0) (β : ZMod N) (hβ : X β = 0) (hX : ∃ r, X r ≠ 0) (B : Finset (ZMod N))
    (hB : ∀ z, z ∉ B → 0 ≤ (∑ r, X r * u (z + r)) * u (z + β)) :
    (N : ℝ) + 1 ≤ 2 * V.card * (B.card + 1) := by
  obtain ⟨w, hw⟩ : ∃ w : ZMod N → ℝ, w = fun z => ∑ r, X r * u (z + r) := ⟨_, rfl⟩
  have hwz : ∀ z, w z = ∑ r, X r * u (z + r) := fun z => by rw [hw]
  obtain ⟨Q, hQ⟩ : ∃ Q, Q = ∑ r, X r ^ 2 := ⟨_, rfl⟩
  have hQ0 : 0 < Q := by
    obtain ⟨r, hr⟩ := hX
    rw [hQ]
    exact sum_pos' (fun _ _ => sq_nonneg _) ⟨r, mem_univ _, by positivity⟩
  obtain ⟨q, hq⟩ : ∃ q, q = Real.sqrt (V.card * Q) := ⟨_, rfl⟩
  have hV0 : (0 : ℝ) < V.card := by
    rw [Nat.cast_pos, card_pos]
    obtain ⟨r, hr⟩ := hX
    exact ⟨r, by_contra fun h => hr (hV r h)⟩
  have hq0 : 0 < q := by rw [hq]; positivity
  have hq2 : q ^ 2 = V.card * Q := by rw [hq, Real.sq_sqrt (by positivity)]
  have hwq : ∀ z, |w z| ≤ q := by
    intro z
    have := sq_out_support u hu1 X V hV z
    rw [← hQ, ← hwz, ← hq2] at this
    exact abs_le_of_sq_le_sq this hq0.le
  have hσ : |∑ r, X r| ≤ q := by
    have := sq_sum_support X V hV
    rw [← hQ, ← hq2] at this
    exact abs_le_of_sq_le_sq this hq0.le
  -- correlation with the absent bit
  have hcor : ∑ z, w z * u (z + β) = -∑ r, X r := by
    have e : ∀ z, w z * u (z + β) = ∑ r, X r * (u (z + r) * u (z + β)) := by
      intro z
      rw [hwz, sum_mul]
      exact sum_congr rfl fun r _ => by ring
    rw [sum_congr rfl fun z _ => e z, sum_comm, ← sum_neg_distrib]
    refine sum_congr rfl fun r _ => ?_
    rw [← mul_sum, corr_shift u hu]
    by_cases h : r = β
    · rw [h, hβ]; ring
    · rw [if_neg h]; ring
  have hu2 : ∀ z, |u z| = 1 := by
    intro z
    have h := hu1 z
    have : |u z| * |u z| = 1 := by rw [abs_mul_abs_self, h]
    nlinarith [abs_nonneg (u z)]
  have habs : ∀ z, |w z| ≤ w z * u (z + β) + (if z ∈ B then 2 * q else 0) := by
    intro z
    have h1 : |w z * u (z + β)| = |w z| := by rw [abs_mul, hu2, mul_one]
    split_ifs with h
    · have := neg_abs_le (w z * u (z + β))
      have := hwq z
      linarith
    · have := hB z h
      rw [← hwz] at this
      rw [abs_of_nonneg this] at h1
      linarith
  have hsum : ∑ z, |w z| ≤ -∑ r, X r + B.card * (2 * q) := by
    refine (sum_le_sum fun z _ => habs z).trans ?_
    rw [sum_add_distrib, hcor, sum_ite_mem, univ_inter, sum_const, nsmul_eq_mul]
  have hen := filtered_energy u hu X
  have h2 : ∑ z, (∑ r, X r * u (z + r)) ^ 2 ≤ q * ∑ z, |w z| := by
    rw [mul_sum]
    refine sum_le_sum fun z _ => ?_
    rw [← hwz, ← sq_abs, sq]
    exact mul_le_mul_of_nonneg_right (hwq z) (abs_nonneg _)
  rw [hen, ← hQ] at h2
  have h3 := abs_le.1 hσ
  have h4 : (∑ r, X r) ^ 2 ≤ q ^ 2 := sq_le_sq' (by linarith) h3.2
  have h5 : q * ∑ z, |w z| ≤ q * (q + B.card * (2 * q)) := mul_le_mul_of_nonneg_left (by linarith) hq0.le
  have h6 : ((N : ℝ) + 1) * Q ≤ (2 * V.card * (B.card + 1)) * Q := by
    have : q * (q + B.card * (2 * q)) = q ^ 2 * (1 + 2 * B.card) := by ring
    rw [this, hq2] at h5
    rw [hq2] at h4
    nlinarith
  exact le_of_mul_le_mul_right h6 hQ0

/-- the four combinations of two bits are about equally frequent -/
theorem pair_count (hu : ∀ τ, ∑ z, u z * u (z + τ) = if τ = 0 then (N : ℝ) else -1) (hs : ∑ z, u z = 1) (hu1 : ∀ z, u z * u z = 1)
    (α β : ZMod N) (h : α ≠ β) (v : ℝ) (hv : v = 1 ∨ v = -1) (B : Finset (ZMod N))
    (hB : ∀ z, u (z + α) = 1 → u (z + β) = v → z ∈ B) : (N : ℝ) + 1 ≤ 4 * B.card := by
  have hc := corr_shift u hu α β
  rw [if_neg h] at hc
  have ha := (sum_shift u α).trans hs
  have hb := (sum_shift u β).trans hs
  have hone : ∑ _z : ZMod N, (1 : ℝ) = N := by rw [sum_const, card_univ, ZMod.card, nsmul_eq_mul, mul_one]
  have e : ∑ z, (1 + u (z + α)) * (1 + v * u (z + β)) = (N : ℝ) + 1 := by
    have : ∀ z, (1 + u (z + α)) * (1 + v * u (z + β)) = 1 + u (z + α) + v * u (z + β) + v * (u (z + α) * u (z + β)) := fun z => by ring
    rw [sum_congr rfl fun z _ => this z, sum_add_distrib, sum_add_distrib, sum_add_distrib, ← mul_sum, ← mul_sum, hc, ha, hb, hone]
    ring
  have hcase : ∀ z, u z = 1 ∨ u z = -1 := fun z => mul_self_eq_one_iff.1 (hu1 z)
  have le : ∀ z, (1 + u (z + α)) * (1 + v * u (z + β)) ≤ if z ∈ B then 4 else 0 := by
    intro z
    by_cases hz : z ∈ B
    · rw [if_pos hz]
      rcases hcase (z + α) with h1 | h1 <;> rcases hcase (z + β) with h2 | h2 <;> rcases hv with h3 | h3 <;> rw [h1, h2, h3] <;> norm_num
    · rw [if_neg hz]
      rcases hcase (z + α) with h1 | h1
      · rcases hcase (z + β) with h2 | h2 <;> rcases hv with h3 | h3
        · exact absurd (hB z h1 (h2.trans h3.symm)) hz
        · rw [h1, h2, h3]; norm_num
        · rw [h1, h2, h3]; norm_num
        · exact absurd (hB z h1 (h2.trans h3.symm)) hz
      · rw [h1]; norm_num
  rw [← e]
  refine (sum_le_sum fun z _ => le z).trans ?_
  rw [sum_ite_mem, univ_inter, sum_const, nsmul_eq_mul, mul_comm]

/-- decisions between four levels: `y` is a filtered sequence, `dec` any decision for a nearest level -/
theorem mismatch_errors (hu : ∀ τ, ∑ z, u z * u (z + τ) = if τ = 0 then (N : ℝ) else -1) (hs : ∑ z, u z = 1)
    (hu1 : ∀ z, u z * u z = 1) (G : ZMod N → ℝ) (W : Finset (ZMod N)) (hG : ∀ r, r ∉ W → G r = 0) (E : ℕ → ℝ) (hE : E 0 = 0) (D : ℕ)
    (ga si : ℝ) (hga : ga ≠ 0) (hsi : si = 1 ∨ si = -1) (α β : ZMod N) (hab : FarApart D α β) (hW : ¬ (α ∈ W ∧ β ∈ W)) (y : ZMod N → ℝ)
    (hy : ∀ z, y z = ∑ r, G r * u (z + r) - ∑ s ∈ range (D + 1), E s * (ga * (2 * u (z - s + α) + si * u (z - s + β)))) (dec : ℝ → ℝ)
    (hdec : ∀ x v w : ℝ, (v = 1 ∨ v = -1) → (w = 1 ∨ w = -1) → |x - dec x| ≤ |x - ga * (2 * v + w)|) (B : Finset (ZMod N))
    (hB : ∀ z, z ∉ B → dec (y z) = ga * (2 * u (z + α) + si * u (z + β))) :
    (N : ℝ) + 1 ≤ 2 * (W.card + 2 * (D + 1)) * (B.card + 1) := by
  have hcase : ∀ z, u z = 1 ∨ u z = -1 := fun z => mul_self_eq_one_iff.1 (hu1 z)
  have hαβ : α ≠ β := by
    have := hab.ab 0 (Nat.zero_le _)
    rwa [Nat.cast_zero, sub_zero] at this
  have hsq : ∀ a b : ℝ, |a| ≤ |b| → a ^ 2 ≤ b ^ 2 := fun a b h => sq_le_sq.2 h
  -- what holds where the decision is right
  have right : ∀ z, z ∉ B → ∀ v w : ℝ, (v = 1 ∨ v = -1) → (w = 1 ∨ w = -1) →
      (y z - ga * (2 * u (z + α) + si * u (z + β))) ^ 2 ≤ (y z - ga * (2 * v + w)) ^ 2 := by
    intro z hz v w hv hw
    have := hdec (y z) v w hv hw
    rw [hB z hz] at this
    exact hsq _ _ this
  have hneg : ∀ z, -u z = 1 ∨ -u z = -1 := fun z => by
    rcases hcase z with h | h
    · exact Or.inr (by rw [h])
    · exact Or.inl (by rw [h, neg_neg])
  have hsc : ∀ z, si * u z = 1 ∨ si * u z = -1 := fun z => by
    rcases hsi with rfl | rfl
    · rw [one_mul]; exact hcase z
    · rw [neg_one_mul]; exact hneg z
  have hsn : ∀ z, -(si * u z) = 1 ∨ -(si * u z) = -1 := fun z => by
    rcases hsc z with h | h
    · exact Or.inr (by rw [h])
    · exact Or.inl (by rw [h, neg_neg])
  have fin : ∀ (X : ZMod N → ℝ) (γ : ZMod N), (∀ r, r ∉ W ∪ refSupp D α β → X r = 0) → X γ = 0 →
      (∀ z, z ∉ B → 0 ≤ (∑ r, X r * u (z + r)) * u (z + γ)) → ((∀ r, X r = 0) → (N : ℝ) + 1 ≤ 4 * B.card) →
      (N : ℝ) + 1 ≤ 2 * (W.card + 2 * (D + 1)) * (B.card + 1) := by
    intro X γ hV hγ hX h0
    have hc : ((W ∪ refSupp D α β).card : ℝ) ≤ W.card + 2 * (D + 1) := by
      have h1 := card_union_le W (refSupp D α β)
      have h2 := refSupp_card (N := N) D α β
      have h3 : (W ∪ refSupp D α β).card ≤ W.card + 2 * (D + 1) := by omega
      exact_mod_cast h3
    have hb0 : (0 : ℝ) ≤ B.card := Nat.cast_nonneg _
    have hw0 : (0 : ℝ) ≤ W.card := Nat.cast_nonneg _
    have hd0 : (0 : ℝ) ≤ D := Nat.cast_nonneg _
    by_cases hz : ∃ r, X r ≠ 0
    · refine (wrong_side u hu hu1 X _ hV γ hγ hz B hX).trans ?_
      exact mul_le_mul_of_nonneg_right (by linarith) (by linarith)
    · push Not at hz
      have := h0 hz
      have h5 := mul_nonneg hw0 hb0
      have h6 := mul_nonneg hd0 hb0
      nlinarith
  have const : ∀ y0, (∀ z, u (z + α) = 1 → y z = y0) → (N : ℝ) + 1 ≤ 4 * B.card := by
    intro y0 hy0
    have hmem : ∀ z, u (z + α) = 1 → dec y0 ≠ ga * (2 * u (z + α) + si * u (z + β)) → z ∈ B := by
      intro z h1 h2
      by_contra hz
      exact h2 (by rw [← hB z hz, hy0 z h1])
    have hss : si * si = 1 := by rcases hsi with rfl | rfl <;> norm_num
    by_cases h3 : dec y0 = ga * 3
    · refine pair_count u hu hs hu1 α β hαβ (-si) (by rcases hsi with rfl | rfl <;> norm_num) B fun z h1 h2 => hmem z h1 ?_
      rw [h1, h2, h3, mul_neg, hss]
      intro e
      have := mul_left_cancel₀ hga e
      norm_num at this
    · refine pair_count u hu hs hu1 α β hαβ si hsi B fun z h1 h2 => hmem z h1 ?_
      rw [h1, h2, hss]
      intro e
      exact h3 (by rw [e]; norm_num)
  rcases not_and_or.1 hW with h | h
  · -- the first bit is out of reach
    obtain ⟨X, hX⟩ : ∃ X : ZMod N → ℝ, X = fun r => ga * (G r - refTaps E D ga si α β r) := ⟨_, rfl⟩
    have hXr : ∀ r, X r = ga * (G r - refTaps E D ga si α β r) := fun r => by rw [hX]
    have hout : ∀ z, ∑ r, X r * u (z + r) = ga * y z := by
      intro z
      rw [hy, ← refTaps_out, ← sum_sub_distrib, mul_sum]
      exact sum_congr rfl fun r _ => by rw [hXr]; ring
    refine fin X α ?_ ?_ ?_ ?_
    · intro r hr
      rw [mem_union, not_or] at hr
      rw [hXr, hG r hr.1, refTaps_zero _ _ _ _ _ _ _ hr.2, sub_zero, mul_zero]
    · rw [hXr, hG _ h, refTaps_first E D ga si α β hab, hE]; ring
    · intro z hz
      rw [hout]
      have := right z hz (-u (z + α)) (-(si * u (z + β))) (hneg _) (hsn _)
      have h2 := right z hz (-u (z + α)) (si * u (z + β)) (hneg _) (hsc _)
      have h1 := hu1 (z + α)
      have e1 : 0 ≤ y z * ga * (2 * u (z + α) + si * u (z + β)) := by nlinarith
      rcases hcase (z + α) with h3 | h3 <;> rcases hsc (z + β) with h4 | h4 <;> rw [h3, h4] at e1 <;> rw [h3] <;> nlinarith
    · intro h0
      refine const 0 fun z _ => ?_
      have := hout z
      rw [sum_eq_zero fun r _ => by rw [h0 r, zero_mul]] at this
      exact (mul_eq_zero.1 this.symm).resolve_left hga
  · -- the second bit is out of reach
    obtain ⟨X, hX⟩ : ∃ X : ZMod N → ℝ, X = fun r => si * ga * (G r - refTaps E D ga si α β r - (if α = r then 2 * ga else 0)) := ⟨_, rfl⟩
    have hXr : ∀ r, X r = si * ga * (G r - refTaps E D ga si α β r - (if α = r then 2 * ga else 0)) := fun r => by rw [hX]
    have hout : ∀ z, ∑ r, X r * u (z + r) = si * ga * (y z - 2 * ga * u (z + α)) := by
      intro z
      have e1 : ∑ r, (if α = r then 2 * ga else 0) * u (z + r) = 2 * ga * u (z + α) := by
        simp only [ite_mul, zero_mul]
        rw [sum_ite_eq univ α (fun r => 2 * ga * u (z + r)), if_pos (mem_univ _)]
      rw [hy, ← refTaps_out, ← sum_sub_distrib, ← e1, ← sum_sub_distrib, mul_sum]
      exact sum_congr rfl fun r _ => by rw [hXr]; ring
    have hα : α ∈ refSupp D α β := by
      rw [refSupp, mem_union, mem_image]
      exact Or.inl ⟨0, by rw [mem_range]; omega, by rw [Nat.cast_zero, sub_zero]⟩
    refine fin X β ?_ ?_ ?_ ?_
    · intro r hr
      rw [mem_union, not_or] at hr
      rw [hXr, hG r hr.1, refTaps_zero _ _ _ _ _ _ _ hr.2, if_neg (show ¬ α = r from fun e => hr.2 (e ▸ hα))]; ring
    · rw [hXr, hG _ h, refTaps_second E D ga si α β hab, hE, if_neg hαβ]; ring
    · intro z hz
      rw [hout]
      have := right z hz (u (z + α)) (-(si * u (z + β))) (hcase _) (hsn _)
      rcases hcase (z + β) with h4 | h4 <;> rcases hsi with h5 | h5 <;> rw [h4, h5] at this <;> simp only [h4, h5] <;> nlinarith
    · intro h0
      refine const (2 * ga) fun z h1 => ?_
      have := hout z
      rw [sum_eq_zero fun r _ => by rw [h0 r, zero_mul], h1] at this
      have := (mul_eq_zero.1 this.symm).resolve_left (mul_ne_zero (by rcases hsi with rfl | rfl <;> norm_num) hga)
      linarith

end Abstract

/-! ### the sequences of the library -/

theorem half_double (p : PrbsEnum) : 2 * 2 ^ (p.value - 1) = 2 ^ p.value - 1 + 1 := by
  have h1 : 1 ≤ 2 ^ p.value := Nat.one_le_two_pow
  have h2 : 2 * 2 ^ (p.value - 1) = 2 ^ p.value := by rw [← Nat.pow_succ']; congr 1; have := value_pos p; omega
  omega

/-- both bits of a symbol are bits of the one sequence -/
theorem uSeq_decimate (p : PrbsEnum) : ∃ τ : ℕ, τ < 2 ^ p.value - 1 ∧ ∀ z : ZMod (2 ^ p.value - 1),
    uSeq p (onesSeed p) (2 * z) = uSeq p (onesSeed p) (z + (τ : ZMod (2 ^ p.value - 1))) ∧
    uSeq p (onesSeed p) (2 * z + 1) = uSeq p (onesSeed p) (z + ((τ + 2 ^ (p.value - 1) : ℕ) : ZMod (2 ^ p.value - 1))) := by
  obtain ⟨τ, hτ, h⟩ := decimate p (onesSeed p) (by simp) (onesSeed_ne p)
  have h' := decimate_odd p (onesSeed p) (by simp) τ h
  refine ⟨τ, hτ, fun z => ?_⟩
  have u0 := uSeq_two p z 0
  have u1 := uSeq_two p z 1
  rw [Nat.cast_zero, add_zero] at u0
  rw [Nat.cast_one] at u1
  rw [u0, u1, add_zero, h, h']
  constructor
  · rw [← uSeq_cast p (onesSeed p) (by simp), Nat.cast_add, ZMod.natCast_zmod_val]
  · rw [← uSeq_cast p (onesSeed p) (by simp), add_assoc, Nat.cast_add, ZMod.natCast_zmod_val]

/-- the distance of the echo apart -/
def EchoApart (p : PrbsEnum) (bi gray : Bool) (α β : ZMod (2 ^ p.value - 1)) : Prop :=
  α - β = ((echo p bi gray : ℕ) : ZMod (2 ^ p.value - 1)) ∨ β - α = ((echo p bi gray : ℕ) : ZMod (2 ^ p.value - 1))

theorem echoSign_cases (pnPre gray : Bool) : echoSign pnPre gray = 1 ∨ echoSign pnPre gray = -1 := by
  cases pnPre <;> cases gray <;> simp [echoSign]

theorem refZ_pam4_shift (p : PrbsEnum) (fs bi pnPre gray pnPost : Bool) :
    ∃ (ga : ℝ) (α β : ZMod (2 ^ p.value - 1)), ga ^ 2 = unitScale .pam4 fs ^ 2 ∧ EchoApart p bi gray α β ∧
      ∀ z, refZ p .pam4 fs bi pnPre gray pnPost z
        = ga * (2 * uSeq p (onesSeed p) (z + α) + echoSign pnPre gray * uSeq p (onesSeed p) (z + β)) := by
  obtain ⟨ga, a, b, hga, hab, h⟩ := refZ_four p fs bi pnPre gray pnPost
  obtain ⟨τ, -, hτ⟩ := uSeq_decimate p
  have he := half_mod p
  set e : ZMod (2 ^ p.value - 1) := ((2 ^ (p.value - 1) : ℕ) : ZMod (2 ^ p.value - 1)) with hed
  have key : ∀ z c : ZMod (2 ^ p.value - 1), uSeq p (onesSeed p) (2 * z + c) = uSeq p (onesSeed p) (z + (e * c + τ)) := by
    intro z c
    rw [show 2 * z + c = 2 * (z + e * c) by linear_combination -c * he, (hτ _).1, add_assoc]
  refine ⟨ga, e * a + τ, e * b + τ, hga, ?_, fun z => ?_⟩
  · rcases hab with hab | hab
    · right; linear_combination -e * hab + (echo p bi gray : ZMod (2 ^ p.value - 1)) * he
    · left; linear_combination -e * hab + (echo p bi gray : ZMod (2 ^ p.value - 1)) * he
  · rw [h, twoTap, key, key]

theorem refZ_nrz_form (p : PrbsEnum) (fs bi pnPre gray pnPost : Bool) :
    ∃ s : ℝ, s ^ 2 = 1 ∧ ∀ z, refZ p .nrz fs bi pnPre gray pnPost z = s * uSeq p (onesSeed p) z := by
  refine ⟨(if pnPost then -1 else 1) * (if pnPre then -1 else 1), by cases pnPost <;> cases pnPre <;> norm_num, fun z => ?_⟩
  have h : refZ p .nrz fs bi pnPre gray pnPost z
      = (if pnPost then -1 else 1) * unitScale .nrz fs * (2 * (flipBit pnPre (bitAt (getPolynomial p) (onesSeed p) z.val) : ℝ) - 1) := rfl
  have h1 : unitScale .nrz fs = 1 := by cases fs <;> rfl
  rw [h, flip_sign, h1, uSeq]
  ring

theorem natCast_inj_lt {N i j : ℕ} (hi : i < N) (hj : j < N) (h : (i : ZMod N) = (j : ZMod N)) : i = j := by
  rw [ZMod.natCast_eq_natCast_iff] at h
  exact Nat.ModEq.eq_of_lt_of_lt h hi hj

theorem farApart (p : PrbsEnum) (bi gray : Bool) (α β : ZMod (2 ^ p.value - 1)) (h : EchoApart p bi gray α β) (D : ℕ)
    (hD : D < echo p bi gray) : FarApart D α β := by
  have hh := (echo_half p bi gray).2
  have key : ∀ s : ℕ, s ≤ D → (s : ZMod (2 ^ p.value - 1)) ≠ (echo p bi gray : ZMod (2 ^ p.value - 1)) := by
    intro s hs e
    have := natCast_inj_lt (by omega) (by omega) e
    omega
  have key2 : ∀ s : ℕ, s ≤ D → (s : ZMod (2 ^ p.value - 1)) ≠ -(echo p bi gray : ZMod (2 ^ p.value - 1)) := by
    intro s hs e
    have e2 : ((s + echo p bi gray : ℕ) : ZMod (2 ^ p.value - 1)) = ((0 : ℕ) : ZMod (2 ^ p.value - 1)) := by
      rw [Nat.cast_add, e, neg_add_cancel, Nat.cast_zero]
    have := natCast_inj_lt (by omega) (by omega) e2
    omega
  refine ⟨fun s hs e => ?_, fun s hs e => ?_, fun s h0 hs e => ?_⟩
  · have e' : (s : ZMod (2 ^ p.value - 1)) = α - β := by rw [← e]; ring
    rcases h with h | h
    · exact key s hs (by rw [e', h])
    · exact key2 s hs (by rw [e', ← h, neg_sub])
  · have e' : (s : ZMod (2 ^ p.value - 1)) = β - α := by rw [← e]; ring
    rcases h with h | h
    · exact key2 s hs (by rw [e', ← h, neg_sub])
    · exact key s hs (by rw [e', h])
  · have e2 : (s : ZMod (2 ^ p.value - 1)) = ((0 : ℕ) : ZMod (2 ^ p.value - 1)) := by rw [e, Nat.cast_zero]
    have := natCast_inj_lt (by omega) (by omega) e2
    omega

/-- consecutive places -/
def winZ (N : ℕ) (κ : ZMod N) (n : ℕ) : Finset (ZMod N) := (range n).image fun i : ℕ => κ - (i : ZMod N)

theorem winZ_card (N : ℕ) (κ : ZMod N) (n : ℕ) : (winZ N κ n).card ≤ n := by
  refine card_image_le.trans ?_
  rw [card_range]

theorem winZ_echo (p : PrbsEnum) (bi gray : Bool) (α β κ : ZMod (2 ^ p.value - 1)) (h : EchoApart p bi gray α β) (n : ℕ)
    (hn : n ≤ echo p bi gray) : ¬ (α ∈ winZ _ κ n ∧ β ∈ winZ _ κ n) := by
  have hh := (echo_half p bi gray).2
  rintro ⟨ha, hb⟩
  rw [winZ, mem_image] at ha hb
  obtain ⟨i, hi, rfl⟩ := ha
  obtain ⟨j, hj, rfl⟩ := hb
  rw [mem_range] at hi hj
  have key : ∀ i j : ℕ, i < n → j < n → (j : ZMod (2 ^ p.value - 1)) - i = (echo p bi gray : ZMod (2 ^ p.value - 1)) → False := by
    intro i j hi hj e
    have e2 : (j : ZMod (2 ^ p.value - 1)) = ((i + echo p bi gray : ℕ) : ZMod (2 ^ p.value - 1)) := by
      rw [Nat.cast_add, ← e]; ring
    have := natCast_inj_lt (by omega) (by omega) e2
    omega
  rcases h with h | h
  · exact key i j hi hj (by rw [← h]; ring)
  · exact key j i hj hi (by rw [← h]; ring)

/-- coefficients of channel and feed forward equalizer in cascade -/
noncomputable def cascZ (N : ℕ) (f h : List ℝ) (g : ℝ) (κ r : ZMod N) : ℝ :=
  ∑ k ∈ range f.length, ∑ j ∈ range h.length, if κ - k - j = r then g * (f.getD k 0 * h.getD j 0) else 0

theorem cascZ_out {N : ℕ} [NeZero N] (f h : List ℝ) (g : ℝ) (κ z : ZMod N) (u : ZMod N → ℝ) :
    ∑ r, cascZ N f h g κ r * u (z + r) = ∑ k ∈ range f.length, f.getD k 0 * ∑ j ∈ range h.length, h.getD j 0 * (g * u (z + (κ - k - j))) := by
  simp only [cascZ, sum_mul]
  rw [sum_comm]
  refine sum_congr rfl fun k _ => ?_
  rw [sum_comm, mul_sum]
  refine sum_congr rfl fun j _ => ?_
  simp only [ite_mul, zero_mul]
  rw [sum_ite_eq univ (κ - (k : ZMod N) - j) (fun r => g * (f.getD k 0 * h.getD j 0) * u (z + r)), if_pos (mem_univ _)]
  ring

theorem cascZ_zero {N : ℕ} (f h : List ℝ) (g : ℝ) (κ r : ZMod N) (hr : r ∉ winZ N κ (f.length + h.length - 1)) : cascZ N f h g κ r = 0 := by
  refine sum_eq_zero fun k hk => sum_eq_zero fun j hj => ?_
  rw [mem_range] at hk hj
  rw [if_neg]
  rintro rfl
  refine hr (mem_image.2 ⟨k + j, by rw [mem_range]; omega, ?_⟩)
  rw [Nat.cast_add]; ring

/-- tap weights of the reference: the feedback taps, preceded by `e` -/
def fbTaps (e : ℝ) (d : List ℝ) : ℕ → ℝ
  | 0 => e
  | k + 1 => d.getD k 0

/-- the equalizer output in terms of the sequence -/
theorem eqAt_cascade {N : ℕ} [NeZero N] (u : ZMod N → ℝ) (s ga si : ℝ) (α β : ZMod N) (x a : ℤ → ℝ)
    (hx : ∀ t : ℤ, x t = s * u (t : ZMod N)) (ha : ∀ t : ℤ, a t = ga * (2 * u ((t : ZMod N) + α) + si * u ((t : ZMod N) + β)))
    (f d h : List ℝ) (pre hpre : ℕ) (φ ph t : ℤ) (e : ℝ) :
    eqAt f d pre (fun t => chanOut h hpre x (t + φ)) (fun t => a (t + ph)) t - e * a (t + ph)
      = ∑ r, cascZ N f h s ((pre : ZMod N) + φ + hpre) r * u ((t : ZMod N) + r)
        - ∑ k ∈ range (d.length + 1), fbTaps e d k * (ga * (2 * u ((t : ZMod N) - k + (α + ph)) + si * u ((t : ZMod N) - k + (β + ph)))) := by
  rw [cascZ_out, sum_range_succ', eqAt]
  have e1 : ∀ k ∈ range f.length, f.getD k 0 * chanOut h hpre x (t + pre - k + φ)
      = f.getD k 0 * ∑ j ∈ range h.length, h.getD j 0 * (s * u ((t : ZMod N) + ((pre : ZMod N) + φ + hpre - k - j))) := by
    intro k _
    rw [chanOut]
    congr 1
    refine sum_congr rfl fun j _ => ?_
    rw [hx]
    congr 3
    push_cast
    ring
  have e2 : ∀ k ∈ range d.length, d.getD k 0 * a (t - 1 - k + ph)
      = fbTaps e d (k + 1) * (ga * (2 * u ((t : ZMod N) - (k + 1 : ℕ) + (α + ph)) + si * u ((t : ZMod N) - (k + 1 : ℕ) + (β + ph)))) := by
    intro k _
    rw [ha]
    show d.getD k 0 * _ = d.getD k 0 * _
    have c1 : ((t - 1 - k + ph : ℤ) : ZMod N) + α = (t : ZMod N) - (k + 1 : ℕ) + (α + ph) := by push_cast; ring
    have c2 : ((t - 1 - k + ph : ℤ) : ZMod N) + β = (t : ZMod N) - (k + 1 : ℕ) + (β + ph) := by push_cast; ring
    rw [c1, c2]
  have e3 : e * a (t + ph) = fbTaps e d 0 * (ga * (2 * u ((t : ZMod N) - (0 : ℕ) + (α + ph)) + si * u ((t : ZMod N) - (0 : ℕ) + (β + ph)))) := by
    rw [ha]
    show e * _ = e * _
    have c1 : ((t + ph : ℤ) : ZMod N) + α = (t : ZMod N) - (0 : ℕ) + (α + ph) := by push_cast; ring
    have c2 : ((t + ph : ℤ) : ZMod N) + β = (t : ZMod N) - (0 : ℕ) + (β + ph) := by push_cast; ring
    rw [c1, c2]
  rw [sum_congr rfl e1, sum_congr rfl e2, e3]
  ring

theorem EchoApart.shift {p : PrbsEnum} {bi gray : Bool} {α β : ZMod (2 ^ p.value - 1)} (h : EchoApart p bi gray α β)
    (γ : ZMod (2 ^ p.value - 1)) : EchoApart p bi gray (α + γ) (β + γ) := by
  rw [EchoApart, add_sub_add_right_eq_sub, add_sub_add_right_eq_sub]
  exact h

/-- averaging the complete periods of a periodic capture changes nothing -/
theorem periodic_avg {N : ℕ} (hN : 0 < N) (y : ℤ → ℝ) (hy : ∀ (t k : ℤ), y (t + k * N) = y t) (φ : ℤ) (signal : List ℝ) (hlen : N ≤ signal.length)
    (hs : ∀ t < signal.length, signal.getD t 0 = y (t + φ)) (t : ℤ) :
    periodic N (periodAvg N (signal.length / N) (fun t => signal.getD t 0)) t = y (t + φ) := by
  rw [periodic]
  have h0 := Int.emod_nonneg t (b := (N : ℤ)) (by omega)
  have hlt : (t % (N : ℤ)).toNat < N := by
    have h2 := Int.emod_lt_of_pos t (b := (N : ℤ)) (by omega)
    omega
  have hreps : 0 < signal.length / N := Nat.div_pos (by omega) hN
  have e : ∀ r ∈ range (signal.length / N), signal.getD (r * N + (t % (N : ℤ)).toNat) 0 = y (t + φ) := by
    intro r hr
    rw [mem_range] at hr
    have hle : r * N + N ≤ signal.length := by
      calc r * N + N = (r + 1) * N := by ring
        _ ≤ signal.length / N * N := Nat.mul_le_mul_right _ hr
        _ ≤ signal.length := Nat.div_mul_le_self _ _
    rw [hs _ (by omega), Nat.cast_add, Nat.cast_mul, Int.toNat_of_nonneg h0, ← hy (t + φ) ((r : ℤ) - t / (N : ℤ))]
    congr 1
    have := Int.emod_add_mul_ediv t (N : ℤ)
    linear_combination this
  rw [periodAvg, sum_congr rfl e, sum_const, card_range, nsmul_eq_mul]
  field_simp

end Verif
