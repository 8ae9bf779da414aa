import Verif.Lemmas.ErrorRate
import Verif.Props.Slicer
import Verif.Model.SimLink
import Mathlib.MeasureTheory.Function.Floor

/-!
# Symbol errors in Gaussian noise (C94)

`mapping`, `awgn`, then `slicer` or `demapping`; the samples behind `numpy.random.normal` are independent standard normal.
-/

open MeasureTheory ProbabilityTheory

namespace Verif
open Spec (qFunc gridNeighbours)

/-- the slicer recovers the level of symbol `i` from the noisy signal -/
def SliceRight (c : Constellation) (fs : Bool) (lv : List ℝ) (snr : ℝ) (noise : List ℝ) (i : ℕ) : Prop :=
  ∃ y out, awgn noise lv snr = some y ∧ slicer (.vec y) (some (getLevels c fs)) = .ok (.vec out) ∧ out.getD i 0 = lv.getD i 0

/-- … or gets it wrong -/
def SliceWrong (c : Constellation) (fs : Bool) (lv : List ℝ) (snr : ℝ) (noise : List ℝ) (i : ℕ) : Prop :=
  ∃ y out, awgn noise lv snr = some y ∧ slicer (.vec y) (some (getLevels c fs)) = .ok (.vec out) ∧ out.getD i 0 ≠ lv.getD i 0

theorem noisy_symbols (c : Constellation) (fs : Bool) (sym : List Int) (hs : ∀ x ∈ sym, 0 ≤ x ∧ x < numLevels c)
    (h2 : 2 ≤ sym.length) (lv : List ℝ) (hlv : mapping sym c fs none false = .ok lv) (hnz : ∃ x ∈ lv, x ≠ 0) (snr : ℝ) :
    ∃ s, awgnStd lv snr = some s ∧ 0 < s ∧ ∀ x : Fin sym.length → ℝ, ∃ y, awgn (List.ofFn x) lv snr = some y ∧
      y.length = sym.length ∧ ∀ i : Fin sym.length, lv.getD i 0 = (getLevels c fs).getD (sym.getD i 0).toNat 0 ∧
        y.getD i 0 = (getLevels c fs).getD (sym.getD i 0).toNat 0 + s * x i := by
  have hlen : (getLevels c fs).length = numLevels c := by rw [getLevels_length, numLevels_eq]
  have hlv' : lv = sym.map (fun x => (getLevels c fs).getD x.toNat 0) := by
    have : mapping sym c fs none false = .ok (sym.map (fun x => (getLevels c fs).getD x.toNat 0)) := by
      simp only [mapping, Bool.false_eq_true, if_false]
      exact npTake_ok _ _ _ (fun x hx => npGet_valid _ 0 x (hs x hx).1 (by rw [hlen]; exact (hs x hx).2))
    rw [this] at hlv
    cases hlv
    rfl
  have hll : lv.length = sym.length := by rw [hlv', List.length_map]
  obtain ⟨s, -, hs1, -, -, -, -, -, hs2⟩ := C59_ratio lv (List.ofFn (n := lv.length) fun _ => 0) snr (by omega) (by simp)
  refine ⟨s, hs1, (hs2 hnz).1, fun x => ?_⟩
  obtain ⟨s', y, h1, h3, h4, h5, -⟩ := C59_ratio lv (List.ofFn x) snr (by omega) (by simp [hll])
  rw [hs1] at h1
  obtain rfl := Option.some.inj h1
  refine ⟨y, h3, by omega, fun i => ?_⟩
  have hi : (i : ℕ) < sym.length := i.2
  have e : lv.getD i 0 = (getLevels c fs).getD (sym.getD i 0).toNat 0 := by
    rw [hlv', getD_map_zero _ 0 0 _ _ hi]
  refine ⟨e, ?_⟩
  rw [h5 i (by omega), e]
  congr 2
  simp

theorem sym_lt (c : Constellation) (sym : List Int) (hs : ∀ x ∈ sym, 0 ≤ x ∧ x < numLevels c) (i : Fin sym.length) :
    (sym.getD i 0).toNat < numLevels c ∧ ((sym.getD i 0).toNat : ℤ) = sym.getD i 0 := by
  have hm : sym.getD i 0 ∈ sym := by rw [List.getD_eq_getElem sym 0 i.2]; exact List.getElem_mem _
  obtain ⟨h0, h1⟩ := hs _ hm
  have e : ((sym.getD i 0).toNat : ℤ) = sym.getD i 0 := Int.toNat_of_nonneg h0
  exact ⟨by omega, e⟩

theorem numLevels_ge (c : Constellation) : 2 ≤ numLevels c := by cases c <;> decide

/-- **C94.** Mapping, `awgn` and the slicer: symbol `i` is decided wrongly with probability `Q(d/2σ)` at the ends of the
constellation and `2 Q(d/2σ)` elsewhere, where `σ` is the standard deviation used by `awgn` and `d` the distance of the levels;
the decisions are independent. -/
theorem C94_slicer (c : Constellation) (fs : Bool) (sym : List Int) (hs : ∀ x ∈ sym, 0 ≤ x ∧ x < numLevels c)
    (h2 : 2 ≤ sym.length) (lv : List ℝ) (hlv : mapping sym c fs none false = .ok lv) (hnz : ∃ x ∈ lv, x ≠ 0) (snr : ℝ) :
    ∃ s t, awgnStd lv snr = some s ∧ 0 < s ∧ t = ((getLevels c fs).getD 1 0 - (getLevels c fs).getD 0 0) / (2 * s) ∧
      (∀ i : Fin sym.length, (normalDraws sym.length).real {x | SliceWrong c fs lv snr (List.ofFn x) i}
        = gridNeighbours (numLevels c) (sym.getD i 0) * qFunc t) ∧
      (∀ i : Fin sym.length, (normalDraws sym.length).real {x | SliceRight c fs lv snr (List.ofFn x) i}
        = 1 - gridNeighbours (numLevels c) (sym.getD i 0) * qFunc t) ∧
      (normalDraws sym.length).real {x | ∀ i : Fin sym.length, SliceRight c fs lv snr (List.ofFn x) i}
        = ∏ i : Fin sym.length, (1 - gridNeighbours (numLevels c) (sym.getD i 0) * qFunc t) := by
  obtain ⟨s, h3, hs0, h4⟩ := noisy_symbols c fs sym hs h2 lv hlv hnz snr
  have hlen : (getLevels c fs).length = numLevels c := by rw [getLevels_length, numLevels_eq]
  obtain ⟨hd, hgrid⟩ := levels_grid c fs
  have hlv0 : (getLevels c fs).length ≠ 0 := by have := numLevels_ge c; omega
  have hslice : ∀ y : List ℝ, slicer (.vec y) (some (getLevels c fs)) = .ok (.vec (y.map (sliceOne (getLevels c fs)))) := by
    intro y
    simp [slicer, hlv0]
  have hout : ∀ (y : List ℝ) (i : ℕ), i < y.length → (y.map (sliceOne (getLevels c fs))).getD i 0 = sliceOne (getLevels c fs) (y.getD i 0) :=
    fun y i hi => getD_map_zero _ 0 0 _ _ hi
  have hr : ∀ (x : Fin sym.length → ℝ) (i : Fin sym.length), SliceRight c fs lv snr (List.ofFn x) i ↔
      x i ∈ {z | sliceOne (getLevels c fs) ((getLevels c fs).getD (sym.getD i 0).toNat 0 + s * z)
        = (getLevels c fs).getD (sym.getD i 0).toNat 0} := by
    intro x i
    obtain ⟨y, hy1, hy2, hy3⟩ := h4 x
    rw [Set.mem_setOf_eq, ← (hy3 i).2]
    constructor
    · rintro ⟨y', out, e1, e2, e3⟩
      rw [hy1] at e1
      obtain rfl := Option.some.inj e1
      rw [hslice] at e2
      cases e2
      rw [hout _ _ (by rw [hy2]; exact i.2), (hy3 i).1] at e3
      exact e3
    · intro h
      exact ⟨y, _, hy1, hslice y, by rw [hout _ _ (by rw [hy2]; exact i.2), (hy3 i).1]; exact h⟩
  have hw : ∀ (x : Fin sym.length → ℝ) (i : Fin sym.length), SliceWrong c fs lv snr (List.ofFn x) i ↔
      x i ∈ {z | sliceOne (getLevels c fs) ((getLevels c fs).getD (sym.getD i 0).toNat 0 + s * z)
        = (getLevels c fs).getD (sym.getD i 0).toNat 0}ᶜ := by
    intro x i
    obtain ⟨y, hy1, hy2, hy3⟩ := h4 x
    rw [Set.mem_compl_iff, Set.mem_setOf_eq, ← (hy3 i).2]
    constructor
    · rintro ⟨y', out, e1, e2, e3⟩
      rw [hy1] at e1
      obtain rfl := Option.some.inj e1
      rw [hslice] at e2
      cases e2
      rw [hout _ _ (by rw [hy2]; exact i.2), (hy3 i).1] at e3
      exact e3
    · intro h
      exact ⟨y, _, hy1, hslice y, by rw [hout _ _ (by rw [hy2]; exact i.2), (hy3 i).1]; exact h⟩
  have hp := fun i : Fin sym.length => slice_prob (getLevels c fs) (numLevels c) hlen _ _ hd hgrid (numLevels_ge c) (sym.getD i 0).toNat
    (sym_lt c sym hs i).1 s hs0
  simp only [(sym_lt c sym hs _).2] at hp
  refine ⟨s, _, h3, hs0, rfl, fun i => ?_, fun i => ?_, ?_⟩
  · simp only [hw]
    rw [draws_single, (hp i).2]
  · simp only [hr]
    rw [draws_single, (hp i).1]
  · simp only [hr]
    rw [draws_box (fun i : Fin sym.length => {z | sliceOne (getLevels c fs) ((getLevels c fs).getD (sym.getD i 0).toNat 0 + s * z)
        = (getLevels c fs).getD (sym.getD i 0).toNat 0})]
    exact Finset.prod_congr rfl fun i _ => (hp i).1

theorem neighbours_sum (M : ℕ) (h2 : 2 ≤ M) (sym : List Int) :
    ∑ i : Fin sym.length, gridNeighbours M (sym.getD i 0) + (sym.count 0 + sym.count ((M : ℤ) - 1)) = 2 * sym.length := by
  have e : ∑ i : Fin sym.length, gridNeighbours M (sym.getD i 0) = (sym.map (gridNeighbours M)).sum := by
    rw [← List.sum_ofFn]
    congr 1
    refine List.ext_getElem (by simp) fun i h1 h2 => ?_
    simp at h1
    simp [h1]
  rw [e]
  clear e
  induction sym with
  | nil => simp
  | cons a l ih =>
    rw [List.map_cons, List.sum_cons, List.count_cons, List.count_cons, List.length_cons]
    have : gridNeighbours M a + ((if (a == 0) = true then 1 else 0) + if (a == (M : ℤ) - 1) = true then 1 else 0) = 2 := by
      unfold gridNeighbours
      simp only [beq_iff_eq]
      split_ifs <;> omega
    omega

/-- **C94.** The expected number of wrong decisions of the slicer is `(2 n - e) Q(d/2σ)`, `e` being the number of symbols at an
end of the constellation; if every symbol occurs equally often, this is the rate `2 (1 - 1/M) Q(d/2σ)`. -/
theorem C94_rate (c : Constellation) (fs : Bool) (sym : List Int) (hs : ∀ x ∈ sym, 0 ≤ x ∧ x < numLevels c)
    (h2 : 2 ≤ sym.length) (lv : List ℝ) (hlv : mapping sym c fs none false = .ok lv) (hnz : ∃ x ∈ lv, x ≠ 0) (snr : ℝ) :
    ∃ s t, awgnStd lv snr = some s ∧ 0 < s ∧ t = ((getLevels c fs).getD 1 0 - (getLevels c fs).getD 0 0) / (2 * s) ∧
      ∑ i : Fin sym.length, (normalDraws sym.length).real {x | SliceWrong c fs lv snr (List.ofFn x) i}
        = (2 * sym.length - (sym.count 0 + sym.count ((numLevels c : ℤ) - 1) : ℕ)) * qFunc t ∧
      ((∀ k : ℕ, k < numLevels c → numLevels c * sym.count (k : ℤ) = sym.length) →
        (∑ i : Fin sym.length, (normalDraws sym.length).real {x | SliceWrong c fs lv snr (List.ofFn x) i}) / sym.length
          = 2 * (1 - 1 / (numLevels c : ℝ)) * qFunc t) := by
  obtain ⟨s, t, h3, hs0, ht, hw, -, -⟩ := C94_slicer c fs sym hs h2 lv hlv hnz snr
  have hM := numLevels_ge c
  have hsum := neighbours_sum (numLevels c) hM sym
  have e : ∑ i : Fin sym.length, (normalDraws sym.length).real {x | SliceWrong c fs lv snr (List.ofFn x) i}
        = (2 * sym.length - (sym.count 0 + sym.count ((numLevels c : ℤ) - 1) : ℕ)) * qFunc t := by
    simp only [hw]
    rw [← Finset.sum_mul, ← Nat.cast_sum]
    congr 1
    rw [eq_sub_iff_add_eq]
    exact_mod_cast hsum
  refine ⟨s, t, h3, hs0, ht, e, fun hc => ?_⟩
  rw [e]
  have hn : (0 : ℝ) < sym.length := by exact_mod_cast (by omega : 0 < sym.length)
  have hM' : (0 : ℝ) < numLevels c := by exact_mod_cast (by omega : 0 < numLevels c)
  have c0 := hc 0 (by omega)
  have c1 := hc (numLevels c - 1) (by omega)
  rw [Nat.cast_sub (by omega : 1 ≤ numLevels c)] at c1
  have c0' : (numLevels c : ℝ) * (sym.count 0 : ℕ) = sym.length := by exact_mod_cast c0
  have c1' : (numLevels c : ℝ) * (sym.count ((numLevels c : ℤ) - 1) : ℕ) = sym.length := by exact_mod_cast c1
  push_cast
  field_simp
  linear_combination (-qFunc t) * c0' + (-qFunc t) * c1'

/-- **C94.** The argument of `Q` in terms of the requested ratio and the power that `awgn` estimates, and the exponential bound
for the probability of any wrong decision. -/
theorem C94_bound (c : Constellation) (fs : Bool) (sym : List Int) (hs : ∀ x ∈ sym, 0 ≤ x ∧ x < numLevels c)
    (h2 : 2 ≤ sym.length) (lv : List ℝ) (hlv : mapping sym c fs none false = .ok lv) (hnz : ∃ x ∈ lv, x ≠ 0) (snr : ℝ) :
    ∃ P t, sigPowerHat lv = some P ∧ 0 < P ∧
      t = ((getLevels c fs).getD 1 0 - (getLevels c fs).getD 0 0) / 2 * Real.sqrt ((10 : ℝ) ^ (snr / 10) / P) ∧
      (∀ i : Fin sym.length, (normalDraws sym.length).real {x | SliceWrong c fs lv snr (List.ofFn x) i}
        = gridNeighbours (numLevels c) (sym.getD i 0) * qFunc t) ∧
      qFunc t ≤ Real.exp (-(t ^ 2 / 2)) ∧
      1 - 2 * sym.length * Real.exp (-(t ^ 2 / 2)) ≤
        (normalDraws sym.length).real {x | ∀ i : Fin sym.length, SliceRight c fs lv snr (List.ofFn x) i} := by
  obtain ⟨s, t, h3, hs0, ht, hw, -, hall⟩ := C94_slicer c fs sym hs h2 lv hlv hnz snr
  obtain ⟨hd, -⟩ := levels_grid c fs
  have hg : (0 : ℝ) < (10 : ℝ) ^ (snr / 10) := Real.rpow_pos_of_pos (by norm_num) _
  have ht0 : 0 < t := by rw [ht]; positivity
  have hq0 := (qFunc_pos t).le
  have hq := qFunc_le_exp ht0.le
  unfold awgnStd at h3
  obtain ⟨P, hP, hPs⟩ := Option.map_eq_some_iff.1 h3
  have hP0 : 0 < P / (10 : ℝ) ^ (snr / 10) := by
    rw [← Real.sqrt_pos, hPs]; exact hs0
  have hPp : 0 < P := by
    have := mul_pos hP0 hg
    rwa [div_mul_cancel₀ _ hg.ne'] at this
  refine ⟨P, t, hP, hPp, ?_, hw, hq, ?_⟩
  · rw [ht, ← hPs, Real.sqrt_div hPp.le, Real.sqrt_div hg.le]
    have := Real.sqrt_pos.2 hPp
    have := Real.sqrt_pos.2 hg
    field_simp
  · rw [hall]
    have hn : ∀ k, (gridNeighbours (numLevels c) k : ℝ) ≤ 2 := by
      intro k
      have : gridNeighbours (numLevels c) k ≤ 2 := by
        unfold gridNeighbours
        split_ifs <;> omega
      exact_mod_cast this
    have hhalf := qFunc_lt_half ht0
    have key : ∀ (n : ℕ) (f : Fin n → ℝ), (∀ i, 0 ≤ f i) → (∀ i, f i ≤ 1) → 1 - ∑ i, f i ≤ ∏ i, (1 - f i) := by
      intro n f hf0 hf1
      have : ∀ S : Finset (Fin n), 1 - ∑ i ∈ S, f i ≤ ∏ i ∈ S, (1 - f i) ∧ 0 ≤ ∏ i ∈ S, (1 - f i) ∧ ∏ i ∈ S, (1 - f i) ≤ 1 := by
        intro S
        induction S using Finset.induction_on with
        | empty => simp
        | insert a S ha ih =>
          rw [Finset.sum_insert ha, Finset.prod_insert ha]
          obtain ⟨i1, i2, i3⟩ := ih
          have := hf0 a
          have := hf1 a
          refine ⟨?_, mul_nonneg (by linarith) i2, ?_⟩
          · nlinarith
          · nlinarith
      exact (this Finset.univ).1
    refine le_trans ?_ (key _ _ (fun i => mul_nonneg (Nat.cast_nonneg _) hq0) (fun i => ?_))
    · have : ∑ i : Fin sym.length, (gridNeighbours (numLevels c) (sym.getD i 0) : ℝ) * qFunc t
          ≤ ∑ i : Fin sym.length, 2 * Real.exp (-(t ^ 2 / 2)) := by
        refine Finset.sum_le_sum fun i _ => ?_
        exact mul_le_mul (hn _) hq hq0 (by norm_num)
      rw [Finset.sum_const, Finset.card_univ, Fintype.card_fin, nsmul_eq_mul] at this
      linarith
    · have := mul_le_mul_of_nonneg_right (hn (sym.getD i 0)) hq0
      linarith

/-! ### demapping without a slicer -/

theorem measurable_specRound : Measurable Spec.roundHalfEven := by
  have hf : Measurable fun x : ℝ => ⌊x⌋ := Int.measurable_floor
  have hr : Measurable fun x : ℝ => Int.fract x := measurable_fract
  unfold Spec.roundHalfEven
  refine Measurable.ite (measurableSet_lt hr measurable_const) hf ?_
  refine Measurable.ite (measurableSet_lt measurable_const hr) (hf.add_const 1) ?_
  exact Measurable.ite (hf (MeasurableSet.of_discrete (s := {n : ℤ | Even n}))) hf (hf.add_const 1)

theorem demap_noisy (c : Constellation) (fs : Bool) (sym : List Int) (hs : ∀ x ∈ sym, 0 ≤ x ∧ x < numLevels c)
    (h2 : 2 ≤ sym.length) (lv : List ℝ) (hlv : mapping sym c fs none false = .ok lv) (hnz : ∃ x ∈ lv, x ≠ 0) (snr : ℝ) :
    ∃ s t, awgnStd lv snr = some s ∧ 0 < s ∧ t = ((getLevels c fs).getD 1 0 - (getLevels c fs).getD 0 0) / (2 * s) ∧
      ∀ x : Fin sym.length → ℝ, ∃ y, awgn (List.ofFn x) lv snr = some y ∧
        ((demapping y c fs false).1 = .ok sym ↔ ∀ i : Fin sym.length, Spec.roundHalfEven ((sym.getD i 0 : ℤ) + x i / (2 * t)) = sym.getD i 0 ∨
          Spec.roundHalfEven ((sym.getD i 0 : ℤ) + x i / (2 * t)) = sym.getD i 0 - numLevels c) ∧
        ((∃ out, (demapping y c fs false).1 = .ok out) ↔ ∀ i : Fin sym.length, -(numLevels c : ℤ) ≤ Spec.roundHalfEven ((sym.getD i 0 : ℤ) + x i / (2 * t)) ∧
          Spec.roundHalfEven ((sym.getD i 0 : ℤ) + x i / (2 * t)) ≤ numLevels c - 1) ∧
        ((demapping y c fs false).1 = .error .indexError ↔ ¬ ∃ out, (demapping y c fs false).1 = .ok out) := by
  obtain ⟨s, h3, hs0, h4⟩ := noisy_symbols c fs sym hs h2 lv hlv hnz snr
  obtain ⟨hd, hgrid⟩ := levels_grid c fs
  have hM := numLevels_ge c
  refine ⟨s, _, h3, hs0, rfl, fun x => ?_⟩
  obtain ⟨y, hy1, hy2, hy3⟩ := h4 x
  obtain ⟨k, hk⟩ : ∃ k : ℝ → ℤ, ∀ v, k v = Spec.roundHalfEven (((if false then -v else v) - (getLevels c fs).getD 0 0)
      / ((getLevels c fs).getD 1 0 - (getLevels c fs).getD 0 0)) := ⟨_, fun _ => rfl⟩
  obtain ⟨ht1, ht2⟩ := C18_total c fs false y k hk
  have hky : ∀ i : Fin sym.length, k (y.getD i 0) = Spec.roundHalfEven ((sym.getD i 0 : ℤ) +
      x i / (2 * (((getLevels c fs).getD 1 0 - (getLevels c fs).getD 0 0) / (2 * s)))) := by
    intro i
    obtain ⟨hlt, he⟩ := sym_lt c sym hs i
    have he' : ((sym.getD i 0).toNat : ℝ) = ((sym.getD i 0 : ℤ) : ℝ) := by exact_mod_cast congrArg (Int.cast (R := ℝ)) he
    rw [hk, (hy3 i).2, hgrid _ hlt, he']
    congr 1
    simp only [Bool.false_eq_true, if_false]
    field_simp
    ring
  simp only [← hky]
  have hmem : ∀ i : Fin sym.length, y.getD i 0 ∈ y := fun i => by
    rw [List.getD_eq_getElem y 0 (by rw [hy2]; exact i.2)]; exact List.getElem_mem _
  have hall : (∀ v ∈ y, -(numLevels c : ℤ) ≤ k v ∧ k v < numLevels c) ↔
      ∀ i : Fin sym.length, -(numLevels c : ℤ) ≤ k (y.getD i 0) ∧ k (y.getD i 0) ≤ numLevels c - 1 := by
    constructor
    · intro h i
      have := h _ (hmem i)
      omega
    · intro h v hv
      obtain ⟨j, hj, e⟩ := List.mem_iff_getElem.1 hv
      have := h ⟨j, by omega⟩
      rw [List.getD_eq_getElem y 0 hj, e] at this
      omega
  have hbad : ¬ (∀ v ∈ y, -(numLevels c : ℤ) ≤ k v ∧ k v < numLevels c) → (demapping y c fs false).1 = .error .indexError := by
    intro h
    push Not at h
    obtain ⟨v, hv, hv'⟩ := h
    refine ht2 ⟨v, hv, ?_⟩
    by_cases h5 : k v < -(numLevels c : ℤ)
    · exact Or.inl h5
    · exact Or.inr (hv' (by omega))
  refine ⟨y, hy1, ?_, ?_, ?_⟩
  · by_cases h : ∀ v ∈ y, -(numLevels c : ℤ) ≤ k v ∧ k v < numLevels c
    · rw [ht1 h]
      have e : (Except.ok (y.map fun s => k s % (numLevels c : ℤ)) : Py (List Int)) = .ok sym ↔
          ∀ i : Fin sym.length, k (y.getD i 0) % (numLevels c : ℤ) = sym.getD i 0 := by
        constructor
        · intro h5 i
          have h6 : (y.map fun s => k s % (numLevels c : ℤ)) = sym := by cases h5; rfl
          rw [← getD_map_zero (fun s => k s % (numLevels c : ℤ)) 0 0 y i (by rw [hy2]; exact i.2), h6]
        · intro h5
          refine congrArg Except.ok (List.ext_getElem (by simp [hy2]) fun i h6 h7 => ?_)
          have := h5 ⟨i, h7⟩
          rw [List.getD_eq_getElem sym 0 h7, List.getD_eq_getElem y 0 (by omega)] at this
          simpa using this
      rw [e]
      refine forall_congr' fun i => ?_
      have h5 := (hall.1 h) i
      obtain ⟨hlt, he⟩ := sym_lt c sym hs i
      constructor
      · intro h6
        by_cases h7 : 0 ≤ k (y.getD i 0)
        · left; rw [← h6, Int.emod_eq_of_lt h7 (by omega)]
        · right
          rw [← h6, ← Int.add_emod_left, Int.emod_eq_of_lt (by omega) (by omega)]
          ring
      · rintro (h6 | h6)
        · rw [h6, Int.emod_eq_of_lt (by omega) (by omega)]
        · rw [h6, ← Int.add_emod_left, Int.emod_eq_of_lt (by omega) (by omega)]
          ring
    · rw [hbad h]
      constructor
      · intro h5; cases h5
      · intro h5
        exfalso
        refine h (hall.2 fun i => ?_)
        obtain ⟨hlt, he⟩ := sym_lt c sym hs i
        rcases h5 i with h6 | h6 <;> omega
  · rw [← hall]
    constructor
    · rintro ⟨out, ho⟩
      by_contra h
      rw [hbad h] at ho
      cases ho
    · intro h
      exact ⟨_, ht1 h⟩
  · constructor
    · rintro h ⟨out, ho⟩
      rw [h] at ho
      cases ho
    · intro h
      refine hbad fun h5 => h ⟨_, ht1 h5⟩

/-- **C94** (partial: what demapping the noisy signal directly does). All symbols are right with probability
`(1 - 2Q(t) + Q((2M-1)t) - Q((2M+1)t))ⁿ`, `t = d/2σ`: the ends of the constellation have no advantage, because indices beyond
them wrap or raise, and a wrap by a full constellation is a right decision by accident. The call raises IndexError with
probability `1 - ∏ (1 - Q((2(M-k)-1)t) - Q((2(M+k)+1)t))`. -/
theorem C94_demapping_partial (c : Constellation) (fs : Bool) (sym : List Int) (hs : ∀ x ∈ sym, 0 ≤ x ∧ x < numLevels c)
    (h2 : 2 ≤ sym.length) (lv : List ℝ) (hlv : mapping sym c fs none false = .ok lv) (hnz : ∃ x ∈ lv, x ≠ 0) (snr : ℝ) :
    ∃ s t, awgnStd lv snr = some s ∧ 0 < s ∧ t = ((getLevels c fs).getD 1 0 - (getLevels c fs).getD 0 0) / (2 * s) ∧
      (normalDraws sym.length).real {x | ∃ y, awgn (List.ofFn x) lv snr = some y ∧ (demapping y c fs false).1 = .ok sym}
        = (1 - 2 * qFunc t + qFunc ((2 * numLevels c - 1) * t) - qFunc ((2 * numLevels c + 1) * t)) ^ sym.length ∧
      (normalDraws sym.length).real {x | ∃ y, awgn (List.ofFn x) lv snr = some y ∧ (demapping y c fs false).1 = .error .indexError}
        = 1 - ∏ i : Fin sym.length, (1 - qFunc ((2 * (numLevels c - (sym.getD i 0 : ℤ)) - 1) * t)
          - qFunc ((2 * (numLevels c + (sym.getD i 0 : ℤ)) + 1) * t)) := by
  obtain ⟨s, t, h3, hs0, ht, h4⟩ := demap_noisy c fs sym hs h2 lv hlv hnz snr
  obtain ⟨hd, -⟩ := levels_grid c fs
  have hM := numLevels_ge c
  have hM' : (2 : ℝ) ≤ numLevels c := by exact_mod_cast hM
  have ht0 : 0 < t := by rw [ht]; positivity
  refine ⟨s, t, h3, hs0, ht, ?_, ?_⟩
  · have e : {x : Fin sym.length → ℝ | ∃ y, awgn (List.ofFn x) lv snr = some y ∧ (demapping y c fs false).1 = .ok sym}
        = {x : Fin sym.length → ℝ | ∀ i : Fin sym.length, x i ∈ {z | Spec.roundHalfEven ((sym.getD i 0 : ℤ) + z / (2 * t)) = sym.getD i 0 ∨
          Spec.roundHalfEven ((sym.getD i 0 : ℤ) + z / (2 * t)) = sym.getD i 0 - numLevels c}} := by
      ext x
      obtain ⟨y, hy1, hy2, -⟩ := h4 x
      simp only [Set.mem_setOf_eq]
      rw [← hy2]
      constructor
      · rintro ⟨y', e1, e2⟩
        rw [hy1] at e1
        obtain rfl := Option.some.inj e1
        exact e2
      · intro h; exact ⟨y, hy1, h⟩
    rw [e, draws_box]
    rw [Finset.prod_eq_pow_card (b := 1 - 2 * qFunc t + qFunc ((2 * numLevels c - 1) * t) - qFunc ((2 * numLevels c + 1) * t)),
      Finset.card_univ, Fintype.card_fin]
    intro i _
    obtain ⟨k, hk⟩ : ∃ k : ℤ, k = sym.getD i 0 := ⟨_, rfl⟩
    rw [← hk]
    have hsplit : {z : ℝ | Spec.roundHalfEven ((k : ℤ) + z / (2 * t)) = k ∨ Spec.roundHalfEven ((k : ℤ) + z / (2 * t)) = k - numLevels c}
        = {z : ℝ | k ≤ Spec.roundHalfEven (k + z / (2 * t)) ∧ Spec.roundHalfEven (k + z / (2 * t)) ≤ k}
          ∪ {z : ℝ | k - numLevels c ≤ Spec.roundHalfEven (k + z / (2 * t)) ∧ Spec.roundHalfEven (k + z / (2 * t)) ≤ k - numLevels c} := by
      ext z
      simp only [Set.mem_setOf_eq, Set.mem_union]
      constructor
      · rintro (h | h)
        · left; omega
        · right; omega
      · rintro (h | h)
        · left; omega
        · right; omega
    have hmeas : Measurable fun z : ℝ => Spec.roundHalfEven ((k : ℝ) + z / (2 * t)) := measurable_specRound.comp (by fun_prop)
    rw [hsplit, measureReal_union]
    · have p1 := round_prob t ht0 k k k le_rfl
      have p2 := round_prob t ht0 k (k - numLevels c) (k - numLevels c) le_rfl
      rw [p1, p2]
      push_cast
      rw [show (2 * ((k : ℝ) - k) - 1) * t = -t by ring, show (2 * ((k : ℝ) - k) + 1) * t = t by ring,
        show (2 * ((k : ℝ) - numLevels c - k) - 1) * t = -((2 * numLevels c + 1) * t) by ring,
        show (2 * ((k : ℝ) - numLevels c - k) + 1) * t = -((2 * numLevels c - 1) * t) by ring, qFunc_neg, qFunc_neg, qFunc_neg]
      ring
    · rw [Set.disjoint_left]
      intro z h5 h6
      simp only [Set.mem_setOf_eq] at h5 h6
      omega
    · exact hmeas (MeasurableSet.of_discrete (s := {j : ℤ | k - numLevels c ≤ j ∧ j ≤ k - numLevels c}))
  · have e : {x : Fin sym.length → ℝ | ∃ y, awgn (List.ofFn x) lv snr = some y ∧ (demapping y c fs false).1 = .error .indexError}
        = {x : Fin sym.length → ℝ | ∀ i : Fin sym.length, x i ∈ {z | -(numLevels c : ℤ) ≤ Spec.roundHalfEven ((sym.getD i 0 : ℤ) + z / (2 * t)) ∧
          Spec.roundHalfEven ((sym.getD i 0 : ℤ) + z / (2 * t)) ≤ numLevels c - 1}}ᶜ := by
      ext x
      obtain ⟨y, hy1, -, hy2, hy3⟩ := h4 x
      simp only [Set.mem_setOf_eq, Set.mem_compl_iff]
      rw [← hy2, ← hy3]
      constructor
      · rintro ⟨y', e1, e2⟩
        rw [hy1] at e1
        obtain rfl := Option.some.inj e1
        exact e2
      · intro h; exact ⟨y, hy1, h⟩
    have hmeas : ∀ k : ℤ, MeasurableSet {z : ℝ | -(numLevels c : ℤ) ≤ Spec.roundHalfEven ((k : ℤ) + z / (2 * t)) ∧
          Spec.roundHalfEven ((k : ℤ) + z / (2 * t)) ≤ numLevels c - 1} := fun k =>
      (measurable_specRound.comp (by fun_prop : Measurable fun z : ℝ => (k : ℝ) + z / (2 * t)))
        (MeasurableSet.of_discrete (s := {j : ℤ | -(numLevels c : ℤ) ≤ j ∧ j ≤ numLevels c - 1}))
    have hbox : MeasurableSet {x : Fin sym.length → ℝ | ∀ i : Fin sym.length, x i ∈ {z | -(numLevels c : ℤ) ≤ Spec.roundHalfEven ((sym.getD i 0 : ℤ) + z / (2 * t)) ∧
          Spec.roundHalfEven ((sym.getD i 0 : ℤ) + z / (2 * t)) ≤ numLevels c - 1}} := by
      rw [Set.setOf_forall]
      exact MeasurableSet.iInter fun i => (measurable_pi_apply i) (hmeas (sym.getD i 0))
    rw [e, probReal_compl_eq_one_sub hbox, draws_box]
    congr 1
    refine Finset.prod_congr rfl fun i _ => ?_
    rw [round_prob t ht0 _ _ _ (by omega)]
    push_cast
    rw [show (2 * (-(numLevels c : ℝ) - (sym.getD i 0 : ℤ)) - 1) * t = -((2 * (numLevels c + (sym.getD i 0 : ℤ)) + 1) * t) by ring,
      show (2 * ((numLevels c : ℝ) - 1 - (sym.getD i 0 : ℤ)) + 1) * t = (2 * (numLevels c - (sym.getD i 0 : ℤ)) - 1) * t by ring, qFunc_neg]
    ring

/-- **C94** (negation). Demapping the noisy signal does not reach the error rate of the nearest level: with two levels it is
strictly less likely to return all symbols than the slicer, and for every constellation and every ratio the call raises
IndexError with positive probability. -/
theorem C94_negative (c : Constellation) (fs : Bool) (sym : List Int) (hs : ∀ x ∈ sym, 0 ≤ x ∧ x < numLevels c)
    (h2 : 2 ≤ sym.length) (lv : List ℝ) (hlv : mapping sym c fs none false = .ok lv) (hnz : ∃ x ∈ lv, x ≠ 0) (snr : ℝ) :
    0 < (normalDraws sym.length).real {x | ∃ y, awgn (List.ofFn x) lv snr = some y ∧ (demapping y c fs false).1 = .error .indexError} ∧
    (numLevels c = 2 →
      (normalDraws sym.length).real {x | ∃ y, awgn (List.ofFn x) lv snr = some y ∧ (demapping y c fs false).1 = .ok sym}
        < (normalDraws sym.length).real {x | ∀ i : Fin sym.length, SliceRight c fs lv snr (List.ofFn x) i}) := by
  obtain ⟨s, t, h3, hs0, ht, hok, herr⟩ := C94_demapping_partial c fs sym hs h2 lv hlv hnz snr
  obtain ⟨s', t', h3', -, ht', -, -, hsl⟩ := C94_slicer c fs sym hs h2 lv hlv hnz snr
  obtain rfl : s = s' := Option.some.inj (h3.symm.trans h3')
  obtain rfl : t = t' := by rw [ht, ht']
  obtain ⟨hd, -⟩ := levels_grid c fs
  have ht0 : 0 < t := by rw [ht]; positivity
  have hM := numLevels_ge c
  constructor
  · rw [herr, sub_pos]
    have hf : ∀ i : Fin sym.length, 0 ≤ 1 - qFunc ((2 * (numLevels c - (sym.getD i 0 : ℤ)) - 1) * t)
          - qFunc ((2 * (numLevels c + (sym.getD i 0 : ℤ)) + 1) * t) ∧ 1 - qFunc ((2 * (numLevels c - (sym.getD i 0 : ℤ)) - 1) * t)
          - qFunc ((2 * (numLevels c + (sym.getD i 0 : ℤ)) + 1) * t) < 1 := by
      intro i
      obtain ⟨hlt, he⟩ := sym_lt c sym hs i
      have hk1 : ((sym.getD i 0 : ℤ) : ℝ) + 1 ≤ numLevels c := by exact_mod_cast (by omega : sym.getD i 0 + 1 ≤ (numLevels c : ℤ))
      have hk0 : (0 : ℝ) ≤ ((sym.getD i 0 : ℤ) : ℝ) := by exact_mod_cast (by omega : 0 ≤ sym.getD i 0)
      have a1 := qFunc_lt_half (t := (2 * (numLevels c - (sym.getD i 0 : ℤ)) - 1) * t) (mul_pos (by linarith) ht0)
      have a2 := qFunc_lt_half (t := (2 * (numLevels c + (sym.getD i 0 : ℤ)) + 1) * t) (mul_pos (by positivity) ht0)
      have a3 := qFunc_pos ((2 * (numLevels c - (sym.getD i 0 : ℤ)) - 1) * t)
      have a4 := qFunc_pos ((2 * (numLevels c + (sym.getD i 0 : ℤ)) + 1) * t)
      constructor <;> linarith
    obtain ⟨i0⟩ : Nonempty (Fin sym.length) := ⟨⟨0, by omega⟩⟩
    rw [← Finset.mul_prod_erase _ _ (Finset.mem_univ i0)]
    have h5 := Finset.prod_le_one (s := Finset.univ.erase i0) (fun i _ => (hf i).1) (fun i _ => (hf i).2.le)
    exact lt_of_le_of_lt (mul_le_of_le_one_right (hf i0).1 h5) (hf i0).2
  · intro hM2
    rw [hok, hsl]
    have hnb : ∀ i : Fin sym.length, gridNeighbours (numLevels c) (sym.getD i 0) = 1 := by
      intro i
      obtain ⟨hlt, he⟩ := sym_lt c sym hs i
      rw [hM2] at hlt ⊢
      unfold gridNeighbours
      have : sym.getD i 0 = 0 ∨ sym.getD i 0 = 1 := by omega
      rcases this with h | h <;> rw [h] <;> decide
    simp only [hnb, Finset.prod_const, Finset.card_univ, Fintype.card_fin]
    rw [hM2]
    have a1 := qFunc_strictAnti (a := t) (b := (2 * ((2 : ℕ) : ℝ) - 1) * t) (by push_cast; linarith)
    have a2 := qFunc_pos ((2 * ((2 : ℕ) : ℝ) + 1) * t)
    have a3 := qFunc_lt_half ht0
    have a4 := qFunc_anti (a := (2 * ((2 : ℕ) : ℝ) - 1) * t) (b := (2 * ((2 : ℕ) : ℝ) + 1) * t) (by push_cast; linarith)
    refine pow_lt_pow_left₀ ?_ ?_ (by omega)
    · push_cast at *; linarith
    · push_cast at *; linarith

/-- a transmitted OOK pattern without any mark has no power: no noise is added and every decision is right -/
theorem C94_silent (fs : Bool) (n : ℕ) (h2 : 2 ≤ n) (noise : List ℝ) (hn : noise.length = n) (snr : ℝ) :
    ∃ lv, mapping (List.replicate n 0) .ook fs none false = .ok lv ∧ awgn noise lv snr = some lv ∧
      ∀ i < n, SliceRight .ook fs lv snr noise i := by
  have hlv : mapping (List.replicate n 0) .ook fs none false = .ok (List.replicate n 0) := by
    have h0 : (getLevels .ook fs).getD 0 0 = 0 := by cases fs <;> simp [getLevels, intLevels]
    have hlen : (getLevels .ook fs).length = 2 := by rw [getLevels_length]; rfl
    simp only [mapping, Bool.false_eq_true, if_false]
    rw [npTake_ok _ _ (fun x => (getLevels .ook fs).getD x.toNat 0)
      (fun x hx => npGet_valid _ 0 x (by rw [List.eq_of_mem_replicate hx]) (by rw [List.eq_of_mem_replicate hx, hlen]; decide))]
    rw [List.map_replicate, Int.toNat_zero, h0]
  have haw : awgn noise (List.replicate n 0) snr = some (List.replicate n 0) := by
    have : awgnStd (List.replicate n 0) snr = some 0 := by
      rw [awgnStd, sigPowerHat, if_neg (by simp; omega)]
      simp
    rw [awgn, this, Option.map_some]
    congr 1
    refine List.ext_getElem (by simp [hn]) fun i h3 h4 => ?_
    simp
  refine ⟨_, hlv, haw, fun i hi => ?_⟩
  have hne : getLevels .ook fs ≠ [] := by
    intro h
    have := getLevels_length .ook fs
    rw [h] at this
    cases this
  obtain ⟨out, h3, -, h5⟩ := C20_slicer_idempotent (List.replicate n 0) (getLevels .ook fs) hne
  refine ⟨_, out, haw, h3, ?_⟩
  have hm : (0 : ℝ) ∈ getLevels .ook fs := by cases fs <;> simp [getLevels, intLevels]
  have := h5 i 0 (by simp [hi]) hm
  rw [List.getD_eq_getElem?_getD, this]
  simp [hi]

theorem mapping_values (c : Constellation) (fs : Bool) (sym : List Int) (hs : ∀ x ∈ sym, 0 ≤ x ∧ x < numLevels c) :
    mapping sym c fs none false = .ok (sym.map fun x => (getLevels c fs).getD x.toNat 0) := by
  have hlen : (getLevels c fs).length = numLevels c := by rw [getLevels_length, numLevels_eq]
  simp only [mapping, Bool.false_eq_true, if_false]
  exact npTake_ok _ _ _ (fun x hx => npGet_valid _ 0 x (hs x hx).1 (by rw [hlen]; exact (hs x hx).2))

/-- **C94.** Slicer and demapping together, as the receiver of the example simulation uses them, reach the probability of the
slicer for the whole pattern of symbols, and never raise. -/
theorem C94_recover (c : Constellation) (sym : List Int) (hs : ∀ x ∈ sym, 0 ≤ x ∧ x < numLevels c)
    (h2 : 2 ≤ sym.length) (lv : List ℝ) (hlv : mapping sym c false none false = .ok lv) (hnz : ∃ x ∈ lv, x ≠ 0) (snr : ℝ) :
    ∃ s t, awgnStd lv snr = some s ∧ 0 < s ∧ t = ((getLevels c false).getD 1 0 - (getLevels c false).getD 0 0) / (2 * s) ∧
      (normalDraws sym.length).real {x | ∃ y, awgn (List.ofFn x) lv snr = some y ∧ recoverSymbols y c (getLevels c false) = .ok sym}
        = ∏ i : Fin sym.length, (1 - gridNeighbours (numLevels c) (sym.getD i 0) * qFunc t) ∧
      ∀ x : Fin sym.length → ℝ, ∃ y out, awgn (List.ofFn x) lv snr = some y ∧ recoverSymbols y c (getLevels c false) = .ok out ∧
        out.length = sym.length := by
  obtain ⟨s, t, h3, hs0, ht, -, -, hall⟩ := C94_slicer c false sym hs h2 lv hlv hnz snr
  obtain ⟨s1, -, -, h4⟩ := noisy_symbols c false sym hs h2 lv hlv hnz snr
  have hlen : (getLevels c false).length = numLevels c := by rw [getLevels_length, numLevels_eq]
  have hlv0 : (getLevels c false).length ≠ 0 := by have := numLevels_ge c; omega
  have hne : getLevels c false ≠ [] := fun h => hlv0 (by rw [h]; rfl)
  have hll : lv = sym.map fun x => (getLevels c false).getD x.toNat 0 := by
    rw [mapping_values c false sym hs] at hlv
    cases hlv; rfl
  have key : ∀ y : List ℝ, y.length = sym.length → ∃ js, recoverSymbols y c (getLevels c false) = .ok js ∧ js.length = sym.length ∧
      (js = sym ↔ y.map (sliceOne (getLevels c false)) = lv) := by
    intro y hy
    have hj : ∀ v : ℝ, ∃ j : ℕ, j < numLevels c ∧ sliceOne (getLevels c false) v = (getLevels c false).getD j 0 := by
      intro v
      obtain ⟨j, hj, e⟩ := List.mem_iff_getElem.1 (sliceOne_mem (getLevels c false) hne v)
      exact ⟨j, by omega, by rw [List.getD_eq_getElem _ 0 hj, e]⟩
    choose f hf1 hf2 using hj
    have hjs : ∀ x ∈ y.map (fun v => (f v : ℤ)), 0 ≤ x ∧ x < numLevels c := by
      intro x hx
      obtain ⟨v, -, rfl⟩ := List.mem_map.1 hx
      have := hf1 v
      constructor <;> omega
    have hout : y.map (sliceOne (getLevels c false)) = (y.map fun v => (f v : ℤ)).map fun x => (getLevels c false).getD x.toNat 0 := by
      rw [List.map_map]
      exact List.map_congr_left fun v _ => by simp [hf2 v]
    have hback : ∀ js : List Int, (∀ x ∈ js, 0 ≤ x ∧ x < numLevels c) →
        (demapping (js.map fun x => (getLevels c false).getD x.toNat 0) c false false).1 = .ok js := by
      intro js h
      obtain ⟨l, e1, -, e2⟩ := C17_mapping_roundtrip c false false js h
      rw [mapping_values c false js h] at e1
      cases e1
      exact e2
    refine ⟨y.map fun v => (f v : ℤ), ?_, by simp [hy], ?_⟩
    · unfold recoverSymbols
      simp only [slicer, Option.getD_some, hlv0, if_false, bind, Except.bind]
      rw [hout]
      exact hback _ hjs
    · constructor
      · intro h; rw [hout, h, hll]
      · intro h
        have e1 := hback _ hjs
        rw [← hout, h, hll, hback _ hs] at e1
        cases e1; rfl
  refine ⟨s, t, h3, hs0, ht, ?_, fun x => ?_⟩
  · rw [← hall]
    congr 1
    ext x
    obtain ⟨y, hy1, hy2, hy3⟩ := h4 x
    obtain ⟨js, hj1, hj2, hj3⟩ := key y hy2
    have hslice : slicer (.vec y) (some (getLevels c false)) = .ok (.vec (y.map (sliceOne (getLevels c false)))) := by
      simp [slicer, hlv0]
    simp only [Set.mem_setOf_eq]
    have hl : lv.length = sym.length := by rw [hll, List.length_map]
    constructor
    · rintro ⟨y', e1, e2⟩ i
      rw [hy1] at e1
      obtain rfl := Option.some.inj e1
      rw [hj1] at e2
      have e3 : js = sym := by cases e2; rfl
      exact ⟨y, _, hy1, hslice, by rw [hj3.1 e3]⟩
    · intro h
      refine ⟨y, hy1, ?_⟩
      rw [hj1]
      refine congrArg Except.ok (hj3.2 (List.ext_getElem (by simp [hy2, hl]) fun i h5 h6 => ?_))
      obtain ⟨y', out, e1, e2, e3⟩ := h ⟨i, by omega⟩
      rw [hy1] at e1
      obtain rfl := Option.some.inj e1
      rw [hslice] at e2
      cases e2
      rw [← List.getD_eq_getElem _ 0 h5, ← List.getD_eq_getElem _ 0 h6]
      exact e3
  · obtain ⟨y, hy1, hy2, -⟩ := h4 x
    obtain ⟨js, hj1, hj2, -⟩ := key y hy2
    exact ⟨y, js, hy1, hj1, hj2⟩

/-! ### instances -/

example : (∀ x ∈ ([0, 3, 1, 2] : List Int), 0 ≤ x ∧ x < numLevels .pam4) ∧
    (∀ k : ℕ, k < numLevels .pam4 → numLevels .pam4 * ([0, 3, 1, 2] : List Int).count (k : ℤ) = ([0, 3, 1, 2] : List Int).length) ∧
    ∃ lv, mapping [0, 3, 1, 2] .pam4 false none false = .ok lv ∧ ∃ x ∈ lv, x ≠ 0 := by
  refine ⟨by decide, by decide, [-3, 3, -1, 1], ?_, 3, by simp, by norm_num⟩
  simp only [mapping, Bool.false_eq_true, if_false, C18_levels_pam4]
  rfl

/-- NRZ at 0 dB with two opposite symbols: `awgn` uses the variance 2 -/
example : ∃ t, t = 1 / Real.sqrt 2 ∧ ∀ i : Fin 2, (normalDraws 2).real {x | SliceWrong .nrz false [-1, 1] 0 (List.ofFn x) i} = qFunc t := by
  have hl : getLevels .nrz false = [-1, 1] := by simp [getLevels, intLevels]
  obtain ⟨s, t, h3, -, ht, hw, -, -⟩ := C94_slicer .nrz false [0, 1] (by decide) (by decide) [-1, 1]
    (by simp only [mapping, Bool.false_eq_true, if_false, hl]; rfl) ⟨1, by simp, by norm_num⟩ 0
  have hs : s = Real.sqrt 2 := by
    rw [awgnStd, sigPowerHat, if_neg (by simp)] at h3
    have := Option.some.inj h3
    rw [← this]
    norm_num
  refine ⟨t, ?_, fun i => ?_⟩
  · rw [ht, hs, hl]
    norm_num
    field_simp
  · have h5 : gridNeighbours (numLevels .nrz) (([0, 1] : List Int).getD i 0) = 1 := by
      have : ∀ j : Fin 2, gridNeighbours (numLevels .nrz) (([0, 1] : List Int).getD j 0) = 1 := by decide
      exact this i
    have := hw i
    rw [h5, Nat.cast_one, one_mul] at this
    exact this

end Verif
