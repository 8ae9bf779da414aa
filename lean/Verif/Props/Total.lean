import Verif.Lemmas.RoundedFilter
import Verif.Props.Mapping
import Verif.Model.Filter

/-!
# Demapping of every sample (C18) and the rounding of the convolutional coder (C34)
-/

namespace Verif

theorem roundHalfEven_spec (x : ℝ) : roundHalfEven x = Spec.roundHalfEven x := by
  have e : x - ⌊x⌋ = Int.fract x := rfl
  simp only [roundHalfEven, Spec.roundHalfEven, e, Int.even_iff]

theorem npGet_wrap (L : ℕ) (k : ℤ) (h1 : -(L : ℤ) ≤ k) (h2 : k < L) :
    npGet ((List.range L).map (fun (i : Nat) => (i : Int))) k = .ok (k % L) := by
  rcases Int.le_total 0 k with h | h
  · obtain ⟨n, rfl⟩ := Int.eq_ofNat_of_zero_le h
    rw [npGet_arange _ _ (by exact_mod_cast h2), Int.emod_eq_of_lt h h2]
  · rcases eq_or_lt_of_le h with h0 | h0
    · subst h0
      have := npGet_arange L 0 (by exact_mod_cast h2)
      simpa using this
    · obtain ⟨n, hn⟩ : ∃ n : ℕ, (L : ℤ) + k = n := Int.eq_ofNat_of_zero_le (by omega)
      have hm : k % L = n := by
        rw [← hn, ← Int.add_emod_left, Int.emod_eq_of_lt (by omega) (by omega)]
      have hnL : n < L := by omega
      unfold npGet
      rw [if_neg (by omega), if_pos (by simp; omega), List.length_map, List.length_range, hn, hm]
      simp [hnL]

/-- **C18.** The decision for *every* sample: its position on the level grid, rounded to the nearest integer with ties to the
even one, is the symbol; positions below the grid count from its end, as long as they are not more than one constellation
away, and all other samples raise IndexError. -/
theorem C18_total (c : Constellation) (fs pn : Bool) (sig : List ℝ) (k : ℝ → ℤ)
    (hk : ∀ s, k s = Spec.roundHalfEven (((if pn then -s else s) - (getLevels c fs).getD 0 0)
      / ((getLevels c fs).getD 1 0 - (getLevels c fs).getD 0 0))) :
    ((∀ s ∈ sig, -(numLevels c : ℤ) ≤ k s ∧ k s < numLevels c) →
      (demapping sig c fs pn).1 = .ok (sig.map fun s => k s % numLevels c)) ∧
    ((∃ s ∈ sig, k s < -(numLevels c : ℤ) ∨ (numLevels c : ℤ) ≤ k s) →
      (demapping sig c fs pn).1 = .error .indexError) := by
  have hL : (getLevels c fs).length = numLevels c := (C19_levels c fs).1
  have hidx : (if pn then sig.map (fun x => x * -1) else sig).map (demapIdx (getLevels c fs)) = sig.map k := by
    cases pn with
    | false =>
      simp only [Bool.false_eq_true, if_false]
      refine List.map_congr_left fun s _ => ?_
      rw [hk, demapIdx_pos, roundHalfEven_spec]; rfl
    | true =>
      simp only [if_true, List.map_map]
      refine List.map_congr_left fun s _ => ?_
      rw [hk, Function.comp, demapIdx_pos, roundHalfEven_spec, levelPos, mul_neg_one]; rfl
  simp only [demapping]
  rw [hidx, hL]
  constructor
  · intro h
    rw [npTake_ok _ _ (fun x => x % numLevels c), List.map_map]
    · rfl
    · intro x hx
      obtain ⟨s, hs, rfl⟩ := List.mem_map.1 hx
      exact npGet_wrap _ _ (h s hs).1 (h s hs).2
  · rintro ⟨s, hs, h⟩
    refine npTake_error _ _ ⟨k s, List.mem_map.2 ⟨s, hs, rfl⟩, ?_⟩
    unfold npGet
    rcases h with h | h
    · have : (0 : ℤ) ≤ numLevels c := by positivity
      rw [if_neg (by omega), if_neg (by simp; omega)]
    · rw [if_pos (by omega), List.getElem?_eq_none (by simp; omega)]

/-- exactly midway between two levels the even symbol is taken; one constellation below, the symbols repeat -/
example : (demapping [0, -2, -7] .pam4 false false).1 = .ok [2, 0, 2] := by
  have hr : ∀ (x : ℝ) (n : ℤ), x = n + 1 / 2 → Spec.roundHalfEven x = if Even n then n else n + 1 := by
    intro x n h
    have hf : ⌊x⌋ = n := by rw [Int.floor_eq_iff, h]; constructor <;> linarith
    have hq : Int.fract x = 1 / 2 := by rw [Int.fract, hf, h]; ring
    rw [Spec.roundHalfEven, hf, hq, if_neg (lt_irrefl _), if_neg (lt_irrefl _)]
  have k0 := hr (((if false then -0 else 0) - (getLevels .pam4 false).getD 0 0)
      / ((getLevels .pam4 false).getD 1 0 - (getLevels .pam4 false).getD 0 0)) 1 (by rw [C18_levels_pam4]; norm_num)
  have k1 := hr (((if false then -(-2) else -2) - (getLevels .pam4 false).getD 0 0)
      / ((getLevels .pam4 false).getD 1 0 - (getLevels .pam4 false).getD 0 0)) 0 (by rw [C18_levels_pam4]; norm_num)
  have k2 : Spec.roundHalfEven (((if false then -(-7) else -7) - (getLevels .pam4 false).getD 0 0)
      / ((getLevels .pam4 false).getD 1 0 - (getLevels .pam4 false).getD 0 0)) = -2 :=
    specRound_of_abs _ _ (by rw [C18_levels_pam4]; norm_num)
  have n1 : ¬ Even (1 : ℤ) := by decide
  have n0 : Even (0 : ℤ) := by decide
  rw [if_neg n1] at k0
  rw [if_pos n0] at k1
  rw [(C18_total .pam4 false false [0, -2, -7] _ fun _ => rfl).1]
  · simp only [List.map_cons, List.map_nil, k0, k1, k2]; rfl
  · intro s hs
    simp only [List.mem_cons, List.not_mem_nil, or_false] at hs
    rcases hs with rfl | rfl | rfl
    · rw [k0]; decide
    · rw [k1]; decide
    · rw [k2]; decide

/-! ### the rounding used by the model of the convolutional coder -/

theorem rnd53_nat (a : ℕ) (h : 2 ^ 53 ≤ a) :
    Spec.fl 53 (a : ℝ) = (((if 2 * (a % 2 ^ (a.log2 - 52)) < 2 ^ (a.log2 - 52) then a / 2 ^ (a.log2 - 52)
      else if 2 ^ (a.log2 - 52) < 2 * (a % 2 ^ (a.log2 - 52)) then a / 2 ^ (a.log2 - 52) + 1
      else a / 2 ^ (a.log2 - 52) + a / 2 ^ (a.log2 - 52) % 2) * 2 ^ (a.log2 - 52) : ℕ) : ℝ) := by
  have hL : 53 ≤ a.log2 := by
    rw [Nat.log2_eq_log_two]
    exact (Nat.le_log_iff_pow_le (by norm_num) (by omega)).2 h
  have hu : Spec.ulp 53 (a : ℝ) = ((2 ^ (a.log2 - 52) : ℕ) : ℝ) := by
    rw [Spec.ulp, abs_of_nonneg (by positivity), Int.log_natCast, ← Nat.log2_eq_log_two]
    have : (a.log2 : ℤ) + 1 - (53 : ℕ) = ((a.log2 - 52 : ℕ) : ℤ) := by omega
    rw [this, zpow_natCast]
    push_cast
    rfl
  have hE : 0 < 2 ^ (a.log2 - 52) := Nat.pow_pos (by norm_num)
  rw [Spec.fl, hu]
  generalize 2 ^ (a.log2 - 52) = E at hE
  have hE' : (0 : ℝ) < E := by exact_mod_cast hE
  have hdm : a = E * (a / E) + a % E := (Nat.div_add_mod a E).symm
  have hrE : a % E < E := Nat.mod_lt _ hE
  generalize a / E = q at hdm ⊢
  generalize a % E = r at hdm hrE ⊢
  have hrE' : (r : ℝ) < E := by exact_mod_cast hrE
  have hr0 : (0 : ℝ) ≤ r := by positivity
  have hd : (a : ℝ) / E = q + (r : ℝ) / E := by rw [hdm]; push_cast; field_simp
  have hf : ⌊(a : ℝ) / E⌋ = ((q : ℕ) : ℤ) := by
    rw [Int.floor_eq_iff, hd]
    have h1 : 0 ≤ (r : ℝ) / E := by positivity
    have h2 : (r : ℝ) / E < 1 := by rw [div_lt_one hE']; exact hrE'
    constructor <;> push_cast <;> linarith
  have hq : Int.fract ((a : ℝ) / E) = (r : ℝ) / E := by
    rw [Int.fract, hf, hd]
    push_cast
    ring
  rw [Spec.roundHalfEven, hf, hq]
  have c1 : (r : ℝ) / E < 1 / 2 ↔ 2 * r < E := by
    rw [div_lt_div_iff₀ hE' (by norm_num)]
    constructor
    · intro h; exact_mod_cast (by linarith : (2 : ℝ) * r < E)
    · intro h; have : (2 : ℝ) * r < E := by exact_mod_cast h
      linarith
  have c2 : 1 / 2 < (r : ℝ) / E ↔ E < 2 * r := by
    rw [div_lt_div_iff₀ (by norm_num) hE']
    constructor
    · intro h; exact_mod_cast (by linarith : (E : ℝ) < 2 * r)
    · intro h; have : (E : ℝ) < 2 * r := by exact_mod_cast h
      linarith
  simp only [c1, c2]
  split_ifs with h1 h2 h3
  · push_cast; ring
  · push_cast; ring
  · have : q % 2 = 0 := by
      rw [Int.even_iff] at h3; omega
    rw [this]; push_cast; ring
  · have : q % 2 = 1 := by
      rw [Int.even_iff] at h3; omega
    rw [this]; push_cast; ring

/-- **C34.** The rounding `rnd53` of the integer model is the rounding to double precision, for every integer. -/
theorem C34_double_rounding (n : ℤ) : ((rnd53 n : ℤ) : ℝ) = Spec.fl 53 (n : ℝ) := by
  by_cases h : n.natAbs < 2 ^ 53
  · have h' : |n| < 2 ^ 53 := by rw [Int.abs_eq_natAbs]; exact_mod_cast h
    have e := fl_exact 53 n 0 h'
    rw [zpow_zero, mul_one] at e
    rw [e, rnd53, if_pos h]
  · rw [rnd53, if_neg h]
    have key := rnd53_nat n.natAbs (by omega)
    simp only []
    rw [Int.cast_mul, Int.cast_natCast, ← key]
    rcases Int.natAbs_eq n with e | e
    · have hs : n.sign = 1 := Int.sign_eq_one_of_pos (by omega)
      rw [hs, Int.cast_one, one_mul]
      conv_rhs => rw [e, Int.cast_natCast]
    · have hs : n.sign = -1 := Int.sign_eq_neg_one_of_neg (by omega)
      rw [hs]
      conv_rhs => rw [e, Int.cast_neg, Int.cast_natCast, fl_neg]
      push_cast
      ring

/-- a tie: `2^54 + 2` lies midway between two doubles and is rounded to the one with even mantissa -/
example : rnd53 (2 ^ 54 + 2) = 2 ^ 54 ∧ rnd53 (-(2 ^ 54 + 6)) = -(2 ^ 54 + 8) := by decide +kernel

end Verif
