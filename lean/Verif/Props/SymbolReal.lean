import Verif.Lemmas.SymbolReal

/-! C14: the tolerance of `np.isclose` in `bin2symbol`. -/

namespace Verif

/-- **C14**, the power-of-two test in real arithmetic. For every symbol count up to 16384 the test
`np.isclose(log2 m, int(log2 m))` accepts exactly the powers of two; every power of two of any size
is accepted. -/
theorem C14_tolerance (m : ℕ) (hm : 1 ≤ m) :
    (m ≤ 16384 → (npIsclose (Real.logb 2 m) ⌊Real.logb 2 (m : ℝ)⌋₊ ↔ ∃ b, m = 2 ^ b)) ∧
      ∀ b, m = 2 ^ b → npIsclose (Real.logb 2 m) ⌊Real.logb 2 (m : ℝ)⌋₊ := by
  have hp : ∀ b, m = 2 ^ b → npIsclose (Real.logb 2 m) ⌊Real.logb 2 (m : ℝ)⌋₊ := by
    rintro b rfl
    rw [logb_two_pow, Nat.floor_natCast]
    exact npIsclose_refl _
  refine ⟨fun hle => ⟨fun hc => ?_, fun ⟨b, hb⟩ => hp b hb⟩, hp⟩
  have h1 := Nat.log2_self_le (show m ≠ 0 by omega)
  have h2 : m < 2 ^ (Nat.log2 m + 1) := Nat.lt_log2_self
  rw [floor_logb h1 h2] at hc
  rcases Nat.lt_or_eq_of_le h1 with hlt | he
  · have hk : Nat.log2 m < 14 := by
      by_contra hcon
      have : 2 ^ 14 ≤ 2 ^ Nat.log2 m := Nat.pow_le_pow_right (by norm_num) (by omega)
      omega
    exact absurd hc (not_isclose_between hlt (by omega))
  · exact ⟨_, he.symm⟩

/-- **C14.** For every symbol count up to 16384 and every power of two, the function with the real
logarithm, the float remainder and the tolerance equals the exact integer function about which
`C12_*`, `C13_*` and `C14_*` speak: same symbols, same exceptions, for all bits and flags. -/
theorem C14_real_arithmetic (bits : List Int) (m : ℕ) (f : SymFlags)
    (hm : m ≤ 16384 ∨ ∃ b, m = 2 ^ b) : bin2symbolReal bits m f = bin2symbol bits m f := by
  by_cases h0 : m = 0
  · subst h0
    unfold bin2symbolReal bin2symbol
    rw [if_pos rfl]
    by_cases hb : bits.length > 0
    · rw [if_pos hb, if_pos ⟨rfl, hb⟩]
    · rw [if_neg hb, if_neg (by tauto)]; rfl
  by_cases h1 : m = 1
  · subst h1
    unfold bin2symbolReal bin2symbol
    rw [if_neg (by omega), if_pos rfl, if_neg (by omega)]
    rfl
  by_cases hp : ∃ b, m = 2 ^ b
  · obtain ⟨b, rfl⟩ := hp
    have hb1 : 1 ≤ b := by
      rcases Nat.eq_zero_or_pos b with rfl | h
      · exact absurd rfl h1
      · exact h
    rcases Nat.lt_or_ge 1 b with hb | hb
    · have h2 := two_lt_two_pow hb
      unfold bin2symbolReal bin2symbol
      rw [if_neg h0, if_neg h1,
        if_neg (show ¬ (2 ^ b = 0 ∧ bits.length > 0) from fun h => h0 h.1), pow2Exp_pow,
        logb_two_pow]
      simp only [floatMod_nat, Nat.floor_natCast]
      rw [if_pos ⟨h2, by rw [Nat.floor_natCast]; exact npIsclose_refl _⟩, if_pos h2, if_pos]
      split
      · exact take_mod_length bits b
      · omega
    · have : b = 1 := by omega
      subst this
      unfold bin2symbolReal
      rw [if_neg h0, if_neg h1]
      simp only [pow_one, gt_iff_lt, lt_irrefl, false_and, if_false, if_true]
      exact (bin2symbol_two bits f).symm
  · have hle : m ≤ 16384 := by tauto
    have hc := ((C14_tolerance m (by omega)).1 hle).not.2 hp
    unfold bin2symbolReal bin2symbol
    rw [if_neg h0, if_neg h1, if_neg (show ¬ (m = 0 ∧ bits.length > 0) from fun h => h0 h.1),
      pow2Exp_none (fun b hb => hp ⟨b, hb⟩)]
    simp only
    rw [if_neg (fun h => hc h.2), if_neg]
    rintro rfl
    exact hp ⟨1, rfl⟩

/-- the hypothesis of `C14_real_arithmetic` holds for a rejected and for an accepted count -/
example : bin2symbolReal [1, 0, 1] 3 {} = .error .valueError ∧
    bin2symbolReal [1, 1, 0, 0, 1, 1, 1] 8 {} = .ok [3, 6] := by
  rw [C14_real_arithmetic _ _ _ (.inl (by norm_num)), C14_real_arithmetic _ _ _ (.inl (by norm_num))]
  decide

/-- **C14**, the rejection claim fails beyond 16384: 16385 is not a power of two, yet 14 bits are
accepted without an exception (and give no symbol at all, although 14 bits fill one symbol). -/
theorem C14_negative_tolerance (f : SymFlags) :
    (∀ b, 16385 ≠ 2 ^ b) ∧ bin2symbolReal (List.replicate 14 1) 16385 f = .ok [] := by
  constructor
  · intro b hb
    rcases Nat.lt_or_ge b 15 with h | h
    · interval_cases b <;> omega
    · have : 2 ^ 15 ≤ 2 ^ b := Nat.pow_le_pow_right (by norm_num) h
      omega
  · obtain ⟨h1, h2⟩ := logb_16385
    have hfl : ⌊Real.logb 2 ((16385 : ℕ) : ℝ)⌋₊ = 14 := floor_logb (by norm_num) (by norm_num)
    have hmod : floatMod ((14 : ℕ) : ℝ) (Real.logb 2 ((16385 : ℕ) : ℝ)) = ((14 : ℕ) : ℝ) := by
      unfold floatMod
      have : ⌊((14 : ℕ) : ℝ) / Real.logb 2 ((16385 : ℕ) : ℝ)⌋ = 0 := by
        rw [Int.floor_eq_zero_iff]
        push_cast
        constructor
        · positivity
        · rw [div_lt_one (by linarith)]; exact h1
      rw [this]; simp
    unfold bin2symbolReal
    rw [if_neg (by omega), if_neg (by omega)]
    simp only []
    rw [hfl, List.length_replicate, hmod, Nat.floor_natCast]
    rw [if_pos ⟨by norm_num, by exact_mod_cast isclose_16385⟩]
    rfl

end Verif
