import Verif.Model.LockTests
import Verif.Lemmas.PrbsData
import Verif.Props.Checker
import Verif.Lemmas.Delay
import Mathlib.Tactic.Linarith
import Mathlib.Tactic.NormNum

/-! Phases of PRBS windows, for the tests of the pattern lock. -/

namespace Verif
open Spec Finset

/-- a rotation moves the correlation -/
theorem corr_rotate (base v : List Int) (hb : 0 < base.length) (shift k : ℕ) :
    corr (base.rotate shift) v k = corr base v (shift + k) := by
  unfold corr
  rw [List.length_rotate]
  apply sum_congr rfl
  intro i _
  have := stream_rotate base shift ((k + i) % base.length) (Nat.mod_lt _ hb)
  unfold stream at this
  rw [this, Nat.add_mod_mod, Nat.add_assoc]

/-- if phase 0 is strictly best, the lock finds the shift -/
theorem lock_argmax (base v : List Int) (hb : 0 < base.length) (hv : v.length ≤ base.length)
    (hs : ∀ k, 0 < k → k < base.length → corr base v k < corr base v 0) (shift : ℕ) (hshift : shift < base.length) :
    argmax (correlateValid (tile (base.rotate shift) 2) v) = (base.length - shift) % base.length := by
  obtain ⟨h1, h2⟩ := lock_core (base.rotate shift) v (by simpa using hb) (by simpa using hv)
  rw [List.length_rotate] at h1
  generalize argmax (correlateValid (tile (base.rotate shift) 2) v) = s at *
  have h3 := h2 (base.length - shift)
  rw [corr_rotate _ _ hb, corr_rotate _ _ hb, show shift + (base.length - shift) = base.length by omega] at h3
  have e0 : corr base v base.length = corr base v 0 := by
    have := corr_mod base v base.length
    rw [Nat.mod_self] at this
    exact this.symm
  rw [e0, ← corr_mod base v (shift + s)] at h3
  have hz : (shift + s) % base.length = 0 := by
    by_contra hne
    have := hs _ (Nat.pos_of_ne_zero hne) (Nat.mod_lt _ hb)
    omega
  rcases Nat.eq_zero_or_pos shift with h0 | h0
  · subst h0
    rw [Nat.zero_add, Nat.mod_eq_of_lt h1] at hz
    rw [hz, Nat.sub_zero, Nat.mod_self]
  · rw [Nat.mod_eq_of_lt (by omega : base.length - shift < base.length)]
    have h4 : shift + s < 2 * base.length := by omega
    rcases Nat.lt_or_ge (shift + s) base.length with h5 | h5
    · rw [Nat.mod_eq_of_lt h5] at hz
      omega
    · rw [Nat.mod_eq_sub_mod h5, Nat.mod_eq_of_lt (by omega)] at hz
      omega

theorem drop_take_rotate (base : List Int) (shift : ℕ) (h : shift ≤ base.length) :
    base.drop shift ++ base.take shift = base.rotate shift := (List.rotate_eq_drop_append_take h).symm

theorem lockRef_rotate (base : List Int) (shift : ℕ) (h : shift < base.length) :
    lockRef (base.rotate shift) shift = base := by
  unfold lockRef
  split
  · rename_i h0
    rw [h0, List.rotate_zero]
  · unfold lastN
    rw [List.length_rotate, drop_take_rotate _ _ (by rw [List.length_rotate]; omega), List.rotate_rotate,
      show shift + (base.length - shift) = base.length by omega, List.rotate_length]

theorem rotate_back (base : List Int) (shift : ℕ) (h : shift < base.length) :
    (base.rotate shift).rotate ((base.length - shift) % base.length) = base := by
  rw [List.rotate_rotate]
  rcases Nat.eq_zero_or_pos shift with h0 | h0
  · subst h0
    rw [Nat.sub_zero, Nat.mod_self, List.rotate_zero]
  · rw [Nat.mod_eq_of_lt (by omega), show shift + (base.length - shift) = base.length by omega, List.rotate_length]

/-- both test functions, given strictly best phases -/
theorem lockTest_eq (base sig : List Int) (hb : 0 < base.length) (hsig : 0 < sig.length)
    (hs : ∀ k, 0 < k → k < base.length →
      corr base (sig.take (min base.length sig.length)) k < corr base (sig.take (min base.length sig.length)) 0)
    (shift : ℕ) (h : shift < base.length) :
    lockTest (base.rotate shift) sig shift = .ok (decide (shift ≠ 0)) := by
  have ha := lock_argmax base _ hb (by simp) hs shift h
  unfold lockTest lockTestOf lockPattern
  rw [if_neg (by rw [List.length_rotate]; omega)]
  simp only [bind, Except.bind, pure, Except.pure, List.length_rotate]
  rw [ha]
  have hsl := tile_slice (base.rotate shift) ((base.length - shift) % base.length)
    (by rw [List.length_rotate]; exact Nat.mod_lt _ hb)
  rw [List.length_rotate] at hsl
  rw [hsl, rotate_back _ _ h, lockRef_rotate _ _ h, beq_self_eq_true, Bool.true_and]
  congr 1
  rw [Bool.eq_iff_iff, beq_iff_eq, decide_eq_true_eq]
  constructor
  · rintro he rfl
    rw [Nat.sub_zero, Nat.mod_self] at he
    have he' : (base.length : Int) = 0 := by simpa using he
    omega
  · intro h0
    rw [Nat.mod_eq_of_lt (by omega)]
    omega

theorem lockTest_zero (pat sig : List Int) (hb : 0 < pat.length) (hsig : 0 < sig.length) :
    lockTest pat sig 0 = .ok false := by
  unfold lockTest lockTestOf lockPattern
  rw [if_neg (by omega)]
  simp only [bind, Except.bind, pure, Except.pure]
  obtain ⟨h1, -⟩ := lock_core pat (sig.take (min pat.length sig.length)) hb (by simp)
  congr 1
  rw [Bool.and_eq_false_iff]
  right
  rw [beq_eq_false_iff_ne]
  intro h
  have h2 : (pat.length : Int) = (argmax (correlateValid (tile pat 2) (sig.take (min pat.length sig.length))) : ℕ) := by
    simpa using h
  omega

theorem lockBinaryTest_eq (base sig : List Int) (hb : 0 < base.length) (hsig : 0 < sig.length)
    (hs : ∀ k, 0 < k → k < base.length →
      corr (base.map (fun x => x * 2 - 1)) ((sig.take (min base.length sig.length)).map (fun x => x * 2 - 1)) k
        < corr (base.map (fun x => x * 2 - 1)) ((sig.take (min base.length sig.length)).map (fun x => x * 2 - 1)) 0)
    (shift : ℕ) (h : shift < base.length) :
    lockBinaryTest (base.rotate shift) sig shift = .ok true := by
  have ha := lock_argmax (base.map (fun x => x * 2 - 1))
    ((sig.take (min base.length sig.length)).map (fun x => x * 2 - 1)) (by simpa using hb) (by simp)
    (by rw [List.length_map]; exact hs) shift (by simpa using h)
  rw [← List.map_rotate, List.length_map] at ha
  unfold lockBinaryTest lockBinaryTestOf lockPatternBinary
  rw [if_neg (by rw [List.length_rotate]; omega)]
  simp only [bind, Except.bind, pure, Except.pure, List.length_rotate, tile_map]
  rw [ha]
  have hsl := tile_slice (base.rotate shift) ((base.length - shift) % base.length)
    (by rw [List.length_rotate]; exact Nat.mod_lt _ hb)
  rw [List.length_rotate] at hsl
  rw [hsl, rotate_back _ _ h, lockRef_rotate _ _ h, beq_self_eq_true, Bool.true_and]
  congr 1
  rw [beq_iff_eq]
  push_cast
  rw [Nat.cast_sub h.le]

/-! ### windows of a PRBS -/

/-- a walk over the period: counts disjoint segments in each of which every other phase misses a one -/
def segWalk (mask : ℕ) : ℕ → ℕ → ℕ → ℕ → ℕ
  | 0, _, _, cnt => cnt
  | fuel + 1, T, X, cnt =>
    if T % 2 = 1 then
      if X &&& T &&& mask = 1 then segWalk mask fuel (T >>> 1) mask (cnt + 1)
      else segWalk mask fuel (T >>> 1) (X &&& T &&& mask) cnt
    else segWalk mask fuel (T >>> 1) X cnt

def segCount (N M S : ℕ) : ℕ := segWalk (2 ^ N - 1) M (S + S * 2 ^ N) (2 ^ N - 1) 0

theorem segWalk_sound (N k : ℕ) (hk0 : 0 < k) (hk : k < N) (fuel T X cnt miss : ℕ)
    (h : cnt + (if X.testBit k then 0 else 1) ≤ miss) :
    segWalk (2 ^ N - 1) fuel T X cnt
      ≤ miss + ∑ i ∈ range fuel, if T.testBit i = true ∧ T.testBit (i + k) = false then 1 else 0 := by
  induction fuel generalizing T X cnt miss with
  | zero =>
    unfold segWalk
    simp
    omega
  | succ fuel ih =>
    have hm : (2 ^ N - 1).testBit k = true := by
      rw [Nat.testBit_two_pow_sub_one]
      simpa using hk
    have hsh : ∀ j, (T >>> 1).testBit j = T.testBit (j + 1) := by
      intro j
      rw [Nat.testBit_shiftRight, Nat.add_comm]
    have hb0 : T.testBit 0 = decide (T % 2 = 1) := Nat.testBit_zero T
    have hand : (X &&& T &&& (2 ^ N - 1)).testBit k = (X.testBit k && T.testBit k) := by
      rw [Nat.testBit_land, Nat.testBit_land, hm, Bool.and_true]
    rw [sum_range_succ']
    unfold segWalk
    have hsum : ∑ i ∈ range fuel, (if T.testBit (i + 1) = true ∧ T.testBit (i + 1 + k) = false then 1 else 0)
        = ∑ i ∈ range fuel, if (T >>> 1).testBit i = true ∧ (T >>> 1).testBit (i + k) = false then 1 else 0 := by
      apply sum_congr rfl
      intro i _
      rw [hsh, hsh, show i + k + 1 = i + 1 + k by omega]
    rw [hsum, Nat.zero_add]
    by_cases hT : T % 2 = 1
    · rw [if_pos hT]
      rw [hb0]
      simp only [hT, decide_true, true_and]
      by_cases h1 : X &&& T &&& (2 ^ N - 1) = 1
      · rw [if_pos h1]
        have hk1 : (X.testBit k && T.testBit k) = false := by
          rw [← hand, h1]
          exact Nat.testBit_lt_two_pow (Nat.one_lt_two_pow (by omega))
        have := ih (T >>> 1) (2 ^ N - 1) (cnt + 1) (miss + if T.testBit k = false then 1 else 0) (by
          rw [hm]
          simp only [if_true, Nat.add_zero]
          cases hX : X.testBit k
          · rw [hX] at h
            simp at h
            omega
          · rw [hX, Bool.true_and] at hk1
            rw [hX] at h
            rw [if_pos hk1]
            simp at h
            omega)
        omega
      · rw [if_neg h1]
        have := ih (T >>> 1) (X &&& T &&& (2 ^ N - 1)) cnt (miss + if T.testBit k = false then 1 else 0) (by
          rw [hand]
          cases hX : X.testBit k <;> cases hTk : T.testBit k <;> rw [hX] at h <;> simp at h ⊢ <;> omega)
        omega
    · rw [if_neg hT, hb0]
      have := ih (T >>> 1) X cnt miss h
      simp only [hT, decide_false, Bool.false_eq_true, false_and, if_false, Nat.add_zero]
      exact this

theorem segCount_sound (N M S k : ℕ) (hk0 : 0 < k) (hk : k < N) :
    segCount N M S ≤ ∑ i ∈ range M, if (S + S * 2 ^ N).testBit i = true ∧ (S + S * 2 ^ N).testBit (i + k) = false
      then 1 else 0 := by
  have := segWalk_sound N k hk0 hk M (S + S * 2 ^ N) (2 ^ N - 1) 0 0 (by
    have : (2 ^ N - 1).testBit k = true := by
      rw [Nat.testBit_two_pow_sub_one]
      simpa using hk
    rw [this]
    simp)
  unfold segCount
  omega

end Verif
