import Verif.Lemmas.FfeWitness
import Verif.Props.EqTestsNeg

/-! The training of the FFE on the record of the witness: taps stay in a box, the slowest direction shrinks by a fixed factor. -/

open Finset

namespace Verif
open Spec (BestPhase)

/-- slowest direction of the tap error -/
noncomputable def ffeG0 (a b c d : ℝ) : ℝ := (-4795036091) * a + 10000000000 * b + (-9940933488) * c + 4726725412 * d

/-- second direction of the tap error -/
noncomputable def ffeG1 (a b c d : ℝ) : ℝ := (-9998660980) * a + 9722114321 * b + 9708923299 * c + (-10000000000) * d

/-- third direction of the tap error -/
noncomputable def ffeG2 (a b c d : ℝ) : ℝ := 10000000000 * a + 4740940734 * b + (-4764579689) * c + (-9906849737) * d

/-- fastest direction of the tap error -/
noncomputable def ffeG3 (a b c d : ℝ) : ℝ := 9738500436 * a + 10000000000 * b + 9977698365 * c + 9671803209 * d

/-- the factor by which the slowest direction shrinks -/
noncomputable def ffeRho : ℝ := 1 - 733157677 / 20000000000000

/-- what is known of the tap error after `k` passes -/
def FfeInv (k : ℕ) (a b c d : ℝ) : Prop :=
  (-k ≤ ffeG0 a b c d ∧ ffeG0 a b c d ≤ 11811673628 + k) ∧
  (-k ≤ ffeG1 a b c d ∧ ffeG1 a b c d ≤ 5858493599 + k) ∧
  (-k ≤ ffeG2 a b c d ∧ ffeG2 a b c d ≤ 5285798234 + k) ∧
  (-k ≤ ffeG3 a b c d ∧ ffeG3 a b c d ≤ 6567160129 + k) ∧
  ffeRho ^ k * 11811673627 - k ≤ ffeG0 a b c d

theorem ffe_start : FfeInv 0 0 (9 / 10) (-27 / 100) (27 / 1000) := by
  simp only [FfeInv, ffeG0, ffeG1, ffeG2, ffeG3]
  norm_num

theorem ffe_box (k : ℕ) (hk : k ≤ 100000) (a b c d : ℝ) (h : FfeInv k a b c d) : (|a| ≤ 1 ∧ |b| ≤ 1) ∧ (|c| ≤ 1 ∧ |d| ≤ 1) := by
  simp only [FfeInv, ffeG0, ffeG1, ffeG2, ffeG3] at h
  have hk' : (k : ℝ) ≤ 100000 := by exact_mod_cast hk
  obtain ⟨⟨h1, h2⟩, ⟨h3, h4⟩, ⟨h5, h6⟩, ⟨h7, h8⟩, -⟩ := h
  simp only [abs_le]
  refine ⟨⟨⟨?_, ?_⟩, ?_, ?_⟩, ⟨?_, ?_⟩, ?_, ?_⟩ <;> linarith

theorem ffe_step (k : ℕ) (hk : k < 100000) (a b c d p q r s : ℝ) (h : FfeInv k a b c d)
    (hp : |p - (2619601370418 * a + 2450488326005 * b + 2266430029484 * c + 2155964633287 * d) / 10 ^ 12| ≤ 4 / 10 ^ 12)
    (hq : |q - (2460964182032 * a + 2609619100874 * b + 2445647935704 * c + 2266258571182 * d) / 10 ^ 12| ≤ 4 / 10 ^ 12)
    (hr : |r - (2285718842539 * a + 2456149524451 * b + 2609817546837 * c + 2449134965748 * d) / 10 ^ 12| ≤ 4 / 10 ^ 12)
    (hs : |s - (2183767329158 * a + 2285634292019 * b + 2459700722471 * c + 2616732036897 * d) / 10 ^ 12| ≤ 4 / 10 ^ 12) :
    FfeInv (k + 1) (a - p / 2000) (b - q / 2000) (c - r / 2000) (d - s / 2000) := by
  obtain ⟨⟨ha, hb⟩, hc, hd⟩ := ffe_box k hk.le a b c d h
  have hk0 : (0 : ℝ) ≤ k := by positivity
  rw [abs_le] at ha hb hc hd hp hq hr hs
  obtain ⟨ha1, ha2⟩ := ha
  obtain ⟨hb1, hb2⟩ := hb
  obtain ⟨hc1, hc2⟩ := hc
  obtain ⟨hd1, hd2⟩ := hd
  obtain ⟨hp1, hp2⟩ := hp
  obtain ⟨hq1, hq2⟩ := hq
  obtain ⟨hr1, hr2⟩ := hr
  obtain ⟨hs1, hs2⟩ := hs
  obtain ⟨⟨h1, h2⟩, ⟨h3, h4⟩, ⟨h5, h6⟩, ⟨h7, h8⟩, h9⟩ := h
  have hrho : (0 : ℝ) ≤ ffeRho ^ k := by
    refine pow_nonneg ?_ _
    rw [ffeRho]; norm_num
  have e0 : -1 ≤ ffeG0 (a - p / 2000) (b - q / 2000) (c - r / 2000) (d - s / 2000) - (1 - 733157677 / 20000000000000) * ffeG0 a b c d ∧
      ffeG0 (a - p / 2000) (b - q / 2000) (c - r / 2000) (d - s / 2000) - (1 - 733157677 / 20000000000000) * ffeG0 a b c d ≤ 1 := by
    simp only [ffeG0]
    constructor <;> linarith
  have e1 : -1 ≤ ffeG1 (a - p / 2000) (b - q / 2000) (c - r / 2000) (d - s / 2000) - (1 - 1912791382 / 20000000000000) * ffeG1 a b c d ∧
      ffeG1 (a - p / 2000) (b - q / 2000) (c - r / 2000) (d - s / 2000) - (1 - 1912791382 / 20000000000000) * ffeG1 a b c d ≤ 1 := by
    simp only [ffeG1]
    constructor <;> linarith
  have e2 : -1 ≤ ffeG2 (a - p / 2000) (b - q / 2000) (c - r / 2000) (d - s / 2000) - (1 - 5338554676 / 20000000000000) * ffeG2 a b c d ∧
      ffeG2 (a - p / 2000) (b - q / 2000) (c - r / 2000) (d - s / 2000) - (1 - 5338554676 / 20000000000000) * ffeG2 a b c d ≤ 1 := by
    simp only [ffeG2]
    constructor <;> linarith
  have e3 : -1 ≤ ffeG3 (a - p / 2000) (b - q / 2000) (c - r / 2000) (d - s / 2000) - (1 - 96573196816 / 20000000000000) * ffeG3 a b c d ∧
      ffeG3 (a - p / 2000) (b - q / 2000) (c - r / 2000) (d - s / 2000) - (1 - 96573196816 / 20000000000000) * ffeG3 a b c d ≤ 1 := by
    simp only [ffeG3]
    constructor <;> linarith
  simp only [FfeInv]
  rw [pow_succ]
  generalize ffeG0 (a - p / 2000) (b - q / 2000) (c - r / 2000) (d - s / 2000) = G0' at e0 ⊢
  generalize ffeG0 a b c d = G0 at *
  generalize ffeG1 (a - p / 2000) (b - q / 2000) (c - r / 2000) (d - s / 2000) = G1' at e1 ⊢
  generalize ffeG1 a b c d = G1 at *
  generalize ffeG2 (a - p / 2000) (b - q / 2000) (c - r / 2000) (d - s / 2000) = G2' at e2 ⊢
  generalize ffeG2 a b c d = G2 at *
  generalize ffeG3 (a - p / 2000) (b - q / 2000) (c - r / 2000) (d - s / 2000) = G3' at e3 ⊢
  generalize ffeG3 a b c d = G3 at *
  generalize ffeRho ^ k = R at *
  rw [show ffeRho = 1 - 733157677 / 20000000000000 from rfl]
  push_cast
  refine ⟨⟨?_, ?_⟩, ⟨?_, ?_⟩, ⟨?_, ?_⟩, ⟨?_, ?_⟩, ?_⟩ <;> linarith [e0.1, e0.2, e1.1, e1.2, e2.1, e2.2, e3.1, e3.2]

/-- at least 23 parts in a thousand of the slowest direction are left -/
theorem ffeRho_pow (n : ℕ) (hn : n ≤ 1000) (k : ℕ) (hk : k ≤ n * 100) : 23 / 1000 ≤ ffeRho ^ k := by
  have h0 : (0 : ℝ) ≤ ffeRho := by rw [ffeRho]; norm_num
  have h1 : ffeRho ≤ 1 := by rw [ffeRho]; norm_num
  have h2 : 963 / 1000 ≤ ffeRho ^ n := by
    have h3 := one_add_mul_le_pow (show (-2 : ℝ) ≤ ffeRho - 1 by linarith) n
    have hn' : (n : ℝ) ≤ 1000 := by exact_mod_cast hn
    rw [add_sub_cancel] at h3
    refine le_trans ?_ h3
    rw [ffeRho]
    linarith
  calc (23 / 1000 : ℝ) ≤ (963 / 1000) ^ 100 := by norm_num
    _ ≤ (ffeRho ^ n) ^ 100 := pow_le_pow_left₀ (by norm_num) h2 _
    _ = ffeRho ^ (n * 100) := (pow_mul _ _ _).symm
    _ ≤ ffeRho ^ k := pow_le_pow_of_le_one h0 h1 hk

/-- the second tap is never within 1e-2 of the channel -/
theorem ffe_final (k : ℕ) (hk : k ≤ 100000) (a b c d : ℝ) (h : FfeInv k a b c d) : 1 / 100 < b := by
  have hk' : (k : ℝ) ≤ 100000 := by exact_mod_cast hk
  have hpow := ffeRho_pow 1000 le_rfl k hk
  obtain ⟨⟨h1, h2⟩, ⟨h3, h4⟩, ⟨h5, h6⟩, ⟨h7, h8⟩, h9⟩ := h
  generalize ffeRho ^ k = R at *
  simp only [ffeG0, ffeG1, ffeG2, ffeG3] at *
  linarith

theorem natDot_eq (l l' : List ℕ) : natDot l l' = ∑ i ∈ range l.length, l.getD i 0 * l'.getD i 0 := by
  induction l generalizing l' with
  | nil => rfl
  | cons b bs ih =>
    cases l' with
    | nil => simp [natDot]
    | cons v l' => rw [natDot, ih, List.length_cons, sum_range_succ']; simp [add_comm]

theorem natDot_bits (s : ℕ) (hs : s ≤ 127) (l : List ℕ) : natDot ((bits7.drop s).take 127) l = ∑ i ∈ range 127, bit7 (i + s) * l.getD i 0 := by
  have hl : ((bits7.drop s).take 127).length = 127 := by
    rw [List.length_take, List.length_drop, show bits7.length = 254 by decide +kernel]; omega
  rw [natDot_eq, hl]
  refine sum_congr rfl fun i hi => ?_
  rw [mem_range] at hi
  rw [take_getD _ _ _ _ hi, drop_getD, add_comm s i, bits7_eq _ (by omega)]

theorem ffeSelf_eq (s : ℕ) (hs : s ≤ 127) : ffeSelf s = ∑ i ∈ range 127, bit7 (i + s) * bit7 (i + 9) := by
  rw [ffeSelf, natDot_bits s hs]
  refine sum_congr rfl fun i hi => ?_
  rw [mem_range] at hi
  rw [drop_getD, add_comm 9 i, bits7_eq _ (by omega)]

theorem ffeCorr_eq (s : ℕ) (hs : s ≤ 127) (j : ℕ) (hj : j ≤ 9) : ffeCorr s j = ∑ i ∈ range 127, bit7 (i + s) * ffeY (i + 9 - j) := by
  rw [ffeCorr, natDot_bits s hs]
  refine sum_congr rfl fun i _ => ?_
  rw [drop_getD, ffeY, show 9 - j + i = i + 9 - j by omega]

theorem ffeLow_le (q G τ : ℤ) (g : ℝ) (h1 : -(τ : ℝ) ≤ g) (h2 : g ≤ G + τ) : ((ffeLow q G τ : ℤ) : ℝ) ≤ q * g := by
  rw [ffeLow]
  split_ifs with h
  · have : (q : ℝ) ≤ 0 := by exact_mod_cast h
    push_cast
    nlinarith
  · have : (0 : ℝ) ≤ q := by exact_mod_cast (not_le.1 h).le
    push_cast
    nlinarith

theorem natAbs_le_mul (r : ℤ) (f : ℝ) (hf : |f| ≤ 1) : -((r.natAbs : ℤ) : ℝ) ≤ r * f := by
  rw [Int.natCast_natAbs, Int.cast_abs]
  have h1 : |(r : ℝ) * f| ≤ |(r : ℝ)| := by
    rw [abs_mul]; exact mul_le_of_le_one_right (abs_nonneg _) hf
  exact (abs_le.1 h1).1

/-- in the whole box the correlation is largest at phase 9 -/
theorem ffe_margin (base c0 c1 c2 c3 : ℤ) (hm : ffeMargin base c0 c1 c2 c3 = true) (k : ℕ) (hk : k ≤ 100000) (a b c d : ℝ)
    (h : FfeInv k a b c d) (x0 x1 x2 x3 : ℝ) (h0 : |10 ^ 12 * x0 - c0| ≤ 1) (h1 : |10 ^ 12 * x1 - c1| ≤ 1)
    (h2 : |10 ^ 12 * x2 - c2| ≤ 1) (h3 : |10 ^ 12 * x3 - c3| ≤ 1) : 0 < base + (a * x0 + b * x1 + c * x2 + d * x3) := by
  simp only [ffeMargin, withInt_eq, decide_eq_true_eq] at hm
  obtain ⟨q0, hq0⟩ : ∃ q0, q0 = (-194769) * c0 + 408343 * c1 + (-408398) * c2 + 195227 * c3 := ⟨_, rfl⟩
  obtain ⟨q1, hq1⟩ : ∃ q1, q1 = (-255367) * c0 + 249171 * c1 + 250645 * c2 + (-259071) * c3 := ⟨_, rfl⟩
  obtain ⟨q2, hq2⟩ : ∃ q2, q2 = 408360 * c0 + 194438 * c1 + (-196224) * c2 + (-409783) * c3 := ⟨_, rfl⟩
  obtain ⟨q3, hq3⟩ : ∃ q3, q3 = 249438 * c0 + 257228 * c1 + 257747 * c2 + 250920 * c3 := ⟨_, rfl⟩
  rw [← hq0, ← hq1, ← hq2, ← hq3] at hm
  obtain ⟨r0, hr0⟩ : ∃ r0, r0 = 10000000000000000 * c0 - ((-4795036091) * q0 + (-9998660980) * q1 + 10000000000 * q2 + 9738500436 * q3) := ⟨_, rfl⟩
  obtain ⟨r1, hr1⟩ : ∃ r1, r1 = 10000000000000000 * c1 - (10000000000 * q0 + 9722114321 * q1 + 4740940734 * q2 + 10000000000 * q3) := ⟨_, rfl⟩
  obtain ⟨r2, hr2⟩ : ∃ r2, r2 = 10000000000000000 * c2 - ((-9940933488) * q0 + 9708923299 * q1 + (-4764579689) * q2 + 9977698365 * q3) := ⟨_, rfl⟩
  obtain ⟨r3, hr3⟩ : ∃ r3, r3 = 10000000000000000 * c3 - (4726725412 * q0 + (-10000000000) * q1 + (-9906849737) * q2 + 9671803209 * q3) := ⟨_, rfl⟩
  rw [← hr0, ← hr1, ← hr2, ← hr3] at hm
  obtain ⟨⟨ha, hb⟩, hc, hd⟩ := ffe_box k hk a b c d h
  have hk' : (k : ℝ) ≤ 100000 := by exact_mod_cast hk
  obtain ⟨⟨g1, g2⟩, ⟨g3, g4⟩, ⟨g5, g6⟩, ⟨g7, g8⟩, -⟩ := h
  have l0 := ffeLow_le q0 11811673628 100000 (ffeG0 a b c d) (by push_cast; linarith) (by push_cast; linarith)
  have l1 := ffeLow_le q1 5858493599 100000 (ffeG1 a b c d) (by push_cast; linarith) (by push_cast; linarith)
  have l2 := ffeLow_le q2 5285798234 100000 (ffeG2 a b c d) (by push_cast; linarith) (by push_cast; linarith)
  have l3 := ffeLow_le q3 6567160129 100000 (ffeG3 a b c d) (by push_cast; linarith) (by push_cast; linarith)
  have n0 := natAbs_le_mul r0 a ha
  have n1 := natAbs_le_mul r1 b hb
  have n2 := natAbs_le_mul r2 c hc
  have n3 := natAbs_le_mul r3 d hd
  have hid : 10000000000000000 * ((c0 : ℝ) * a + c1 * b + c2 * c + c3 * d)
      = q0 * ffeG0 a b c d + q1 * ffeG1 a b c d + q2 * ffeG2 a b c d + q3 * ffeG3 a b c d + (r0 * a + r1 * b + r2 * c + r3 * d) := by
    rw [hr0, hr1, hr2, hr3]
    simp only [ffeG0, ffeG1, ffeG2, ffeG3]
    push_cast
    ring
  have hm' : (0 : ℝ) < ((10000000000000000 * 1000000000000 * base + ffeLow q0 11811673628 100000 + ffeLow q1 5858493599 100000 + ffeLow q2 5285798234 100000 + ffeLow q3 6567160129 100000
    - (r0.natAbs + r1.natAbs + r2.natAbs + r3.natAbs + 40000000000000000) : ℤ) : ℝ) := by exact_mod_cast hm
  push_cast at hm'
  have hx : ∀ (x f : ℝ) (z : ℤ), |10 ^ 12 * x - z| ≤ 1 → |f| ≤ 1 → -1 ≤ f * (10 ^ 12 * x - z) := by
    intro x f z e1 e2
    have : |f * (10 ^ 12 * x - z)| ≤ 1 := by
      rw [abs_mul]; exact mul_le_one₀ e2 (abs_nonneg _) e1
    exact (abs_le.1 this).1
  have y0 := hx x0 a c0 h0 ha
  have y1 := hx x1 b c1 h1 hb
  have y2 := hx x2 c c2 h2 hc
  have y3 := hx x3 d c3 h3 hd
  push_cast at n0 n1 n2 n3
  have hsum : 10 ^ 12 * (a * x0 + b * x1 + c * x2 + d * x3) = (c0 : ℝ) * a + c1 * b + c2 * c + c3 * d
      + (a * (10 ^ 12 * x0 - c0) + b * (10 ^ 12 * x1 - c1) + c * (10 ^ 12 * x2 - c2) + d * (10 ^ 12 * x3 - c3)) := by ring
  have hfin : 0 < 10000000000000000 * (10 ^ 12 * (base + (a * x0 + b * x1 + c * x2 + d * x3))) := by
    rw [mul_add (10 ^ 12 : ℝ), hsum]
    linarith
  by_contra hneg
  rw [not_lt] at hneg
  linarith

end Verif
