import Verif.Model.RoundedLevels
import Verif.Lemmas.Float
import Verif.Lemmas.FloatDfe
import Verif.Lemmas.Mapping
import Verif.Lemmas.Quantize

/-! Exact and rounded results of memoryless functions. -/

namespace Verif
open Spec

/-! ### exactly representable numbers -/

theorem specRound_int (k : ℤ) : Spec.roundHalfEven (k : ℝ) = k := by
  simp [Spec.roundHalfEven]

theorem specRound_of_abs (x : ℝ) (k : ℤ) (h : |x - k| < 1 / 2) : Spec.roundHalfEven x = k := by
  have h1 := roundHalfEven_error x
  have h2 := abs_add_le ((Spec.roundHalfEven x : ℝ) - x) (x - k)
  rw [sub_add_sub_cancel] at h2
  have h3 : |((Spec.roundHalfEven x - k : ℤ) : ℝ)| < 1 := by push_cast; linarith
  rw [← Int.cast_abs] at h3
  have h4 : |Spec.roundHalfEven x - k| < 1 := by exact_mod_cast h3
  have := Int.abs_lt_one_iff.1 h4
  omega

/-- the rounding of a number of known binade -/
theorem fl_eq_of (p : ℕ) (x : ℝ) (e k : ℤ) (h1 : (2 : ℝ) ^ e ≤ |x|) (h2 : |x| < 2 ^ (e + 1))
    (h : |x / 2 ^ (e + 1 - p) - k| < 1 / 2) : fl p x = k * 2 ^ (e + 1 - p) := by
  have hx : 0 < |x| := lt_of_lt_of_le (zpow_pos (by norm_num) _) h1
  have hl : Int.log 2 |x| = e := by
    apply le_antisymm
    · have := (Int.lt_zpow_iff_log_lt (b := 2) (by norm_num) hx).1 (by exact_mod_cast h2)
      omega
    · exact (Int.zpow_le_iff_le_log (b := 2) (by norm_num) hx).1 (by exact_mod_cast h1)
  unfold fl ulp
  rw [hl, specRound_of_abs _ k h]

/-- numbers with at most `p` significant bits are not changed -/
theorem fl_exact (p : ℕ) (m e : ℤ) (hm : |m| < 2 ^ p) : fl p (m * 2 ^ e) = m * 2 ^ e := by
  by_cases h0 : m = 0
  · subst h0; simp [fl_zero]
  have hma : 0 < |(m : ℝ)| := abs_pos.2 (by exact_mod_cast h0)
  have he : (0 : ℝ) < 2 ^ e := zpow_pos (by norm_num) _
  have habs : |(m : ℝ) * 2 ^ e| = |(m : ℝ)| * 2 ^ e := by rw [abs_mul, abs_of_pos he]
  have hL0 : 0 ≤ Int.log 2 |(m : ℝ)| := by
    apply (Int.zpow_le_iff_le_log (b := 2) (by norm_num) hma).1
    rw [zpow_zero, ← Int.cast_abs]
    exact_mod_cast Int.one_le_abs h0
  have hLp : Int.log 2 |(m : ℝ)| < p := by
    apply (Int.lt_zpow_iff_log_lt (b := 2) (by norm_num) hma).1
    rw [zpow_natCast, ← Int.cast_abs]
    exact_mod_cast hm
  have l1 := Int.zpow_log_le_self (b := 2) (by norm_num) hma
  have l2 := Int.lt_zpow_succ_log_self (b := 2) (by norm_num) (|(m : ℝ)|)
  obtain ⟨L, hL⟩ : ∃ L, L = Int.log 2 |(m : ℝ)| := ⟨_, rfl⟩
  rw [← hL] at hL0 hLp l1 l2
  push_cast at l1 l2
  have key : (m : ℝ) * 2 ^ e / 2 ^ (L + e + 1 - p) = ((m * 2 ^ (p - 1 - L).toNat : ℤ) : ℝ) := by
    push_cast
    rw [div_eq_iff (zpow_ne_zero _ (by norm_num)), mul_assoc, ← zpow_natCast, ← zpow_add₀ (by norm_num)]
    congr 2
    omega
  have hz : (m : ℝ) * 2 ^ e = ((m * 2 ^ (p - 1 - L).toNat : ℤ) : ℝ) * 2 ^ (L + e + 1 - p) := by
    rw [← key, div_mul_cancel₀ _ (zpow_ne_zero _ (by norm_num))]
  conv_rhs => rw [hz]
  apply fl_eq_of p _ (L + e)
  · rw [habs, zpow_add₀ (by norm_num)]
    exact mul_le_mul_of_nonneg_right l1 he.le
  · rw [habs, show L + e + 1 = L + 1 + e by ring, zpow_add₀ (by norm_num)]
    exact mul_lt_mul_of_pos_right l2 he
  · rw [key, sub_self]; norm_num

/-! ### slicer -/

theorem sliceOneR_spec (r : ℝ → ℝ) (levels : List ℝ) (h : levels ≠ []) (x : ℝ) :
    ∃ i, ∃ hi : i < levels.length, sliceOneR r levels x = levels[i] ∧
      (∀ l ∈ levels, |r (x - sliceOneR r levels x)| ≤ |r (x - l)|) := by
  have hne : levels.map (fun l => |r (x - l)|) ≠ [] := by simpa using h
  have h1 := argmin_lt _ hne
  have h2 := argmin_spec _ hne
  rw [List.length_map] at h1
  unfold sliceOneR
  have he : levels.getD (argmin (levels.map (fun l => |r (x - l)|))) 0
      = levels[argmin (levels.map (fun l => |r (x - l)|))] := by simp [h1]
  rw [he]
  refine ⟨_, h1, rfl, ?_⟩
  intro l hl
  have := h2 (|r (x - l)|) (List.mem_map.2 ⟨l, hl, rfl⟩)
  simpa using this

theorem sliceOneR_mem (r : ℝ → ℝ) (levels : List ℝ) (h : levels ≠ []) (x : ℝ) : sliceOneR r levels x ∈ levels := by
  obtain ⟨i, hi, he, -⟩ := sliceOneR_spec r levels h x
  rw [he]; exact List.getElem_mem _

theorem round_bounds {r : ℝ → ℝ} {u : ℝ} (hr : ∀ x, |r x - x| ≤ u * |x|) (x : ℝ) :
    (1 - u) * |x| ≤ |r x| ∧ |r x| ≤ (1 + u) * |x| := by
  have a := hr x
  have b1 := abs_add_le (r x - x) x
  have b2 := abs_add_le (x - r x) (r x)
  rw [sub_add_cancel] at b1 b2
  rw [abs_sub_comm] at b2
  constructor <;> linarith

theorem sliceOneR_near_opt {r : ℝ → ℝ} {u : ℝ} (hr : ∀ x, |r x - x| ≤ u * |x|) (levels : List ℝ) (h : levels ≠ [])
    (x : ℝ) : ∀ l ∈ levels, (1 - u) * |x - sliceOneR r levels x| ≤ (1 + u) * |x - l| := by
  obtain ⟨i, hi, he, h2⟩ := sliceOneR_spec r levels h x
  intro l hl
  exact (round_bounds hr _).1.trans ((h2 l hl).trans (round_bounds hr _).2)

theorem sliceOneR_level {r : ℝ → ℝ} {u : ℝ} (hu : u < 1) (hr : ∀ x, |r x - x| ≤ u * |x|) (levels : List ℝ) (l : ℝ)
    (hl : l ∈ levels) : sliceOneR r levels l = l := by
  have h := sliceOneR_near_opt hr levels (List.ne_nil_of_mem hl) l l hl
  rw [sub_self, abs_zero, mul_zero] at h
  have h3 : |l - sliceOneR r levels l| ≤ 0 := by
    by_contra hc
    push Not at hc
    have := mul_pos (sub_pos.2 hu) hc
    linarith
  have := abs_eq_zero.1 (le_antisymm h3 (abs_nonneg _))
  linarith [sub_eq_zero.1 this]

theorem sliceOneR_congr (r : ℝ → ℝ) (levels : List ℝ) (x : ℝ) (h : ∀ l ∈ levels, r (x - l) = x - l) :
    sliceOneR r levels x = sliceOne levels x := by
  unfold sliceOneR sliceOne
  congr 2
  exact List.map_congr_left fun l hl => by rw [h l hl]

/-- all differences rounded to the same value: the first level is selected -/
theorem sliceOneR_tie (r : ℝ → ℝ) (levels : List ℝ) (h : levels ≠ []) (x v : ℝ) (hv : ∀ l ∈ levels, r (x - l) = v) :
    sliceOneR r levels x = levels.getD 0 0 := by
  unfold sliceOneR
  have : levels.map (fun l => |r (x - l)|) = List.replicate levels.length |v| := by
    rw [List.eq_replicate_iff]
    refine ⟨by simp, fun b hb => ?_⟩
    rw [List.mem_map] at hb
    obtain ⟨l, hl, rfl⟩ := hb
    rw [hv l hl]
  rw [this]
  congr 1
  have h0 : 0 < levels.length := List.length_pos_iff.2 h
  have hne : List.replicate levels.length |v| ≠ [] := by simpa using h
  by_contra hc
  have hpos : 0 < argmin (List.replicate levels.length |v|) := Nat.pos_of_ne_zero hc
  obtain ⟨y, hy, hlt⟩ := argmin_first (List.replicate levels.length |v|) 0 hpos (by simpa using h0)
  rw [List.mem_replicate] at hy
  rw [hy.2, List.getElem_replicate] at hlt
  exact lt_irrefl _ hlt

/-! ### levels -/

theorem div_near (x w e : ℝ) (he0 : 0 ≤ e) (he : e ≤ 1 / 64) (hw : |w - 1| ≤ e) : |x / w - x| ≤ 66 / 64 * e * |x| := by
  have hw' := abs_le.1 hw
  have hw0 : 63 / 64 ≤ w := by linarith
  have h1 : x / w - x = x * ((1 - w) / w) := by field_simp
  have h2 : |(1 - w) / w| ≤ 66 / 64 * e := by
    rw [abs_div, abs_of_pos (show 0 < w by linarith), div_le_iff₀ (by linarith), abs_sub_comm]
    nlinarith
  rw [h1, abs_mul, mul_comm]
  exact mul_le_mul_of_nonneg_right h2 (abs_nonneg _)

theorem sqrt_near (m m' u : ℝ) (hm : 0 < m) (h : |m' - m| ≤ u * m) : |Real.sqrt m' - Real.sqrt m| ≤ u * Real.sqrt m := by
  have hs := Real.sqrt_pos.2 hm
  have hs' := Real.sqrt_nonneg m'
  have hmm := Real.mul_self_sqrt hm.le
  have hu : 0 ≤ u := by
    have := (abs_nonneg _).trans h
    by_contra hc
    push Not at hc
    nlinarith
  rcases le_or_gt 0 m' with h0 | h0
  · have hmm' := Real.mul_self_sqrt h0
    have h1 : |Real.sqrt m' - Real.sqrt m| * (Real.sqrt m' + Real.sqrt m) = |m' - m| := by
      rw [← abs_of_nonneg (show 0 ≤ Real.sqrt m' + Real.sqrt m by linarith), ← abs_mul]
      congr 1
      nlinarith
    have h2 : |Real.sqrt m' - Real.sqrt m| * Real.sqrt m ≤ u * Real.sqrt m * Real.sqrt m := by
      have := mul_nonneg (abs_nonneg (Real.sqrt m' - Real.sqrt m)) hs'
      nlinarith
    exact le_of_mul_le_mul_right h2 hs
  · rw [Real.sqrt_eq_zero_of_nonpos h0.le, zero_sub, abs_neg, abs_of_pos hs]
    have : 1 ≤ u := by
      rw [abs_of_neg (by linarith)] at h
      by_contra hc
      push Not at hc
      nlinarith
    nlinarith

/-- The rounded levels are within `4 u` (relative) of the exact ones. -/
theorem getLevelsR_eq {r : ℝ → ℝ} {u : ℝ} (hu0 : 0 ≤ u) (hu : u ≤ 1 / 256) (hr : ∀ x, |r x - x| ≤ u * |x|)
    (c : Constellation) (fs : Bool) :
    ∃ (g : ℝ) (f : ℤ → ℝ), 0 < g ∧ getLevels c fs = (intLevels c).map (fun (z : Int) => (z:ℝ) * g) ∧
      getLevelsR r c fs = (intLevels c).map f ∧ ∀ z, |f z - z * g| ≤ 4 * u * (|(z : ℝ)| * g) := by
  cases fs with
  | false =>
    refine ⟨1, fun z => z, one_pos, by simp [getLevels], by simp [getLevelsR], fun z => ?_⟩
    simp only [mul_one, sub_self, abs_zero]
    positivity
  | true =>
    obtain ⟨m, hm⟩ : ∃ m : ℝ, m = (((intLevels c).map (fun (z : Int) => (z : ℝ))).map (fun l => l ^ 2)).sum /
      ((intLevels c).map (fun (z : Int) => (z : ℝ))).length := ⟨_, rfl⟩
    have hm0 : 0 < m := by rw [hm]; cases c <;> simp [intLevels] <;> norm_num
    have hs := Real.sqrt_pos.2 hm0
    have e1 := hr m
    rw [abs_of_pos hm0] at e1
    have e2 := sqrt_near m (r m) u hm0 e1
    have e3 := hr (Real.sqrt (r m))
    have e4 : |r (Real.sqrt (r m)) / Real.sqrt m - 1| ≤ 3 * u := by
      rw [div_sub_one hs.ne', abs_div, abs_of_pos hs, div_le_iff₀ hs]
      have h1 := abs_add_le (r (Real.sqrt (r m)) - Real.sqrt (r m)) (Real.sqrt (r m) - Real.sqrt m)
      rw [sub_add_sub_cancel] at h1
      have h2 := abs_add_le (Real.sqrt (r m) - Real.sqrt m) (Real.sqrt m)
      rw [sub_add_cancel, abs_of_pos hs] at h2
      have h3 : u * |Real.sqrt (r m)| ≤ u * (u * Real.sqrt m + Real.sqrt m) :=
        mul_le_mul_of_nonneg_left (by linarith) hu0
      have h4 : u * (u * Real.sqrt m) ≤ 1 * (u * Real.sqrt m) :=
        mul_le_mul_of_nonneg_right (by linarith) (mul_nonneg hu0 hs.le)
      linarith
    -- a sharper version of the same estimate
    have e5 : |r (Real.sqrt (r m)) / Real.sqrt m - 1| ≤ 521 / 256 * u := by
      rw [div_sub_one hs.ne', abs_div, abs_of_pos hs, div_le_iff₀ hs]
      have h1 := abs_add_le (r (Real.sqrt (r m)) - Real.sqrt (r m)) (Real.sqrt (r m) - Real.sqrt m)
      rw [sub_add_sub_cancel] at h1
      have h2 := abs_add_le (Real.sqrt (r m) - Real.sqrt m) (Real.sqrt m)
      rw [sub_add_cancel, abs_of_pos hs] at h2
      have h3 : u * |Real.sqrt (r m)| ≤ u * (u * Real.sqrt m + Real.sqrt m) :=
        mul_le_mul_of_nonneg_left (by linarith) hu0
      have h4 : u * (u * Real.sqrt m) ≤ 1 / 256 * (u * Real.sqrt m) :=
        mul_le_mul_of_nonneg_right (by linarith) (mul_nonneg hu0 hs.le)
      nlinarith [mul_nonneg hu0 hs.le]
    refine ⟨1 / Real.sqrt m, fun z => r ((z : ℝ) / r (Real.sqrt (r m))), by positivity, ?_, ?_, fun z => ?_⟩
    · simp only [getLevels, if_true, List.map_map]
      rw [hm]
      exact List.map_congr_left fun z _ => by simp [div_eq_mul_inv]
    · simp only [getLevelsR, if_true, List.map_map]
      rw [hm]
      simp only [List.map_map]
      rfl
    · obtain ⟨w, hw⟩ : ∃ w, w = r (Real.sqrt (r m)) / Real.sqrt m := ⟨_, rfl⟩
      rw [← hw] at e5
      have hq : (z : ℝ) / r (Real.sqrt (r m)) = (z * (1 / Real.sqrt m)) / w := by
        rw [hw]; field_simp
      have e6 := div_near (z * (1 / Real.sqrt m)) w (521 / 256 * u) (by linarith) (by linarith) e5
      rw [← hq] at e6
      have e7 := hr ((z : ℝ) / r (Real.sqrt (r m)))
      have hX : |(z : ℝ) * (1 / Real.sqrt m)| = |(z : ℝ)| * (1 / Real.sqrt m) := by
        rw [abs_mul, abs_of_pos (show 0 < 1 / Real.sqrt m by positivity)]
      rw [hX] at e6
      obtain ⟨X, hXd⟩ : ∃ X, X = |(z : ℝ)| * (1 / Real.sqrt m) := ⟨_, rfl⟩
      have hX0 : 0 ≤ X := by rw [hXd]; positivity
      rw [← hXd] at e6 ⊢
      have h1 := abs_add_le (r ((z : ℝ) / r (Real.sqrt (r m))) - (z : ℝ) / r (Real.sqrt (r m)))
        ((z : ℝ) / r (Real.sqrt (r m)) - z * (1 / Real.sqrt m))
      rw [sub_add_sub_cancel] at h1
      have h2 := abs_add_le ((z : ℝ) / r (Real.sqrt (r m)) - z * (1 / Real.sqrt m)) (z * (1 / Real.sqrt m))
      rw [sub_add_cancel, hX, ← hXd] at h2
      have h3 : u * |(z : ℝ) / r (Real.sqrt (r m))| ≤ u * (66 / 64 * (521 / 256 * u) * X + X) :=
        mul_le_mul_of_nonneg_left (by linarith) hu0
      have hux : 0 ≤ u * X := mul_nonneg hu0 hX0
      have h4 : u * (u * X) ≤ 1 / 256 * (u * X) := mul_le_mul_of_nonneg_right hu hux
      nlinarith

/-! ### demapping -/

/-- first level and level distance -/
def levelFirst : Constellation → ℤ
  | .nrz => -1
  | .ook => 0
  | .pam3 => -1
  | .pam4 => -3

def levelStep : Constellation → ℤ
  | .nrz => 2
  | .ook => 1
  | .pam3 => 1
  | .pam4 => 2

theorem intLevels_facts (c : Constellation) :
    (intLevels c).getD 0 0 = levelFirst c ∧ (intLevels c).getD 1 0 = levelFirst c + levelStep c ∧ 1 < (intLevels c).length ∧
      1 ≤ levelStep c ∧ 2 * |levelFirst c| ≤ 3 * levelStep c ∧
      |levelFirst c| + |levelFirst c + levelStep c| ≤ 2 * levelStep c ∧
      (∀ z ∈ intLevels c, z = levelFirst c ∨ levelFirst c + 1 ≤ z) ∧ (∀ z ∈ intLevels c, |z| ≤ 3) ∧
      (∀ i < (intLevels c).length, (intLevels c).getD i 0 = levelFirst c + i * levelStep c ∧
        2 * |(intLevels c).getD i 0| ≤ 3 * levelStep c) := by
  cases c <;> decide

theorem getD_map_zero {α β : Type} (f : α → β) (a : α) (b : β) (l : List α) (i : ℕ) (hi : i < l.length) :
    (l.map f).getD i b = f (l.getD i a) := by
  simp [hi]

/-- The rounded index of a sample is near the exact one. -/
theorem demap_ratio {r : ℝ → ℝ} {u : ℝ} (hu0 : 0 ≤ u) (hu : u ≤ 1 / 256) (hr : ∀ x, |r x - x| ≤ u * |x|)
    (D t s f0 f1 : ℝ) (hD : 0 < D) (h0 : |s - f0 - D * t| ≤ 6 * u * D) (h1 : |f1 - f0 - D| ≤ 8 * u * D) :
    |r (r (s - f0) / r (f1 - f0)) - t| ≤ 16 * u * (|t| + 1 / 2) := by
  have hut : 0 ≤ u * |t| := mul_nonneg hu0 (abs_nonneg _)
  have huu : u * u ≤ 1 / 256 * u := mul_le_mul_of_nonneg_right hu hu0
  -- normalise by `D`
  have a0 : |(s - f0) / D - t| ≤ 6 * u := by
    rw [show (s - f0) / D - t = (s - f0 - D * t) / D by field_simp, abs_div, abs_of_pos hD, div_le_iff₀ hD]
    exact h0
  have a1 : |(f1 - f0) / D - 1| ≤ 8 * u := by
    rw [show (f1 - f0) / D - 1 = (f1 - f0 - D) / D by field_simp, abs_div, abs_of_pos hD, div_le_iff₀ hD]
    exact h1
  have b0 : |r (s - f0) / D - (s - f0) / D| ≤ u * |(s - f0) / D| := by
    rw [← sub_div, abs_div, abs_div, abs_of_pos hD, ← mul_div_assoc]
    exact div_le_div_of_nonneg_right (hr _) hD.le
  have b1 : |r (f1 - f0) / D - (f1 - f0) / D| ≤ u * |(f1 - f0) / D| := by
    rw [← sub_div, abs_div, abs_div, abs_of_pos hD, ← mul_div_assoc]
    exact div_le_div_of_nonneg_right (hr _) hD.le
  have hq : r (s - f0) / r (f1 - f0) = (r (s - f0) / D) / (r (f1 - f0) / D) := by
    rw [div_div_div_cancel_right₀ hD.ne']
  rw [hq]
  obtain ⟨n, hn⟩ : ∃ n, n = r (s - f0) / D := ⟨_, rfl⟩
  obtain ⟨w, hw⟩ : ∃ w, w = r (f1 - f0) / D := ⟨_, rfl⟩
  obtain ⟨n0, hn0⟩ : ∃ n, n = (s - f0) / D := ⟨_, rfl⟩
  obtain ⟨w0, hw0⟩ : ∃ w, w = (f1 - f0) / D := ⟨_, rfl⟩
  rw [← hn, ← hw]
  rw [← hn, ← hn0] at b0
  rw [← hw, ← hw0] at b1
  rw [← hn0] at a0
  rw [← hw0] at a1
  clear hn hw hn0 hw0 hq h0 h1
  -- numerator and denominator
  have c0 : |n0| ≤ |t| + 6 * u := by
    have := abs_add_le (n0 - t) t
    rw [sub_add_cancel] at this; linarith
  have c1 : |n - t| ≤ u * |t| + 7 * u := by
    have := abs_add_le (n - n0) (n0 - t)
    rw [sub_add_sub_cancel] at this
    have := mul_le_mul_of_nonneg_left c0 hu0
    nlinarith
  have d0 : |w0| ≤ 1 + 8 * u := by
    have := abs_add_le (w0 - 1) 1
    rw [sub_add_cancel, abs_one] at this; linarith
  have d1 : |w - 1| ≤ 37 / 4 * u := by
    have := abs_add_le (w - w0) (w0 - 1)
    rw [sub_add_sub_cancel] at this
    have := mul_le_mul_of_nonneg_left d0 hu0
    nlinarith
  have d2 := abs_le.1 d1
  have hwpos : 246 / 256 ≤ w := by linarith
  -- quotient
  have e1 : |n / w - t| ≤ 11 * u * |t| + 15 / 2 * u := by
    rw [show n / w - t = (n - t * w) / w by field_simp, abs_div, abs_of_pos (show 0 < w by linarith),
      div_le_iff₀ (by linarith)]
    have g1 : |n - t * w| ≤ |n - t| + |t| * |w - 1| := by
      have := abs_add_le (n - t) (-(t * (w - 1)))
      rw [abs_neg, abs_mul, show n - t + -(t * (w - 1)) = n - t * w by ring] at this
      exact this
    have g2 : |t| * |w - 1| ≤ |t| * (37 / 4 * u) := mul_le_mul_of_nonneg_left d1 (abs_nonneg _)
    have g3 : (11 * u * |t| + 15 / 2 * u) * (246 / 256) ≤ (11 * u * |t| + 15 / 2 * u) * w :=
      mul_le_mul_of_nonneg_left hwpos (by nlinarith)
    nlinarith
  have e2 := hr (n / w)
  have e3 : |n / w| ≤ |t| + (11 * u * |t| + 15 / 2 * u) := by
    have := abs_add_le (n / w - t) t
    rw [sub_add_cancel] at this; linarith
  have e4 := mul_le_mul_of_nonneg_left e3 hu0
  have e5 := abs_add_le (r (n / w) - n / w) (n / w - t)
  rw [sub_add_sub_cancel] at e5
  have e6 : u * (u * |t|) ≤ 1 / 256 * (u * |t|) := mul_le_mul_of_nonneg_right hu hut
  nlinarith

theorem min_first (f : ℤ → ℝ) (c : Constellation) (h : ∀ z ∈ intLevels c, f (levelFirst c) ≤ f z) :
    ((intLevels c).map f).foldl min (((intLevels c).map f).getD 0 0) = f (levelFirst c) := by
  obtain ⟨h1, -, h3, -⟩ := intLevels_facts c
  rw [getD_map_zero f 0 0 _ 0 (by omega), h1]
  refine foldl_min_le _ _ fun x hx => ?_
  rw [List.mem_map] at hx
  obtain ⟨z, hz, rfl⟩ := hx
  exact h z hz

/-- position of a sample on the exact level grid -/
noncomputable def levelPos (c : Constellation) (fs : Bool) (s : ℝ) : ℝ :=
  (s - (getLevels c fs).getD 0 0) / ((getLevels c fs).getD 1 0 - (getLevels c fs).getD 0 0)

theorem demapIdx_pos (c : Constellation) (fs : Bool) (s : ℝ) :
    demapIdx (getLevels c fs) s = Verif.roundHalfEven (levelPos c fs s) := by
  obtain ⟨g, hg, e, -⟩ := getLevels_eq c fs
  obtain ⟨i1, i2, i3, i4, i5, i6, i7, -⟩ := intLevels_facts c
  unfold demapIdx levelPos
  rw [e, min_first _ c]
  · congr 3
    rw [getD_map_zero _ 0 0 _ 0 (by omega), i1]
  · intro z hz
    have : levelFirst c ≤ z := by rcases i7 z hz with h | h <;> omega
    have h' : ((levelFirst c : ℤ) : ℝ) ≤ z := by exact_mod_cast this
    exact mul_le_mul_of_nonneg_right h' hg.le

theorem demapIdxR_near {r : ℝ → ℝ} {u : ℝ} (hu0 : 0 ≤ u) (hu : u ≤ 1 / 256) (hr : ∀ x, |r x - x| ≤ u * |x|)
    (c : Constellation) (fs : Bool) (s : ℝ) (k : ℤ)
    (h : |levelPos c fs s - k| + 16 * u * (|(k : ℝ)| + 1) < 1 / 2) :
    demapIdxR r (getLevelsR r c fs) s = k ∧ demapIdx (getLevels c fs) s = k := by
  have hu1 : 0 ≤ 16 * u * (|(k : ℝ)| + 1) := by positivity
  refine ⟨?_, by rw [demapIdx_pos]; exact roundHalfEven_of_abs _ _ (by linarith)⟩
  obtain ⟨g, f, hg, e, eR, hf⟩ := getLevelsR_eq hu0 hu hr c fs
  obtain ⟨i1, i2, i3, i4, i5, i6, i7, i8, -⟩ := intLevels_facts c
  have hug : 0 ≤ u * g := mul_nonneg hu0 hg.le
  have hf0 := hf (levelFirst c)
  have hf1 := hf (levelFirst c + levelStep c)
  have habs0 : |((levelFirst c : ℤ) : ℝ)| = ((|levelFirst c| : ℤ) : ℝ) := (Int.cast_abs).symm
  have habs1 : |((levelFirst c + levelStep c : ℤ) : ℝ)| = ((|levelFirst c + levelStep c| : ℤ) : ℝ) := (Int.cast_abs).symm
  have j4 : (1 : ℝ) ≤ levelStep c := by exact_mod_cast i4
  have j5 : 2 * |((levelFirst c : ℤ) : ℝ)| ≤ 3 * levelStep c := by rw [habs0]; exact_mod_cast i5
  have j6 : |((levelFirst c : ℤ) : ℝ)| + |((levelFirst c + levelStep c : ℤ) : ℝ)| ≤ 2 * levelStep c := by
    rw [habs0, habs1]; exact_mod_cast i6
  have hmin : ((intLevels c).map f).foldl min (((intLevels c).map f).getD 0 0) = f (levelFirst c) := by
    refine min_first f c fun z hz => ?_
    rcases i7 z hz with q | q
    · rw [q]
    · have hz' := abs_le.1 (hf z)
      have h0' := abs_le.1 hf0
      have z3 : |(z : ℝ)| ≤ 3 := by
        have := i8 z hz
        rw [← Int.cast_abs]; exact_mod_cast this
      have l3 : |((levelFirst c : ℤ) : ℝ)| ≤ 3 := by
        have : |levelFirst c| ≤ 3 := by cases c <;> decide
        rw [← Int.cast_abs]; exact_mod_cast this
      have q' : ((levelFirst c : ℤ) : ℝ) + 1 ≤ z := by exact_mod_cast q
      have m1 : 4 * u * (|(z : ℝ)| * g) ≤ 12 * (u * g) := by nlinarith
      have m2 : 4 * u * (|((levelFirst c : ℤ) : ℝ)| * g) ≤ 12 * (u * g) := by nlinarith
      have m3 : u * g ≤ 1 / 256 * g := mul_le_mul_of_nonneg_right hu hg.le
      have m4 : (((levelFirst c : ℤ) : ℝ) + 1) * g ≤ z * g := mul_le_mul_of_nonneg_right q' hg.le
      linarith
  obtain ⟨D, hDd⟩ : ∃ D, D = (levelStep c : ℝ) * g := ⟨_, rfl⟩
  have hD : 0 < D := by rw [hDd]; exact mul_pos (by linarith) hg
  have huD : 0 ≤ u * D := mul_nonneg hu0 hD.le
  have hpos : levelPos c fs s = (s - levelFirst c * g) / D := by
    unfold levelPos
    rw [e, getD_map_zero _ 0 0 _ 0 (by omega), getD_map_zero _ 0 0 _ 1 (by omega), i1, i2, hDd]
    push_cast
    congr 1
    ring
  obtain ⟨t, ht⟩ : ∃ t, t = levelPos c fs s := ⟨_, rfl⟩
  rw [← ht] at h
  have hDt : D * t = s - levelFirst c * g := by
    rw [ht, hpos]; field_simp
  have hstep : 4 * u * (|((levelFirst c : ℤ) : ℝ)| * g) ≤ 6 * u * D := by
    rw [hDd]; nlinarith
  have key := demap_ratio hu0 hu hr D t s (f (levelFirst c)) (f (levelFirst c + levelStep c)) hD
    (by
      rw [hDt, show s - f (levelFirst c) - (s - levelFirst c * g) = -(f (levelFirst c) - levelFirst c * g) by ring, abs_neg]
      linarith)
    (by
      have a0 := abs_le.1 hf0
      have a1 := abs_le.1 hf1
      have a2 : (u * g) * (|((levelFirst c : ℤ) : ℝ)| + |((levelFirst c + levelStep c : ℤ) : ℝ)|) ≤ (u * g) * (2 * levelStep c) :=
        mul_le_mul_of_nonneg_left j6 hug
      have a3 : 8 * u * D = 4 * ((u * g) * (2 * levelStep c)) := by rw [hDd]; ring
      have a4 : (((levelFirst c + levelStep c : ℤ) : ℝ)) * g = levelFirst c * g + D := by rw [hDd]; push_cast; ring
      rw [a4] at a1
      rw [a3, abs_le]
      constructor <;> linarith)
  unfold demapIdxR
  rw [eR, hmin, getD_map_zero _ 0 0 _ 0 (by omega), getD_map_zero _ 0 0 _ 1 (by omega), i1, i2]
  apply roundHalfEven_of_abs
  have n1 := abs_add_le (r (r (s - f (levelFirst c)) / r (f (levelFirst c + levelStep c) - f (levelFirst c))) - t) (t - k)
  rw [sub_add_sub_cancel] at n1
  have n2 := abs_add_le (t - k) k
  rw [sub_add_cancel] at n2
  have n3 : 16 * u * (|t| + 1 / 2) ≤ 16 * u * (|(k : ℝ)| + 1) :=
    mul_le_mul_of_nonneg_left (by linarith) (by linarith)
  linarith

end Verif
