import Verif.Model.RoundedRx
import Verif.Spec.RoundedRx
import Verif.Props.RoundedFilter
import Verif.Props.LockNoise
import Verif.Props.Lms
import Verif.Props.Ffe

/-!
# Pattern lock, timing detector and feed-forward equalizer in floating-point arithmetic (C118)

`fl p` rounds to `p` significant bits; `u = 2^-p`; `fl 53` is double precision.
-/

open Finset

namespace Verif
open Spec

theorem half_unit : (2 : ℝ) ^ (-((53 : ℕ) : ℤ)) = 1 / 2 ^ 53 := by rw [zpow_neg, zpow_natCast, one_div]

theorem pow_gap (u : ℝ) (hu : 0 ≤ u) (k : ℕ) : 0 ≤ (1 + u) ^ k - 1 := by
  have : (1 : ℝ) ≤ (1 + u) ^ k := one_le_pow₀ (by linarith)
  linarith

/-- growth of the error in double precision -/
theorem double_gap (k : ℕ) (hk : k ≤ 2 ^ 52) : (1 + 2 ^ (-((53 : ℕ) : ℤ)) : ℝ) ^ k - 1 ≤ k / 2 ^ 52 := by
  have hk' : (k : ℝ) ≤ 2 ^ 52 := by exact_mod_cast hk
  rw [half_unit]
  have := one_add_pow_le (1 / 2 ^ 53) (by positivity) k (by linarith)
  have e : 2 * ((k : ℝ) * (1 / 2 ^ 53)) = k / 2 ^ 52 := by ring
  rw [e] at this
  linarith

theorem getD_abs_le {l : List ℝ} {B : ℝ} (hB : 0 ≤ B) (h : ∀ v ∈ l, |v| ≤ B) (i : ℕ) : |l.getD i 0| ≤ B := by
  rcases Nat.lt_or_ge i l.length with q | q
  · exact h _ (mem_of_getD 0 l q)
  · rw [getD_of_le 0 _ q, abs_zero]; exact hB

/-! ### pattern lock -/

theorem correlate_within (p : ℕ) (cor : List ℝ → List ℝ → List ℝ) (hcor : IsCorrelate (fl p) cor) (a v : List ℝ)
    (hv : 0 < v.length) (hav : v.length ≤ a.length) (Λ S : ℝ) (hΛ : 0 ≤ Λ) (hS : 0 ≤ S) (ha : ∀ x ∈ a, |x| ≤ Λ) (hvS : ∀ x ∈ v, |x| ≤ S) :
    CorrelatesWithin cor (((1 + 2 ^ (-(p : ℤ))) ^ v.length - 1) * (v.length * (Λ * S))) a v := by
  obtain ⟨h1, h2⟩ := hcor a v hv hav
  refine ⟨h1, fun k hk => ?_⟩
  have h3 := roundedDot_error (unit_nonneg p) (fl_error p) (h2 k hk)
  rw [pairSum_range, pairAbs_range, List.length_map, List.length_range] at h3
  refine h3.trans (mul_le_mul_of_nonneg_left ?_ (pow_gap _ (unit_nonneg p) _))
  calc ∑ i ∈ range v.length, |a.getD (k + i) 0| * |v.getD i 0| ≤ ∑ _i ∈ range v.length, Λ * S :=
        sum_le_sum fun i _ => mul_le_mul (getD_abs_le hΛ ha _) (getD_abs_le hS hvS _) (abs_nonneg _) hΛ
    _ = v.length * (Λ * S) := by rw [sum_const, card_range, nsmul_eq_mul]

/-- **C118**, lock: a record of one period of the pattern from phase `φ`, scaled by `g > 0`, with an offset and a
disturbance of at most `E` per sample. The correlations are computed in `p`-bit arithmetic. If the levels are at least
`d` apart and the rounding errors are below the margin, the lock returns the pattern rotated to phase `φ`. -/
theorem C118_lock (p : ℕ) (cor : List ℝ → List ℝ → List ℝ) (hcor : IsCorrelate (fl p) cor) (pat sig : List ℝ) (hp : pat ≠ [])
    (hlen : pat.length ≤ sig.length) (φ : ℕ) (g c d E Λ S : ℝ) (hg : 0 < g) (hd : 0 < d) (hdist : LevelDistance d pat)
    (hsig : ∀ i < pat.length, |sig.getD i 0 - (g * pat.getD ((φ + i) % pat.length) 0 + c)| ≤ E)
    (hΛ : ∀ x ∈ pat, |x| ≤ Λ) (hS : ∀ x ∈ sig, |x| ≤ S)
    (hE : 2 * (((1 + 2 ^ (-(p : ℤ))) ^ pat.length - 1) * (pat.length * (Λ * S))) < d * (g * d - 2 * E)) :
    ∃ rot xc, lockPatternWith cor pat sig = .ok (rot, xc) ∧ rot.length = pat.length ∧
      ∀ i < pat.length, rot[i]? = pat[(φ + i) % pat.length]? := by
  have hp0 : 0 < pat.length := List.length_pos_iff.2 hp
  have hvl : (sig.take pat.length).length = pat.length := by simp [hlen]
  have hΛ0 : 0 ≤ Λ := (abs_nonneg _).trans (hΛ _ (mem_of_getD 0 pat hp0))
  have hS0 : 0 ≤ S := (abs_nonneg _).trans (hS _ (mem_of_getD 0 sig (show 0 < sig.length by omega)))
  have h := correlate_within p cor hcor (pat ++ pat) (sig.take pat.length) (by omega) (by simp) Λ S hΛ0 hS0
    (fun x hx => hΛ x (by simpa using hx)) (fun x hx => hS x (List.mem_of_mem_take hx))
  rw [hvl] at h
  exact C81_lock cor pat sig hp hlen φ g c d E _ hg hd hdist hsig h hE

/-- **C118**, lock in double precision: `n² Λ S / 2^51 < d (g d - 2 E)` suffices for a pattern of `n` symbols. -/
theorem C118_lock_double (cor : List ℝ → List ℝ → List ℝ) (hcor : IsCorrelate (fl 53) cor) (pat sig : List ℝ) (hp : pat ≠ [])
    (hlen : pat.length ≤ sig.length) (φ : ℕ) (g c d E Λ S : ℝ) (hg : 0 < g) (hd : 0 < d) (hdist : LevelDistance d pat)
    (hsig : ∀ i < pat.length, |sig.getD i 0 - (g * pat.getD ((φ + i) % pat.length) 0 + c)| ≤ E)
    (hΛ : ∀ x ∈ pat, |x| ≤ Λ) (hS : ∀ x ∈ sig, |x| ≤ S) (hsize : pat.length ≤ 2 ^ 52)
    (hE : (pat.length : ℝ) ^ 2 * (Λ * S) < 2 ^ 51 * (d * (g * d - 2 * E))) :
    ∃ rot xc, lockPatternWith cor pat sig = .ok (rot, xc) ∧ rot.length = pat.length ∧
      ∀ i < pat.length, rot[i]? = pat[(φ + i) % pat.length]? := by
  have hp0 : 0 < pat.length := List.length_pos_iff.2 hp
  have hΛ0 : 0 ≤ Λ := (abs_nonneg _).trans (hΛ _ (mem_of_getD 0 pat hp0))
  have hS0 : 0 ≤ S := (abs_nonneg _).trans (hS _ (mem_of_getD 0 sig (show 0 < sig.length by omega)))
  refine C118_lock 53 cor hcor pat sig hp hlen φ g c d E Λ S hg hd hdist hsig hΛ hS ?_
  have h1 := mul_le_mul_of_nonneg_right (double_gap pat.length hsize)
    (mul_nonneg (Nat.cast_nonneg pat.length) (mul_nonneg hΛ0 hS0))
  obtain ⟨M, hM⟩ : ∃ M, M = d * (g * d - 2 * E) := ⟨_, rfl⟩
  rw [← hM] at hE ⊢
  have h2 : (pat.length : ℝ) / 2 ^ 52 * (pat.length * (Λ * S)) = (pat.length : ℝ) ^ 2 * (Λ * S) * (1 / 2 ^ 52) := by ring
  have h3 := mul_lt_mul_of_pos_right hE (show (0 : ℝ) < 1 / 2 ^ 52 by positivity)
  have h4 : (2 : ℝ) ^ 51 * M * (1 / 2 ^ 52) = M / 2 := by ring
  refine lt_of_le_of_lt (mul_le_mul_of_nonneg_left h1 (by norm_num)) ?_
  rw [h2]
  linarith

/-! ### timing detector -/

theorem round_mul {r : ℝ → ℝ} {u : ℝ} (hu : 0 ≤ u) (hr : ∀ x, |r x - x| ≤ u * |x|) (k : ℕ) (x X A w : ℝ) (hX : |X| ≤ A)
    (hx : |x - X| ≤ ((1 + u) ^ k - 1) * A) : |r (x * w) - X * w| ≤ ((1 + u) ^ (k + 1) - 1) * (A * |w|) := by
  have h1 := hr (x * w)
  have h2 : |x| ≤ (1 + u) ^ k * A := by
    have := abs_add_le (x - X) X
    rw [sub_add_cancel] at this
    linarith
  have h3 : |r (x * w) - X * w| ≤ |r (x * w) - x * w| + |x - X| * |w| := by
    rw [← abs_mul]
    have := abs_add_le (r (x * w) - x * w) ((x - X) * w)
    rwa [show r (x * w) - x * w + (x - X) * w = r (x * w) - X * w by ring] at this
  rw [abs_mul] at h1
  have h4 := mul_le_mul_of_nonneg_right h2 (abs_nonneg w)
  have h5 := mul_le_mul_of_nonneg_right hx (abs_nonneg w)
  have h6 := mul_le_mul_of_nonneg_left h4 hu
  rw [pow_succ]
  nlinarith

theorem round_sub {r : ℝ → ℝ} {u : ℝ} (hu : 0 ≤ u) (hr : ∀ x, |r x - x| ≤ u * |x|) (k : ℕ) (x X A y Y B : ℝ) (hX : |X| ≤ A)
    (hY : |Y| ≤ B) (hx : |x - X| ≤ ((1 + u) ^ k - 1) * A) (hy : |y - Y| ≤ ((1 + u) ^ k - 1) * B) :
    |r (x - y) - (X - Y)| ≤ ((1 + u) ^ (k + 1) - 1) * (A + B) := by
  have h := round_mul hu hr k (x - y) (X - Y) (A + B) 1 ((abs_sub _ _).trans (add_le_add hX hY)) (by
    have := abs_sub (x - X) (y - Y)
    rw [show x - X - (y - Y) = x - y - (X - Y) by ring] at this
    linarith)
  simpa using h

theorem zip_sums (a b : List ℝ) : pairSum (a.zip b) = ∑ k ∈ range (min a.length b.length), a.getD k 0 * b.getD k 0 ∧
    pairAbs (a.zip b) = ∑ k ∈ range (min a.length b.length), |a.getD k 0| * |b.getD k 0| := by
  have h : a.zip b = (List.range (min a.length b.length)).map fun k => (a.getD k 0, b.getD k 0) := by
    refine List.ext_getElem (by simp) fun i h1 h2 => ?_
    rw [List.length_zip] at h1
    simp [show i < a.length by omega, show i < b.length by omega]
  exact ⟨by rw [h, pairSum_range], by rw [h, pairAbs_range]⟩

/-- mean magnitude of the products in the timing estimate, weighted -/
noncomputable def timingSize (N : ℕ) (s r : ℕ → ℝ) (preW postW : ℝ) : ℝ :=
  |postW| * ((∑ k ∈ range (N - 1), |r k| * |s (k + 1)|) / ((N : ℝ) - 1))
    + |preW| * ((∑ k ∈ range (N - 1), |r (k + 1)| * |s k|) / ((N : ℝ) - 1))

/-- the rounded timing error -/
theorem muellerMullerR_eq (p : ℕ) (dot : List ℝ → List ℝ → ℝ) (hdot : IsDot (fl p) dot) (s r : List ℝ) (preW postW tol : ℝ)
    (hl : s.length = r.length) (hN : 2 ≤ r.length) : ∃ e,
      |e - timingError r.length (fun k => s.getD k 0) (fun k => r.getD k 0) preW postW|
        ≤ ((1 + 2 ^ (-(p : ℤ))) ^ (r.length + 2) - 1) * timingSize r.length (fun k => s.getD k 0) (fun k => r.getD k 0) preW postW ∧
      muellerMullerR (fl p) dot s r preW postW tol = .ok (some (mmDecide e tol)) := by
  obtain ⟨u, hu⟩ : ∃ u : ℝ, u = 2 ^ (-(p : ℤ)) := ⟨_, rfl⟩
  have hu0 := unit_nonneg p
  have herr := fl_error p
  rw [← hu] at hu0 ⊢
  simp only [← hu] at herr
  have hn0 : (0 : ℝ) < (r.length : ℝ) - 1 := by
    have : (2 : ℝ) ≤ r.length := by exact_mod_cast hN
    linarith
  have mean : ∀ a b : List ℝ, a.length = b.length → a.length + 1 = r.length → ∀ w : ℝ,
      |fl p (fl p (dot a b / ((r.length : ℝ) - 1)) * w) - w * ((∑ k ∈ range (r.length - 1), a.getD k 0 * b.getD k 0) / ((r.length : ℝ) - 1))|
        ≤ ((1 + u) ^ (r.length + 1) - 1) * (|w| * ((∑ k ∈ range (r.length - 1), |a.getD k 0| * |b.getD k 0|) / ((r.length : ℝ) - 1))) ∧
      |w * ((∑ k ∈ range (r.length - 1), a.getD k 0 * b.getD k 0) / ((r.length : ℝ) - 1))|
        ≤ |w| * ((∑ k ∈ range (r.length - 1), |a.getD k 0| * |b.getD k 0|) / ((r.length : ℝ) - 1)) := by
    intro a b hab ha w
    have h1 := roundedDot_error hu0 herr (hdot a b hab)
    obtain ⟨z1, z2⟩ := zip_sums a b
    have h0 := pairSum_abs_le (a.zip b)
    have hm : min a.length b.length = r.length - 1 := by omega
    rw [z1, z2, hm] at h0
    rw [z1, z2, List.length_zip, hm] at h1
    have hinv : |((r.length : ℝ) - 1)⁻¹| = ((r.length : ℝ) - 1)⁻¹ := abs_of_pos (inv_pos.2 hn0)
    have h2 := round_mul hu0 herr _ _ _ _ ((r.length : ℝ) - 1)⁻¹ h0 h1
    have h0' := mul_le_mul_of_nonneg_right h0 (inv_pos.2 hn0).le
    rw [← hinv, ← abs_mul, hinv] at h0'
    rw [hinv] at h2
    have h3 := round_mul hu0 herr _ _ _ _ w h0' h2
    rw [show r.length - 1 + 1 + 1 = r.length + 1 by omega] at h3
    simp only [← div_eq_mul_inv] at h3 h0'
    rw [mul_comm |w|, mul_comm w]
    refine ⟨h3, ?_⟩
    rw [abs_mul]
    exact mul_le_mul_of_nonneg_right h0' (abs_nonneg w)
  obtain ⟨a1, a2⟩ := mean r.dropLast (s.drop 1) (by simp [hl]) (by simp; omega) postW
  obtain ⟨b1, b2⟩ := mean (r.drop 1) s.dropLast (by simp [hl]) (by simp; omega) preW
  have hd : ∀ l : List ℝ, ∀ k, k < l.length - 1 → l.dropLast.getD k 0 = l.getD k 0 := by
    intro l k hk
    rw [List.getD_eq_getElem _ _ (by simpa using hk), List.getElem_dropLast, List.getD_eq_getElem _ _ (by omega)]
  have hs : ∀ l : List ℝ, ∀ k, (l.drop 1).getD k 0 = l.getD (k + 1) 0 := fun l k => by rw [drop_getD, Nat.add_comm]
  have e1 : ∀ F : ℝ → ℝ → ℝ, ∑ k ∈ range (r.length - 1), F (r.dropLast.getD k 0) ((s.drop 1).getD k 0)
      = ∑ k ∈ range (r.length - 1), F (r.getD k 0) (s.getD (k + 1) 0) := fun F =>
    sum_congr rfl fun k hk => by rw [hd r k (mem_range.1 hk), hs]
  have e2 : ∀ F : ℝ → ℝ → ℝ, ∑ k ∈ range (r.length - 1), F ((r.drop 1).getD k 0) (s.dropLast.getD k 0)
      = ∑ k ∈ range (r.length - 1), F (r.getD (k + 1) 0) (s.getD k 0) := fun F =>
    sum_congr rfl fun k hk => by rw [hd s k (by rw [hl]; exact mem_range.1 hk), hs]
  rw [e1 (fun x y => x * y), e1 (fun x y => |x| * |y|)] at a1 a2
  rw [e2 (fun x y => x * y), e2 (fun x y => |x| * |y|)] at b1 b2
  refine ⟨_, round_sub hu0 herr _ _ _ _ _ _ _ a2 b2 a1 b1, ?_⟩
  unfold muellerMullerR
  simp only []
  rw [if_neg (show ¬ (r.drop 1).length ≠ s.dropLast.length by simp [hl]), if_neg (by omega)]
  unfold mmDecide
  split_ifs <;> rfl

/-- **C118**, timing detector: the decision of `mueller_muller_step` in `p`-bit arithmetic is that of exact arithmetic
unless the exact timing error is within `(1 + u)^(N + 2) - 1` times the mean magnitude of the products of the tolerance. -/
theorem C118_timing (p : ℕ) (dot : List ℝ → List ℝ → ℝ) (hdot : IsDot (fl p) dot) (s r : List ℝ) (preW postW tol : ℝ)
    (hl : s.length = r.length) (hN : 2 ≤ r.length) (ht : 0 < tol)
    (hfar : ((1 + 2 ^ (-(p : ℤ))) ^ (r.length + 2) - 1) * timingSize r.length (fun k => s.getD k 0) (fun k => r.getD k 0) preW postW
      < |(|timingError r.length (fun k => s.getD k 0) (fun k => r.getD k 0) preW postW| - tol)|) :
    muellerMullerR (fl p) dot s r preW postW tol = muellerMuller s r preW postW tol := by
  obtain ⟨e, h1, h2⟩ := muellerMullerR_eq p dot hdot s r preW postW tol hl hN
  rw [h2, muellerMuller_eq s r preW postW tol hl (by omega)]
  generalize timingError r.length (fun k => s.getD k 0) (fun k => r.getD k 0) preW postW = E at *
  have h3 := lt_of_le_of_lt h1 hfar
  congr 2
  unfold mmDecide
  rcases lt_or_ge |E| tol with q | q
  · rw [if_pos q, if_pos]
    rw [abs_of_neg (show |E| - tol < 0 by linarith)] at h3
    have := abs_add_le (e - E) E
    rw [sub_add_cancel] at this
    linarith
  · rw [abs_of_nonneg (show 0 ≤ |E| - tol by linarith)] at h3
    have h4 := abs_lt.1 h3
    rw [if_neg (not_lt.2 q), if_neg]
    · rcases le_or_gt E 0 with k | k
      · rw [abs_of_nonpos k] at h4
        rw [if_neg (show ¬ 0 < e by linarith), if_pos (show e < 0 by linarith), if_neg (not_lt.2 k), if_pos]
        rcases k.lt_or_eq with m | m
        · exact m
        · rw [m, abs_zero] at q; linarith
      · rw [abs_of_pos k] at h4
        rw [if_pos (show 0 < e by linarith), if_pos k]
    · rw [not_lt]
      have := abs_add_le (E - e) e
      rw [sub_add_cancel, abs_sub_comm] at this
      linarith

/-- **C118**, timing detector in double precision: samples up to `S`, symbols up to `Λ`. -/
theorem C118_timing_double (dot : List ℝ → List ℝ → ℝ) (hdot : IsDot (fl 53) dot) (s r : List ℝ) (preW postW tol Λ S : ℝ)
    (hl : s.length = r.length) (hN : 2 ≤ r.length) (hsize : r.length + 2 ≤ 2 ^ 52) (ht : 0 < tol) (hS : ∀ v ∈ s, |v| ≤ S)
    (hΛ : ∀ v ∈ r, |v| ≤ Λ)
    (hfar : ((r.length : ℝ) + 2) / 2 ^ 52 * ((|postW| + |preW|) * (Λ * S))
      < |(|timingError r.length (fun k => s.getD k 0) (fun k => r.getD k 0) preW postW| - tol)|) :
    muellerMullerR (fl 53) dot s r preW postW tol = muellerMuller s r preW postW tol := by
  refine C118_timing 53 dot hdot s r preW postW tol hl hN ht (lt_of_le_of_lt ?_ hfar)
  have hΛ0 : 0 ≤ Λ := (abs_nonneg _).trans (hΛ _ (mem_of_getD 0 r (show 0 < r.length by omega)))
  have hS0 : 0 ≤ S := (abs_nonneg _).trans (hS _ (mem_of_getD 0 s (show 0 < s.length by omega)))
  have hn0 : (0 : ℝ) < (r.length : ℝ) - 1 := by
    have : (2 : ℝ) ≤ r.length := by exact_mod_cast hN
    linarith
  have hmean : ∀ f g : ℕ → ℝ, (∀ k, |f k| ≤ Λ) → (∀ k, |g k| ≤ S) →
      (∑ k ∈ range (r.length - 1), |f k| * |g k|) / ((r.length : ℝ) - 1) ≤ Λ * S := by
    intro f g hf hg
    rw [div_le_iff₀ hn0]
    calc ∑ k ∈ range (r.length - 1), |f k| * |g k| ≤ ∑ _k ∈ range (r.length - 1), Λ * S :=
          sum_le_sum fun k _ => mul_le_mul (hf k) (hg k) (abs_nonneg _) hΛ0
      _ = Λ * S * ((r.length : ℝ) - 1) := by
          rw [sum_const, card_range, nsmul_eq_mul, Nat.cast_sub (by omega), Nat.cast_one, mul_comm]
  have hr' := fun k => getD_abs_le hΛ0 hΛ k
  have hs' := fun k => getD_abs_le hS0 hS k
  have h1 : timingSize r.length (fun k => s.getD k 0) (fun k => r.getD k 0) preW postW ≤ (|postW| + |preW|) * (Λ * S) := by
    unfold timingSize
    rw [add_mul]
    exact add_le_add (mul_le_mul_of_nonneg_left (hmean _ _ hr' fun k => hs' _) (abs_nonneg _))
      (mul_le_mul_of_nonneg_left (hmean _ _ (fun k => hr' _) hs') (abs_nonneg _))
  have h2 := double_gap (r.length + 2) hsize
  push_cast at h2
  refine mul_le_mul h2 h1 ?_ (by positivity)
  unfold timingSize
  have hsum : ∀ f g : ℕ → ℝ, 0 ≤ (∑ k ∈ range (r.length - 1), |f k| * |g k|) / ((r.length : ℝ) - 1) := fun f g =>
    div_nonneg (sum_nonneg fun _ _ => by positivity) hn0.le
  exact add_nonneg (mul_nonneg (abs_nonneg _) (hsum _ _)) (mul_nonneg (abs_nonneg _) (hsum _ _))

/-! ### feed-forward equalizer -/

/-- **C118**, feed-forward equalizer: in `p`-bit arithmetic every output of `ffe_dfe` without feedback taps differs from
the exact one by at most `(1 + u)^L - 1` times the sum of the magnitudes of the terms; the returned memory is exact. -/
theorem C118_ffe (p : ℕ) (conv : List ℝ → List ℝ → List ℝ) (hconv : IsConvValid (fl p) conv) (x ffe : List ℝ)
    (zi : Option (List ℝ)) (hL : 2 ≤ ffe.length) (hz : ∀ z, zi = some z → z.length = ffe.length) (hx : 0 < x.length)
    (levels : Option (List ℝ)) (osr : ℕ) (phase : ℤ) (ziD : Option (List ℝ)) :
    ∃ y yE zo, ffeR (fl p) conv x ffe zi = .ok (.ffe y zo) ∧ ffeDfe x ffe none levels osr phase zi ziD = .ok (.ffe yE zo) ∧
      y.length = x.length ∧ yE.length = x.length ∧ ∀ n : ℕ, n < x.length →
        |y.getD n 0 - yE.getD n 0| ≤ ((1 + 2 ^ (-(p : ℤ))) ^ ffe.length - 1)
          * ∑ i ∈ range ffe.length, |ffe.getD i 0| * |withPast ((zi.getD []).drop 1).reverse x (n - i)| := by
  obtain ⟨z, hz', hp⟩ : ∃ z, initFfe ffe zi = .ok z ∧ withPast z.reverse x = withPast ((zi.getD []).drop 1).reverse x := by
    cases zi with
    | none =>
      refine ⟨_, by simp only [initFfe]; rw [if_neg (by omega)], ?_⟩
      rw [List.reverse_replicate]
      funext t
      exact withPast_zeros _ _ _
    | some z => exact ⟨z.drop 1, by simp only [initFfe]; rw [if_pos (hz z rfl)], rfl⟩
  have hzl := initFfe_length ffe z zi (by omega) hz'
  obtain ⟨c1, c2⟩ := hconv ffe (z ++ x) (by omega) (by rw [List.length_append]; omega)
  rw [List.length_append, show z.length + x.length - ffe.length + 1 = x.length by omega] at c1
  refine ⟨_, _, _, ?_, ffeDfe_ffe x ffe levels osr phase zi ziD z hz' hL hx, c1, convValid_length ffe z x hzl, fun n hn => ?_⟩
  · unfold ffeR
    rw [if_neg (by omega), hz']
    show (if _ then _ else _) = _
    rw [if_neg (by omega)]
    rfl
  · rw [convValid_getD ffe z x hzl n hn, ← hp]
    have h1 := roundedDot_error (unit_nonneg p) (fl_error p) (c2 n (by rw [List.length_append]; omega))
    rw [pairSum_range, pairAbs_range, List.length_map, List.length_range] at h1
    have e : ∀ i ∈ range ffe.length, (z ++ x).getD (n + ffe.length - 1 - i) 0 = withPast z.reverse x ((n : ℤ) - i) := by
      intro i hi
      rw [mem_range] at hi
      rw [ext_withPast]
      congr 1
      omega
    rw [sum_congr rfl fun i hi => by rw [e i hi], sum_congr (s₂ := range ffe.length) (f := fun i => |ffe.getD i 0| * |(z ++ x).getD (n + ffe.length - 1 - i) 0|) rfl
      fun i hi => by rw [e i hi]] at h1
    exact h1

/-- **C118**, a single tap. -/
theorem C118_single_tap (p : ℕ) (conv : List ℝ → List ℝ → List ℝ) (x : List ℝ) (f : ℝ) (zi : Option (List ℝ))
    (levels : Option (List ℝ)) (osr : ℕ) (phase : ℤ) (ziD : Option (List ℝ)) :
    ∃ y yE, ffeR (fl p) conv x [f] zi = .ok (.plain y) ∧ ffeDfe x [f] none levels osr phase zi ziD = .ok (.plain yE) ∧
      y.length = x.length ∧ yE.length = x.length ∧
      ∀ n : ℕ, n < x.length → |y.getD n 0 - yE.getD n 0| ≤ 2 ^ (-(p : ℤ)) * |yE.getD n 0| := by
  refine ⟨_, _, rfl, rfl, by simp, by simp, fun n hn => ?_⟩
  rw [getD_map_lt _ 0 0 _ hn, getD_map_lt _ 0 0 _ hn]
  exact fl_error p _

/-- the channel and the equalizer as one filter -/
theorem cascade_sum (f b : List ℝ) (a : ℤ → ℝ) (t : ℤ) (hf : 0 < f.length) (hb : 0 < b.length) :
    ∑ i ∈ range f.length, f.getD i 0 * ∑ j ∈ range b.length, b.getD j 0 * a (t - i - j)
      = ∑ m ∈ range (f.length + b.length - 1), cascadeTap f b m * a (t - m) := by
  have h1 : ∀ i ∈ range f.length, f.getD i 0 * ∑ j ∈ range b.length, b.getD j 0 * a (t - i - j)
      = ∑ m ∈ range (f.length + b.length - 1), (if i ≤ m then f.getD i 0 * b.getD (m - i) 0 else 0) * a (t - m) := by
    intro i hi
    rw [mem_range] at hi
    obtain ⟨F, hF⟩ : ∃ F : ℕ → ℝ, F = fun m => (if i ≤ m then f.getD i 0 * b.getD (m - i) 0 else 0) * a (t - m) := ⟨_, rfl⟩
    have e1 : ∑ m ∈ range (f.length + b.length - 1), F m = ∑ m ∈ Ico i (i + b.length), F m := by
      symm
      refine sum_subset (fun m hm => ?_) fun m _ hm2 => ?_
      · rw [mem_Ico] at hm; rw [mem_range]; omega
      · rw [hF]
        simp only [mem_Ico, not_and, not_lt] at hm2 ⊢
        by_cases q : i ≤ m
        · rw [if_pos q, getD_of_le 0 b (by have := hm2 q; omega)]; simp
        · rw [if_neg q, zero_mul]
    rw [← hF, e1, sum_Ico_eq_sum_range, Nat.add_sub_cancel_left, mul_sum, hF]
    refine sum_congr rfl fun j _ => ?_
    simp only
    rw [if_pos (by omega), Nat.add_sub_cancel_left, Nat.cast_add, show t - i - j = t - ((i : ℤ) + j) by ring]
    ring
  rw [sum_congr rfl h1, sum_comm]
  refine sum_congr rfl fun m _ => ?_
  rw [← sum_mul, cascadeTap]

/-- **C118**, whole link: symbols from `lv` through the FIR channel `b`, then the equalizer `f`, then the slicer, every
step in `p`-bit arithmetic. `η` bounds the rounding errors at the slicer. If the interference left by the equalizer
and the rounding together stay below about half the level distance, every decision is the symbol sent `k` symbols before. -/
theorem C118_link (p : ℕ) (conv cv : List ℝ → List ℝ → List ℝ) (hconv : IsConvolve (fl p) conv) (hcv : IsConvValid (fl p) cv)
    (A : Arith) (hA : FloatArith p A) (b f lv a : List ℝ) (hb : 0 < b.length) (hf : 2 ≤ f.length) (ha : 0 < a.length)
    (hmem : ∀ v ∈ a, v ∈ lv) (D : ℝ) (hdist : ∀ l ∈ lv, ∀ l' ∈ lv, l' ≠ l → D ≤ |l' - l|)
    (Λ : ℝ) (hΛ : ∀ l ∈ lv, |l| ≤ Λ) (k : ℕ) (hk : k < f.length + b.length - 1) (η : ℝ)
    (hη : ((1 + 2 ^ (-(p : ℤ))) ^ (f.length + (2 * b.length + 1)) - 1)
      * ((f.map (fun v => |v|)).sum * ((b.map (fun v => |v|)).sum * Λ)) ≤ η)
    (hm : (1 + 2 ^ (-(p : ℤ))) * (Λ * residualIsi f b k + η) < (1 - 2 ^ (-(p : ℤ))) * (D - (Λ * residualIsi f b k + η))) :
    ∃ y z s zo, awgnChannelR (fl p) conv a b (.num 1) none = .ok (y, z) ∧ ffeR (fl p) cv y f none = .ok (.ffe s zo) ∧
      s.length = a.length ∧ ∀ n : ℕ, k ≤ n → n < a.length → sliceOneA A lv (s.getD n 0) = a.getD (n - k) 0 := by
  have hu0 := unit_nonneg p
  have herr := fl_error p
  have hu1 : (2 : ℝ) ^ (-(p : ℤ)) ≤ 1 := zpow_le_one_of_nonpos₀ (by norm_num) (by omega)
  obtain ⟨y, z', yE, zE, k1, k2, k3, k4, k5⟩ := C90_fir p conv hconv b (.num 1) a hb rfl (by simp [Denom.coeffs]) ha none
    (by simp)
  obtain ⟨s, sE, zo, g1, g2, g3, g4, g5⟩ := C118_ffe p cv hcv y f none hf (by simp) (by omega) none 1 0 none
  obtain ⟨yE', zE', e1, e2, e3⟩ := channel_exact b (.num 1) a hb (by simp [Denom.coeffs]) (by simp [Denom.coeffs]) ha none (by simp)
  rw [k2] at e1
  obtain ⟨rfl, rfl⟩ := Prod.mk.inj (Except.ok.inj e1)
  refine ⟨y, z', s, zo, k1, g1, by omega, fun n hkn hn => ?_⟩
  obtain ⟨u, hu⟩ : ∃ u : ℝ, u = 2 ^ (-(p : ℤ)) := ⟨_, rfl⟩
  rw [← hu] at hu0 hu1 hη hm
  simp only [← hu] at herr k5 g5
  obtain ⟨B, hB⟩ : ∃ B, B = (b.map (fun v => |v|)).sum := ⟨_, rfl⟩
  obtain ⟨F, hF⟩ : ∃ F, F = (f.map (fun v => |v|)).sum := ⟨_, rfl⟩
  obtain ⟨R, hR⟩ : ∃ R, R = residualIsi f b k := ⟨_, rfl⟩
  rw [← hB, ← hF] at hη
  rw [← hR] at hm
  rw [map_abs_sum] at hB hF
  have hΛ0 : 0 ≤ Λ := (abs_nonneg _).trans (hΛ _ (hmem _ (mem_of_getD 0 a ha)))
  have haΛ : ∀ t, |withPast [] a t| ≤ Λ := by
    intro t
    unfold withPast
    split
    · exact getD_abs_le hΛ0 (fun v hv => hΛ v (hmem v hv)) _
    · simpa using hΛ0
  have hB0 : 0 ≤ B := by rw [hB]; exact sum_nonneg fun _ _ => abs_nonneg _
  have hF0 : 0 ≤ F := by rw [hF]; exact sum_nonneg fun _ _ => abs_nonneg _
  obtain ⟨c, hc⟩ : ∃ c : ℤ → ℝ, c = fun t => ∑ j ∈ range b.length, b.getD j 0 * withPast [] a (t - j) := ⟨_, rfl⟩
  have hpast : ∀ t : ℤ, t < 0 → withPast [] a t = 0 := fun t ht => by
    unfold withPast; rw [if_neg (by omega)]; simp
  have hcneg : ∀ t : ℤ, t < 0 → c t = 0 := fun t ht => by
    rw [hc]; exact sum_eq_zero fun j _ => by rw [hpast _ (by omega), mul_zero]
  have hterm : ∀ t : ℤ, ∑ j ∈ range b.length, |b.getD j 0| * |withPast [] a (t - j)| ≤ B * Λ := fun t => by
    rw [hB, sum_mul]
    exact sum_le_sum fun j _ => mul_le_mul_of_nonneg_left (haΛ _) (abs_nonneg _)
  have hcB : ∀ t, |c t| ≤ B * Λ := fun t => by
    rw [hc]
    refine (abs_sum_le_sum_abs _ _).trans ?_
    simp only [abs_mul]
    exact hterm t
  have hyE : ∀ m : ℕ, m < a.length → yE.getD m 0 = c m := by
    intro m hm'
    rw [e3 m hm', hc]
    simp only [Denom.coeffs, List.length_cons, List.length_nil, zero_add, Ico_self, sum_empty, sub_zero, List.getD_cons_zero,
      div_one]
    simp [channelMemory, channelRest]
  obtain ⟨M, hM⟩ : ∃ M, M = 2 * b.length + 1 := ⟨_, rfl⟩
  rw [← hM] at hη k5
  have hdiff : ∀ t : ℤ, t < a.length → |withPast [] y t - c t| ≤ ((1 + u) ^ M - 1) * (B * Λ) := by
    intro t ht
    rcases lt_or_ge t 0 with q | q
    · rw [hcneg t q]
      unfold withPast
      rw [if_neg (by omega)]
      simpa using mul_nonneg (pow_gap u hu0 M) (mul_nonneg hB0 hΛ0)
    · obtain ⟨m, rfl⟩ := Int.eq_ofNat_of_zero_le q
      rw [withPast_nat, ← hyE m (by omega)]
      refine (k5 m (by omega)).trans (mul_le_mul_of_nonneg_left ?_ (pow_gap u hu0 M))
      simp only [Denom.coeffs, List.getD_cons_zero, div_one, Option.getD_none, List.getD_nil, abs_zero, add_zero]
      exact hterm m
  have hyb : ∀ t : ℤ, t < a.length → |withPast [] y t| ≤ (1 + u) ^ M * (B * Λ) := by
    intro t ht
    have h1 := hdiff t ht
    have h2 := abs_add_le (withPast [] y t - c t) (c t)
    rw [sub_add_cancel] at h2
    have h3 := hcB t
    linarith
  -- exact equalizer on the rounded channel output
  have hsE : sE.getD n 0 = ∑ i ∈ range f.length, f.getD i 0 * withPast [] y ((n : ℤ) - i) := by
    obtain ⟨q, zq, q1, -, q2, -⟩ := C46_convolution y f none 1 0 none none hf (by simp) (by omega)
    rw [g2] at q1
    obtain ⟨rfl, rfl⟩ := EqOut.ffe.inj (Except.ok.inj q1)
    simpa using q2 n (by omega)
  have s1 : |s.getD n 0 - sE.getD n 0| ≤ ((1 + u) ^ f.length - 1) * (F * ((1 + u) ^ M * (B * Λ))) := by
    refine (g5 n (by omega)).trans (mul_le_mul_of_nonneg_left ?_ (pow_gap u hu0 _))
    rw [hF, sum_mul]
    refine sum_le_sum fun i _ => mul_le_mul_of_nonneg_left ?_ (abs_nonneg _)
    simpa using hyb ((n : ℤ) - i) (by omega)
  have s2 : |sE.getD n 0 - ∑ i ∈ range f.length, f.getD i 0 * c ((n : ℤ) - i)| ≤ F * (((1 + u) ^ M - 1) * (B * Λ)) := by
    rw [hsE, ← sum_sub_distrib, hF, sum_mul]
    refine (abs_sum_le_sum_abs _ _).trans (sum_le_sum fun i _ => ?_)
    rw [← mul_sub, abs_mul]
    exact mul_le_mul_of_nonneg_left (hdiff _ (by omega)) (abs_nonneg _)
  have s3 : |∑ i ∈ range f.length, f.getD i 0 * c ((n : ℤ) - i) - a.getD (n - k) 0| ≤ Λ * R := by
    have h1 := cascade_sum f b (withPast [] a) n (by omega) hb
    rw [hc]
    simp only
    rw [h1]
    have h2 : a.getD (n - k) 0 = ∑ m ∈ range (f.length + b.length - 1), (if m = k then 1 else 0) * withPast [] a ((n : ℤ) - m) := by
      rw [sum_eq_single k (fun m _ hm' => by rw [if_neg hm', zero_mul]) (fun h => absurd (mem_range.2 hk) h), if_pos rfl, one_mul,
        show (n : ℤ) - k = ((n - k : ℕ) : ℤ) by omega, withPast_nat]
    rw [h2, ← sum_sub_distrib, hR, residualIsi, mul_sum]
    refine (abs_sum_le_sum_abs _ _).trans (sum_le_sum fun m _ => ?_)
    rw [← sub_mul, abs_mul, mul_comm]
    exact mul_le_mul_of_nonneg_right (haΛ _) (abs_nonneg _)
  have htot : |s.getD n 0 - a.getD (n - k) 0| ≤ Λ * R + η := by
    have h1 := abs_add_three (s.getD n 0 - sE.getD n 0) (sE.getD n 0 - ∑ i ∈ range f.length, f.getD i 0 * c ((n : ℤ) - i))
      (∑ i ∈ range f.length, f.getD i 0 * c ((n : ℤ) - i) - a.getD (n - k) 0)
    rw [sub_add_sub_cancel, sub_add_sub_cancel] at h1
    have h2 : ((1 + u) ^ f.length - 1) * (F * ((1 + u) ^ M * (B * Λ))) + F * (((1 + u) ^ M - 1) * (B * Λ))
        = ((1 + u) ^ (f.length + M) - 1) * (F * (B * Λ)) := by rw [pow_add]; ring
    linarith
  exact sliceOneA_near hu1 herr A hA.sub lv _ _ _ D hu0 (hmem _ (mem_of_getD 0 a (by omega))) htot
    (fun l' h1 h2 => hdist _ (hmem _ (mem_of_getD 0 a (by omega))) l' h1 h2) hm

end Verif
