import Verif.Model.EqTests
import Verif.Spec.EqTests
import Verif.Lemmas.ChanTests
import Verif.Props.ChanTests

/-! Helper lemmas for the test of the equalization estimation. -/

open Finset

namespace Verif
open Spec (unitScale flipBit txLevel periodic chanOut IsLs periodAvg BestPhase withPast eqAt poleGain OpenEye firAt)

/-! ### the coefficients of the channel -/

def polyStep (a : List ℝ) (r : ℝ) : List ℝ := List.zipWith (· + ·) (a ++ [0]) (0 :: a.map (-r * ·))

theorem polyStep_length (a : List ℝ) (r : ℝ) : (polyStep a r).length = a.length + 1 := by
  rw [polyStep]; simp

theorem polyStep_getD (a : List ℝ) (r : ℝ) (k : ℕ) :
    (polyStep a r).getD k 0 = a.getD k 0 + (if k = 0 then 0 else -r * a.getD (k - 1) 0) := by
  have happ : (a ++ [0]).getD k 0 = a.getD k 0 := by
    rcases Nat.lt_or_ge k a.length with h | h
    · rw [List.getD_eq_getElem _ _ (by simp; omega), List.getD_eq_getElem _ _ h, List.getElem_append_left h]
    · rw [getD_of_le 0 a h]
      rcases Nat.lt_or_ge k (a.length + 1) with h2 | h2
      · obtain rfl : k = a.length := by omega
        rw [List.getD_eq_getElem _ _ (by simp)]; simp
      · exact getD_of_le 0 _ (by simpa using h2)
  have hcons : (0 :: a.map (-r * ·)).getD k 0 = if k = 0 then 0 else -r * a.getD (k - 1) 0 := by
    cases k with
    | zero => rfl
    | succ k =>
      rw [if_neg (by omega), List.getD_cons_succ, Nat.add_sub_cancel]
      rcases Nat.lt_or_ge k a.length with h | h
      · rw [List.getD_eq_getElem _ _ (by simpa using h), List.getElem_map, List.getD_eq_getElem _ _ h]
      · rw [getD_of_le 0 _ (by simpa using h), getD_of_le 0 a h, mul_zero]
  rw [← happ, ← hcons, polyStep]
  rcases Nat.lt_or_ge k (a.length + 1) with h | h
  · rw [zipWith_getD _ 0 0 0 _ _ (by simpa using h) (by simpa using h)]
  · rw [getD_of_le 0 _ (by simpa using h), getD_of_le 0 (a ++ [0]) (by simpa using h), getD_of_le 0 (0 :: _) (by simpa using h), add_zero]

theorem firAt_polyStep (a : List ℝ) (r : ℝ) (y : ℤ → ℝ) (n : ℤ) :
    firAt (polyStep a r) y n = firAt a (fun t => y t - r * y (t - 1)) n := by
  rw [firAt, firAt, polyStep_length]
  simp only [polyStep_getD, add_mul]
  rw [sum_add_distrib, sum_range_succ, getD_of_le 0 a le_rfl, zero_mul, add_zero, sum_range_succ', if_pos rfl, zero_mul, add_zero,
    ← sum_add_distrib]
  refine sum_congr rfl fun k _ => ?_
  rw [if_neg (by omega), Nat.add_sub_cancel, show n - ((k + 1 : ℕ) : ℤ) = n - k - 1 by push_cast; ring]
  ring

/-- the signal after removal of the poles one by one -/
def unPole : List ℝ → (ℤ → ℝ) → ℤ → ℝ
  | [], y => y
  | r :: rs, y => fun n => unPole rs y n - r * unPole rs y (n - 1)

theorem npPoly_eq (roots : List ℝ) : npPoly roots = roots.foldl polyStep [1] := rfl

theorem firAt_foldl (roots a : List ℝ) (y : ℤ → ℝ) (n : ℤ) :
    firAt (roots.foldl polyStep a) y n = firAt a (unPole roots y) n := by
  induction roots generalizing a with
  | nil => rfl
  | cons r rs ih => rw [List.foldl_cons, ih, firAt_polyStep]; rfl

theorem firAt_npPoly (roots : List ℝ) (y : ℤ → ℝ) (n : ℤ) : firAt (npPoly roots) y n = unPole roots y n := by
  rw [npPoly_eq, firAt_foldl, firAt]; simp

theorem npPoly_length (roots : List ℝ) : (npPoly roots).length = roots.length + 1 := by
  have : ∀ a, (roots.foldl polyStep a).length = roots.length + a.length := by
    induction roots with
    | nil => simp
    | cons r rs ih => intro a; rw [List.foldl_cons, ih, polyStep_length, List.length_cons]; omega
  rw [npPoly_eq, this]; simp

theorem npPoly_zero (roots : List ℝ) : (npPoly roots).getD 0 0 = 1 := by
  have : ∀ a : List ℝ, a.getD 0 0 = 1 → (roots.foldl polyStep a).getD 0 0 = 1 := by
    induction roots with
    | nil => exact fun a h => h
    | cons r rs ih => intro a h; rw [List.foldl_cons]; exact ih _ (by rw [polyStep_getD, if_pos rfl, add_zero, h])
  exact this _ rfl

/-! ### the interference of the poles -/

theorem unPole_neg (roots : List ℝ) (y : ℤ → ℝ) (hy : ∀ n < 0, y n = 0) : ∀ n < 0, unPole roots y n = 0 := by
  induction roots with
  | nil => exact hy
  | cons r rs ih => intro n hn; show unPole rs y n - r * unPole rs y (n - 1) = 0; rw [ih n hn, ih (n - 1) (by omega)]; ring

theorem one_pole (w x : ℤ → ℝ) (r X : ℝ) (hr : |r| < 1) (M : ℤ) (hw : ∀ n < 0, w n = 0)
    (hx : ∀ n, 0 ≤ n → n < M → |x n| ≤ X) (hX : 0 ≤ X) (he : ∀ n, 0 ≤ n → n < M → w n - r * w (n - 1) = x n) :
    ∀ n < M, |w n| ≤ X / (1 - |r|) := by
  have h1 : 0 < 1 - |r| := by linarith
  have hpos : 0 ≤ X / (1 - |r|) := div_nonneg hX h1.le
  have key : ∀ k : ℕ, (k : ℤ) < M → |w k| ≤ X / (1 - |r|) := by
    intro k
    induction k with
    | zero =>
      intro hk
      have h := he 0 le_rfl (by simpa using hk)
      rw [hw (0 - 1) (by norm_num), mul_zero, sub_zero] at h
      rw [Nat.cast_zero, h]
      refine (hx 0 le_rfl (by simpa using hk)).trans ?_
      rw [le_div_iff₀ h1]
      nlinarith [abs_nonneg r]
    | succ k ih =>
      intro hk
      have h := he ((k + 1 : ℕ) : ℤ) (by positivity) hk
      rw [show (((k + 1 : ℕ) : ℤ) - 1) = k by push_cast; ring] at h
      have h2 := ih (by push_cast at hk; omega)
      have h3 := hx _ (by positivity) hk
      have h4 : w ((k + 1 : ℕ) : ℤ) = x ((k + 1 : ℕ) : ℤ) + r * w k := by linarith
      rw [h4]
      refine (abs_add_le _ _).trans ?_
      rw [abs_mul]
      have h5 := mul_le_mul_of_nonneg_left h2 (abs_nonneg r)
      have h6 : X + |r| * (X / (1 - |r|)) = X / (1 - |r|) := by field_simp; ring
      linarith
  intro n hn
  rcases lt_or_ge n 0 with h | h
  · rw [hw n h, abs_zero]; exact hpos
  · obtain ⟨k, rfl⟩ := Int.eq_ofNat_of_zero_le h
    exact key k hn

theorem poleGain_ge (roots : List ℝ) (hr : ∀ r ∈ roots, |r| < 1) : 1 ≤ poleGain roots := by
  rw [poleGain]
  induction roots with
  | nil => simp
  | cons r rs ih =>
    rw [List.map_cons, List.prod_cons]
    have h := hr r (by simp)
    have h1 : 1 ≤ 1 / (1 - |r|) := by rw [le_div_iff₀ (by linarith)]; linarith [abs_nonneg r]
    have h2 := ih (fun r hr' => hr r (by simp [hr']))
    nlinarith

/-- the output of the all-pole channel stays near its input -/
theorem poles_isi (roots : List ℝ) (hr : ∀ r ∈ roots, |r| < 1) (y x : ℤ → ℝ) (M : ℤ) (X : ℝ) (hX : 0 ≤ X)
    (hy : ∀ n < 0, y n = 0) (hx : ∀ n, 0 ≤ n → n < M → |x n| ≤ X) (he : ∀ n, 0 ≤ n → n < M → unPole roots y n = x n) :
    ∀ n, 0 ≤ n → n < M → |y n - x n| ≤ (poleGain roots - 1) * X := by
  induction roots generalizing x X with
  | nil =>
    intro n h0 hn
    rw [← he n h0 hn, poleGain]; simp [unPole]
  | cons r rs ih =>
    have hr1 := hr r (by simp)
    have hd : 0 < 1 - |r| := by linarith
    have hw := one_pole (unPole rs y) x r X hr1 M (unPole_neg rs y hy) hx hX he
    have h2 := ih (fun r hr' => hr r (by simp [hr'])) (unPole rs y) (X / (1 - |r|)) (div_nonneg hX hd.le) (fun n _ hn => hw n hn)
      (fun _ _ _ => rfl)
    intro n h0 hn
    have h3 := h2 n h0 hn
    have h4 := he n h0 hn
    rw [unPole] at h4
    have h5 : unPole rs y n - x n = r * unPole rs y (n - 1) := by linarith
    have h6 : |unPole rs y n - x n| ≤ |r| * (X / (1 - |r|)) := by
      rw [h5, abs_mul]; exact mul_le_mul_of_nonneg_left (hw (n - 1) (by omega)) (abs_nonneg r)
    have h7 : y n - x n = (y n - unPole rs y n) + (unPole rs y n - x n) := by ring
    rw [h7]
    refine (abs_add_le _ _).trans ((add_le_add h3 h6).trans_eq ?_)
    rw [poleGain, poleGain, List.map_cons, List.prod_cons]
    field_simp
    ring

/-! ### the lock with an open eye -/

/-- if the samples are closer to the symbols than half the distance of the levels, then the best phase reproduces the symbols -/
theorem bestPhase_open (x : ℤ → ℝ) (s : ℕ → ℝ) (W : ℕ) (φ ph : ℤ) (I δ : ℝ) (hI : 2 * I < δ)
    (hlev : ∀ a b, δ * |x a - x b| ≤ (x a - x b) ^ 2) (hs : ∀ t < W, |s t - x (t + φ)| ≤ I)
    (hpow : ∑ i ∈ range W, x (i + ph) ^ 2 = ∑ i ∈ range W, x (i + φ) ^ 2) (hb : BestPhase x s W ph) :
    ∀ t < W, x (t + ph) = x (t + φ) := by
  have h1 := hb φ
  have h2 : ∑ i ∈ range W, (δ / 2 - I) * |x (i + φ) - x (i + ph)| ≤ 0 := by
    have h3 : ∀ i ∈ range W, (δ / 2 - I) * |x (i + φ) - x (i + ph)|
        ≤ x (i + φ) * s i - x (i + ph) * s i - (x (i + φ) ^ 2 - x (i + ph) ^ 2) / 2 := by
      intro i hi
      have e1 := hlev (i + φ) (i + ph)
      have e2 := hs i (mem_range.1 hi)
      have e3 : -(I * |x (i + φ) - x (i + ph)|) ≤ (x (i + φ) - x (i + ph)) * (s i - x (i + φ)) := by
        have e4 := neg_abs_le ((x (i + φ) - x (i + ph)) * (s i - x (i + φ)))
        rw [abs_mul] at e4
        have e5 := mul_le_mul_of_nonneg_left e2 (abs_nonneg (x (i + φ) - x (i + ph)))
        linarith
      nlinarith
    refine (sum_le_sum h3).trans ?_
    rw [sum_sub_distrib, sum_sub_distrib, ← sum_div, sum_sub_distrib, hpow, sub_self, zero_div, sub_zero]
    linarith
  have h4 : ∀ i ∈ range W, 0 ≤ (δ / 2 - I) * |x (i + φ) - x (i + ph)| := fun i _ =>
    mul_nonneg (by linarith) (abs_nonneg _)
  intro t ht
  have h5 := (sum_eq_zero_iff_of_nonneg h4).1 (le_antisymm h2 (sum_nonneg h4)) t (mem_range.2 ht)
  rcases mul_eq_zero.1 h5 with h | h
  · linarith
  · exact (sub_eq_zero.1 (abs_eq_zero.1 h)).symm

/-! ### the taps are determined -/

/-- columns whose Gram matrix is diagonally dominant are independent -/
theorem dominant_rank (S : Finset ℕ) (x : ℕ → ℕ → ℝ) (J : ℕ)
    (hd : ∀ i < J, ∑ j ∈ (range J).erase i, |∑ n ∈ S, x n i * x n j| < ∑ n ∈ S, x n i * x n i)
    (g : ℕ → ℝ) (h0 : ∀ n ∈ S, ∑ j ∈ range J, g j * x n j = 0) : ∀ j < J, g j = 0 := by
  rcases Nat.eq_zero_or_pos J with hJ | hJ
  · intro j hj; omega
  obtain ⟨i, hi, hmax⟩ := exists_max_image (range J) (fun j => |g j|) ⟨0, mem_range.2 hJ⟩
  rw [mem_range] at hi
  have hnull : ∑ j ∈ range J, g j * ∑ n ∈ S, x n i * x n j = 0 := by
    have : ∑ n ∈ S, x n i * ∑ j ∈ range J, g j * x n j = 0 :=
      sum_eq_zero fun n hn => by rw [h0 n hn, mul_zero]
    rw [← this]
    simp only [mul_sum]
    rw [sum_comm]
    exact sum_congr rfl fun n _ => sum_congr rfl fun j _ => by ring
  have hsplit := add_sum_erase (range J) (fun j => g j * ∑ n ∈ S, x n i * x n j) (mem_range.2 hi)
  rw [hnull] at hsplit
  have h1 : |g i| * ∑ n ∈ S, x n i * x n i ≤ |g i| * ∑ j ∈ (range J).erase i, |∑ n ∈ S, x n i * x n j| := by
    have e1 : |g i * ∑ n ∈ S, x n i * x n i| = |g i| * ∑ n ∈ S, x n i * x n i := by
      rw [abs_mul, abs_of_nonneg (a := ∑ n ∈ S, x n i * x n i) (sum_nonneg fun n _ => mul_self_nonneg _)]
    rw [← e1, eq_neg_of_add_eq_zero_left hsplit, abs_neg, mul_sum]
    refine (abs_sum_le_sum_abs _ _).trans (sum_le_sum fun j hj => ?_)
    rw [abs_mul]
    exact mul_le_mul_of_nonneg_right (hmax j (mem_of_mem_erase hj)) (abs_nonneg _)
  have h2 : |g i| = 0 := by
    by_contra hne
    exact absurd (le_of_mul_le_mul_left h1 (lt_of_le_of_ne (abs_nonneg _) (Ne.symm hne))) (not_le.2 (hd i hi))
  intro j hj
  have h3 : |g j| ≤ |g i| := hmax j (mem_range.2 hj)
  rw [h2] at h3
  exact abs_eq_zero.1 (le_antisymm h3 (abs_nonneg _))

/-- the windows of a sequence with small autocorrelation are independent, even if 25 of them are missing -/
theorem window_rank_long {N : ℕ} [NeZero N] (hN : 25 ≤ N) (ref : ZMod N → ℝ) (J : ℕ) (b : ℤ) (X C D : ℝ) (hX : ∀ z, |ref z| ≤ X)
    (hD : ∑ z, ref z * ref z = D)
    (hC : ∀ i < J, ∀ j < J, i ≠ j → |∑ z, ref z * ref (z + ((i : ZMod N) - j))| ≤ C)
    (hdom : ((J : ℝ) - 1) * (C + 25 * X ^ 2) < D - 25 * X ^ 2)
    (g : ℕ → ℝ) (h0 : ∀ n < N - 25, ∑ j ∈ range J, g j * ref ((n : ZMod N) + b - j) = 0) : ∀ j < J, g j = 0 := by
  have hfull : ∀ i j : ℕ, ∑ n ∈ range N, ref ((n : ZMod N) + b - i) * ref ((n : ZMod N) + b - j)
      = ∑ z, ref z * ref (z + ((i : ZMod N) - j)) := by
    intro i j
    have hz := sum_range_zmod (fun z : ZMod N => ref (z + b - i) * ref (z + b - j)) 1
    rw [one_mul, Nat.cast_one, one_mul] at hz
    rw [hz, ← Equiv.sum_comp (Equiv.addRight ((i : ZMod N) - b))]
    refine sum_congr rfl fun z _ => ?_
    show ref (z + ((i : ZMod N) - b) + b - i) * ref (z + ((i : ZMod N) - b) + b - j) = _
    rw [show z + ((i : ZMod N) - b) + b - i = z by ring, show z + ((i : ZMod N) - b) + b - j = z + ((i : ZMod N) - j) by ring]
  have hpart : ∀ i j : ℕ, |∑ n ∈ range N, ref ((n : ZMod N) + b - i) * ref ((n : ZMod N) + b - j)
      - ∑ n ∈ range (N - 25), ref ((n : ZMod N) + b - i) * ref ((n : ZMod N) + b - j)| ≤ 25 * X ^ 2 := by
    intro i j
    have e : range N = range (N - 25 + 25) := by congr 1; omega
    rw [e, sum_range_add, add_sub_cancel_left]
    refine (abs_sum_le_sum_abs _ _).trans ?_
    have : ∀ k ∈ range 25, |ref (((N - 25 + k : ℕ) : ZMod N) + b - i) * ref (((N - 25 + k : ℕ) : ZMod N) + b - j)| ≤ X ^ 2 := by
      intro k _
      rw [abs_mul, pow_two]
      exact mul_le_mul (hX _) (hX _) (abs_nonneg _) ((abs_nonneg _).trans (hX 0))
    refine (sum_le_card_nsmul _ _ _ this).trans ?_
    rw [card_range, nsmul_eq_mul]; norm_num
  refine dominant_rank (range (N - 25)) (fun n j => ref ((n : ZMod N) + b - j)) J (fun i hi => ?_) g (fun n hn => h0 n (mem_range.1 hn))
  have h1 : D - 25 * X ^ 2 ≤ ∑ n ∈ range (N - 25), ref ((n : ZMod N) + b - i) * ref ((n : ZMod N) + b - i) := by
    have := (abs_le.1 (hpart i i)).2
    rw [hfull, sub_self] at this
    simp only [add_zero, hD] at this
    linarith
  refine lt_of_le_of_lt ?_ (lt_of_lt_of_le hdom h1)
  have h2 : ∀ j ∈ (range J).erase i, |∑ n ∈ range (N - 25), ref ((n : ZMod N) + b - i) * ref ((n : ZMod N) + b - j)| ≤ C + 25 * X ^ 2 := by
    intro j hj
    rw [mem_erase, mem_range] at hj
    have h3 := hpart i j
    rw [hfull] at h3
    have h4 := hC i hi j hj.2 (Ne.symm hj.1)
    rw [abs_le] at h3 h4 ⊢
    constructor <;> linarith [h3.1, h3.2, h4.1, h4.2]
  refine (sum_le_card_nsmul _ _ _ h2).trans_eq ?_
  rw [card_erase_of_mem (mem_range.2 hi), card_range, nsmul_eq_mul, Nat.cast_sub (by omega), Nat.cast_one]

end Verif
