import Verif.Lemmas.Delay
import Verif.Lemmas.FloatDfe
import Verif.Props.Ffe
import Mathlib.Tactic.IntervalCases

/-! **C82**: the equalizer in floating-point arithmetic decides as in exact arithmetic. -/

namespace Verif
open Spec

/-- The operations of `A` are those of `p`-bit floating-point arithmetic; the order of summation in scalar
products is left open. -/
structure FloatArith (p : ℕ) (A : Arith) : Prop where
  dot : ∀ a b : List ℝ, a.length = b.length → RoundedDot (fl p) (a.zip b) (A.dot a b)
  sub : ∀ x y : ℝ, A.sub x y = fl p (x - y)

/-- the parametrised equalizer with exact operations is the equalizer of C47 -/
theorem ffeDfeA_exact (x ffe dfe : List ℝ) (levels : Option (List ℝ)) (osr : ℕ) (phase : ℤ) (ziF ziD : Option (List ℝ)) :
    ffeDfeA Arith.exact x ffe dfe levels osr phase ziF ziD = ffeDfe x ffe (some dfe) levels osr phase ziF ziD := by
  have h : ∀ (frs : List (List ℝ)) (ii : ℕ) (sOut mem : List ℝ),
      dfeLoopA Arith.exact ffe dfe levels osr phase ii sOut mem frs = dfeLoop ffe dfe levels osr phase ii sOut mem frs := by
    intro frs
    induction frs with
    | nil => intro ii sOut mem; rw [dfeLoopA, dfeLoop]
    | cons fr frs ih =>
      intro ii sOut mem
      rw [dfeLoopA, dfeLoop]
      simp only [ih]
      rfl
  unfold ffeDfeA ffeDfe
  simp only [h, bind, Except.bind]
  cases initDfe dfe ziD with
  | error e => rfl
  | ok mem =>
  cases initFfe ffe ziF with
  | error e => rfl
  | ok z =>
  simp only
  cases buffer (z ++ x) ffe.length ((ffe.length : ℤ) - 1) 0 with
  | error e => rfl
  | ok M =>
  simp only
  cases dfeLoop ffe dfe levels osr phase 0 [] mem M with
  | error e => rfl
  | ok q =>
  simp only
  by_cases hl : ffe.length = 1
  · rw [if_pos hl, if_pos hl]
  · rw [if_neg hl, if_neg hl]
    cases M.getLast? with
    | none => rfl
    | some fr => rfl

/-- **C82.** The decision feedback equalizer evaluated in `p`-bit floating-point arithmetic, with scalar
products summed in any order and with or without fused multiply-add, returns the same decisions and
memories as in exact arithmetic, and slicer inputs that differ by at most `β`, whenever the exact slicer
inputs are within `m` of a level, levels are at least `D` apart, and `(1 + u) (m + β) < (1 - u) (D - m - β)`
with `u = 2^-p` and `β = ((1 + u)^(taps + 1) - 1) (X Σ|ffe| + Λ Σ|dfe|)`. -/
theorem C82_decisions (p : ℕ) (A : Arith) (hA : FloatArith p A) (x ffe dfe lv : List ℝ) (hlv : lv ≠ []) (osr : ℕ)
    (phase : ℤ) (ziF ziD : Option (List ℝ)) (hL : 0 < ffe.length) (hx : 0 < x.length) (r : EqOut ℝ) (X Λ m D β : ℝ)
    (hX : 0 ≤ X) (hxX : ∀ v ∈ x, |v| ≤ X) (hzX : ∀ v ∈ ziF.getD [], |v| ≤ X)
    (hΛ : 0 ≤ Λ) (hlΛ : ∀ l ∈ lv, |l| ≤ Λ) (hzΛ : ∀ v ∈ ziD.getD [], |v| ≤ Λ)
    (hβ : β = ((1 + 2 ^ (-(p : ℤ))) ^ (max ffe.length dfe.length + 1) - 1)
        * (X * (ffe.map (fun v => |v|)).sum + Λ * (dfe.map (fun v => |v|)).sum))
    (hexact : ffeDfe x ffe (some dfe) (some lv) osr phase ziF ziD = .ok r)
    (hmargin : ∀ s ∈ r.signal, ∃ l ∈ lv, |s - l| ≤ m ∧ ∀ l' ∈ lv, l' ≠ l → D ≤ |l' - l|)
    (hm : (1 + 2 ^ (-(p : ℤ))) * (m + β) < (1 - 2 ^ (-(p : ℤ))) * (D - (m + β))) :
    ∃ r', ffeDfeA A x ffe dfe (some lv) osr phase ziF ziD = .ok r' ∧ r'.memories = r.memories ∧
      r'.signal.length = r.signal.length ∧ (∀ i < r.signal.length, |r'.signal.getD i 0 - r.signal.getD i 0| ≤ β) ∧
      r'.signal.map (sliceOneA A lv) = r.signal.map (sliceOne lv) := by
  have hu0 : (0 : ℝ) ≤ 2 ^ (-(p : ℤ)) := (zpow_pos (by norm_num) _).le
  have hu1 : (2 : ℝ) ^ (-(p : ℤ)) ≤ 1 := zpow_le_one_of_nonpos₀ (by norm_num) (by omega)
  have hnn : ∀ l : List ℝ, 0 ≤ (l.map (fun v => |v|)).sum := fun l =>
    List.sum_nonneg (by intro x hx; rw [List.mem_map] at hx; obtain ⟨q, -, rfl⟩ := hx; positivity)
  have hβ0 : 0 ≤ β := by
    rw [hβ]
    have : (1 : ℝ) ≤ (1 + 2 ^ (-(p : ℤ))) ^ (max ffe.length dfe.length + 1) := one_le_pow₀ (by linarith)
    exact mul_nonneg (by linarith) (add_nonneg (mul_nonneg hX (hnn _)) (mul_nonneg hΛ (hnn _)))
  -- the pieces of the exact run
  unfold ffeDfe at hexact
  simp only [bind, Except.bind] at hexact
  cases hmem : initDfe dfe ziD with
  | error e => rw [hmem] at hexact; cases hexact
  | ok mem =>
  cases hz : initFfe ffe ziF with
  | error e => rw [hmem, hz] at hexact; cases hexact
  | ok z =>
  have hzl := initFfe_length ffe z _ hL hz
  obtain ⟨M, eM, hMl, hMw, hMe, hMlast⟩ := ffe_frames ffe z x hzl hx
  simp only [hmem, hz, eM] at hexact
  have hmemΛ : ∀ v ∈ mem, |v| ≤ Λ := by
    cases ziD with
    | none =>
      simp only [initDfe] at hmem
      cases hmem
      intro v hv
      rw [List.mem_replicate] at hv
      rw [hv.2, abs_zero]; exact hΛ
    | some w =>
      simp only [initDfe] at hmem
      split at hmem <;> cases hmem
      exact hzΛ
  have hzX' : ∀ v ∈ z ++ x, |v| ≤ X := by
    intro v hv
    rw [List.mem_append] at hv
    rcases hv with hv | hv
    · cases ziF with
      | none =>
        simp only [initFfe] at hz
        split at hz <;> cases hz
        rw [List.mem_replicate] at hv
        rw [hv.2, abs_zero]; exact hX
      | some w =>
        simp only [initFfe] at hz
        split at hz <;> cases hz
        exact hzX v (List.mem_of_mem_drop hv)
    · exact hxX v hv
  have hfr : ∀ fr ∈ M, ∀ v ∈ fr, |v| ≤ X := by
    intro fr hfr v hv
    obtain ⟨i, hi, rfl⟩ := List.getElem_of_mem hfr
    obtain ⟨c, hc, rfl⟩ := List.getElem_of_mem hv
    have hw := hMw _ hfr
    have := hMe i (by omega) c (by omega)
    rw [getD_of_lt [] _ hi, getD_of_lt 0 _ hc] at this
    rw [this]
    rcases Nat.lt_or_ge (i + c) (z ++ x).length with h | h
    · exact hzX' _ (mem_of_getD 0 _ h)
    · rw [getD_of_le 0 _ h, abs_zero]; exact hX
  cases hloop : dfeLoop ffe dfe (some lv) osr phase 0 [] mem M with
  | error e => rw [hloop] at hexact; cases hexact
  | ok q =>
  rw [hloop] at hexact
  simp only at hexact
  have hsig : r.signal = q.1 := by
    rw [hMlast] at hexact
    split at hexact <;> cases hexact <;> rfl
  rw [hsig] at hmargin
  obtain ⟨zs', g1, g2, g3⟩ := dfeLoopA_close hu0 hu1 (fl_error p) A hA.sub hA.dot ffe dfe lv hlv osr phase X Λ m D β hX hΛ
    hlΛ hβ.symm.le hβ0 hm M hfr 0 [] mem q.1 q.2 (by simp) hmemΛ hloop hmargin
  have hdec : zs'.map (sliceOneA A lv) = q.1.map (sliceOne lv) := by
    refine ext_getD 0 (by simp [g2]) fun i hi => ?_
    rw [List.length_map] at hi
    rw [getD_map_lt _ 0 0 _ hi, getD_map_lt _ 0 0 _ (by omega)]
    obtain ⟨l, h1, h2, h3⟩ := hmargin _ (mem_of_getD 0 _ (show i < q.1.length by omega))
    have h4 := g3 i (by omega)
    have hm0 : 0 ≤ m := le_trans (abs_nonneg _) h2
    rw [sliceOne_near' lv l _ m D h1 h2 h3 (by nlinarith)]
    refine sliceOneA_near hu1 (fl_error p) A hA.sub lv l _ (m + β) D hu0 h1 ?_ h3 hm
    have := abs_add_le (zs'.getD i 0 - q.1.getD i 0) (q.1.getD i 0 - l)
    rw [sub_add_sub_cancel] at this
    linarith
  unfold ffeDfeA
  simp only [bind, Except.bind]
  simp only [hmem, hz, eM, g1]
  rw [hMlast] at hexact ⊢
  rw [hsig]
  split at hexact <;> rename_i hl1 <;> cases hexact
  · exact ⟨.dfe zs' q.2, by rw [if_pos hl1]; rfl, rfl, g2, g3, hdec⟩
  · exact ⟨.both zs' (lastN ffe.length (z ++ x)) q.2, by rw [if_neg hl1]; rfl, rfl, g2, g3, hdec⟩

/-- **C82**, double precision: with slicer inputs within 7/16 of the level distance `D` of a level, and
`(taps + 1) (X Σ|ffe| + Λ Σ|dfe|) ≤ 2^47 D`, all decisions and memories are those of exact arithmetic. -/
theorem C82_double (A : Arith) (hA : FloatArith 53 A) (x ffe dfe lv : List ℝ) (hlv : lv ≠ []) (osr : ℕ)
    (phase : ℤ) (ziF ziD : Option (List ℝ)) (hL : 0 < ffe.length) (hx : 0 < x.length) (r : EqOut ℝ) (X Λ D : ℝ) (hD : 0 < D)
    (hX : 0 ≤ X) (hxX : ∀ v ∈ x, |v| ≤ X) (hzX : ∀ v ∈ ziF.getD [], |v| ≤ X)
    (hΛ : 0 ≤ Λ) (hlΛ : ∀ l ∈ lv, |l| ≤ Λ) (hzΛ : ∀ v ∈ ziD.getD [], |v| ≤ Λ)
    (hsize : max ffe.length dfe.length + 1 ≤ 2 ^ 52)
    (hS : ((max ffe.length dfe.length + 1 : ℕ) : ℝ)
        * (X * (ffe.map (fun v => |v|)).sum + Λ * (dfe.map (fun v => |v|)).sum) ≤ 2 ^ 47 * D)
    (hexact : ffeDfe x ffe (some dfe) (some lv) osr phase ziF ziD = .ok r)
    (hmargin : ∀ s ∈ r.signal, ∃ l ∈ lv, |s - l| ≤ 7 / 16 * D ∧ ∀ l' ∈ lv, l' ≠ l → D ≤ |l' - l|) :
    ∃ r', ffeDfeA A x ffe dfe (some lv) osr phase ziF ziD = .ok r' ∧ r'.memories = r.memories ∧
      r'.signal.length = r.signal.length ∧ (∀ i < r.signal.length, |r'.signal.getD i 0 - r.signal.getD i 0| ≤ D / 32) ∧
      r'.signal.map (sliceOneA A lv) = r.signal.map (sliceOne lv) := by
  have hu : (2 : ℝ) ^ (-((53 : ℕ) : ℤ)) = 1 / 2 ^ 53 := by rw [zpow_neg, zpow_natCast, one_div]
  obtain ⟨S, hSd⟩ : ∃ S, S = X * (ffe.map (fun v => |v|)).sum + Λ * (dfe.map (fun v => |v|)).sum := ⟨_, rfl⟩
  obtain ⟨N, hN⟩ : ∃ N, N = max ffe.length dfe.length + 1 := ⟨_, rfl⟩
  rw [← hSd, ← hN] at hS
  rw [← hN] at hsize
  have hnn : ∀ l : List ℝ, 0 ≤ (l.map (fun v => |v|)).sum := fun l =>
    List.sum_nonneg (by intro x hx; rw [List.mem_map] at hx; obtain ⟨q, -, rfl⟩ := hx; positivity)
  have hS0 : 0 ≤ S := by rw [hSd]; exact add_nonneg (mul_nonneg hX (hnn _)) (mul_nonneg hΛ (hnn _))
  have hsize' : (N : ℝ) ≤ 2 ^ 52 := by exact_mod_cast hsize
  have hp := one_add_pow_le (1 / 2 ^ 53) (by positivity) N (by linarith)
  have hβ : ((1 + 1 / 2 ^ 53) ^ N - 1) * S ≤ D / 32 := by
    have h1 := mul_le_mul_of_nonneg_right hp hS0
    have h2 : 2 * ((N : ℝ) * (1 / 2 ^ 53)) * S = N * S * (1 / 2 ^ 52) := by ring
    have h3 := mul_le_mul_of_nonneg_right hS (show (0 : ℝ) ≤ 1 / 2 ^ 52 by positivity)
    linarith
  obtain ⟨β, hβd⟩ : ∃ β, β = ((1 + 1 / 2 ^ 53) ^ N - 1) * S := ⟨_, rfl⟩
  rw [← hβd] at hβ
  obtain ⟨r', g1, g2, g3, g4, g5⟩ := C82_decisions 53 A hA x ffe dfe lv hlv osr phase ziF ziD hL hx r X Λ (7 / 16 * D) D β hX
    hxX hzX hΛ hlΛ hzΛ (by rw [hu, ← hN, ← hSd]; exact hβd) hexact hmargin (by rw [hu]; linarith)
  exact ⟨r', g1, g2, g3, fun i hi => (g4 i hi).trans hβ, g5⟩

theorem slicer_vec_inj (y lv a : List ℝ) (hlv : lv ≠ []) (h : slicer (.vec y) (some lv) = .ok (.vec a)) :
    y.map (sliceOne lv) = a := by
  unfold slicer at h
  simp only [Option.getD_some] at h
  rw [if_neg (by simpa using hlv)] at h
  exact SlicerArg.vec.inj (Except.ok.inj h)

/-- **C82**, the equalized channel of C48 in double precision: if the feedback taps match the postcursor
interference and the disturbance is at most 7/16 of the level distance, the decisions are the
transmitted symbols. -/
theorem C82_symbols (A : Arith) (hA : FloatArith 53 A) (x ffe dfe lv a w : List ℝ) (phase : ℤ) (hk : 0 < dfe.length)
    (hL : 0 < ffe.length) (hx : 0 < x.length) (ha : a.length = x.length) (hw : w.length = x.length)
    (ziF q : Option (List ℝ)) (hF : ∀ z, ziF = some z → z.length = ffe.length)
    (hq : ∀ z, q = some z → z.length = dfe.length)
    (hmem : ∀ n : ℕ, n < x.length → a.getD n 0 ∈ lv) (D : ℝ) (hD : 0 < D)
    (hdist : ∀ l ∈ lv, ∀ l' ∈ lv, l' ≠ l → D ≤ |l' - l|)
    (hnoise : ∀ n : ℕ, n < x.length → |w.getD n 0| ≤ 7 / 16 * D)
    (hch : ∀ n : ℕ, n < x.length →
      ∑ i ∈ Finset.range ffe.length, ffe.getD i 0 * withPast ((ziF.getD []).drop 1).reverse x (n - i)
        = a.getD n 0 + ∑ j ∈ Finset.range dfe.length, dfe.getD j 0 * withPast (q.getD []) a (n - 1 - j) + w.getD n 0)
    (X Λ : ℝ) (hX : 0 ≤ X) (hxX : ∀ v ∈ x, |v| ≤ X) (hzX : ∀ v ∈ ziF.getD [], |v| ≤ X)
    (hΛ : 0 ≤ Λ) (hlΛ : ∀ l ∈ lv, |l| ≤ Λ) (hzΛ : ∀ v ∈ q.getD [], |v| ≤ Λ)
    (hsize : max ffe.length dfe.length + 1 ≤ 2 ^ 52)
    (hS : ((max ffe.length dfe.length + 1 : ℕ) : ℝ)
        * (X * (ffe.map (fun v => |v|)).sum + Λ * (dfe.map (fun v => |v|)).sum) ≤ 2 ^ 47 * D) :
    ∃ r', ffeDfeA A x ffe dfe (some lv) 1 phase ziF q = .ok r' ∧ r'.signal.map (sliceOneA A lv) = a := by
  have hlv : lv ≠ [] := List.ne_nil_of_mem (hmem 0 hx)
  obtain ⟨r, e1, e2, e3, e4⟩ := C48_equalized x ffe dfe lv a w phase hk hL hx ha hw ziF q hF hq hmem
    (fun n hn l hl hne => by
      have h1 := hdist _ (hmem n hn) l hl hne
      have h2 := hnoise n hn
      linarith) hch
  obtain ⟨r', g1, -, -, -, g5⟩ := C82_double A hA x ffe dfe lv hlv 1 phase ziF q hL hx r X Λ D hD hX hxX hzX hΛ hlΛ hzΛ hsize
    hS e1 (fun s hs => by
      obtain ⟨n, hn, rfl⟩ := List.getElem_of_mem hs
      rw [e2] at hn
      refine ⟨a.getD n 0, hmem n hn, ?_, fun l' h1 h2 => hdist _ (hmem n hn) l' h1 h2⟩
      have := e3 n hn
      rw [getD_of_lt 0 _ (by omega)] at this
      rw [this, add_sub_cancel_left]
      exact hnoise n hn)
  exact ⟨r', g1, g5.trans (slicer_vec_inj _ _ _ hlv e4)⟩

theorem pairSum_range (n : ℕ) (f g : ℕ → ℝ) :
    pairSum ((List.range n).map (fun i => (f i, g i))) = ∑ i ∈ Finset.range n, f i * g i := by
  rw [pairSum, List.map_map, ← list_sum_range_map]
  rfl

theorem pairAbs_range (n : ℕ) (f g : ℕ → ℝ) :
    pairAbs ((List.range n).map (fun i => (f i, g i))) = ∑ i ∈ Finset.range n, |f i| * |g i| := by
  rw [pairAbs, List.map_map, ← list_sum_range_map]
  rfl

theorem map_abs_sum (h : List ℝ) : (h.map (fun v => |v|)).sum = ∑ i ∈ Finset.range h.length, |h.getD i 0| := by
  rw [← list_sum_range_map]
  congr 1
  refine ext_getD 0 (by simp) fun i hi => ?_
  rw [List.length_map] at hi
  rw [getD_map_lt _ 0 0 _ hi, getD_map_lt _ 0 0 _ (by simpa using hi), getD_of_lt 0 (List.range _) (by simpa using hi),
    List.getElem_range]

/-- **C82**, whole link in double precision: symbols from `lv` through the channel `1, h1, ..., hk`, every
channel output a rounded sum, and the equalizer with feedback taps `h1, ..., hk` in double precision:
the decisions are the symbols. -/
theorem C82_link (A : Arith) (hA : FloatArith 53 A) (h lv a y : List ℝ) (phase : ℤ) (hk : 0 < h.length) (ha : 0 < a.length)
    (hmem : ∀ s ∈ a, s ∈ lv) (D : ℝ) (hD : 0 < D) (hdist : ∀ l ∈ lv, ∀ l' ∈ lv, l' ≠ l → D ≤ |l' - l|)
    (Λ : ℝ) (hlΛ : ∀ l ∈ lv, |l| ≤ Λ) (hy : y.length = a.length)
    (hconv : ∀ n : ℕ, n < a.length → RoundedDot (fl 53)
      ((List.range (h.length + 1)).map (fun i => ((1 :: h).getD i 0, withPast [] a ((n : ℤ) - i)))) (y.getD n 0))
    (hsize : h.length + 1 ≤ 2 ^ 52)
    (hS : ((h.length + 1 : ℕ) : ℝ) * (3 * Λ * (1 + (h.map (fun v => |v|)).sum)) ≤ 2 ^ 47 * D) :
    ∃ r, ffeDfeA A y [1] h (some lv) 1 phase none none = .ok r ∧ r.signal.map (sliceOneA A lv) = a := by
  obtain ⟨H, hH⟩ : ∃ H, H = (h.map (fun v => |v|)).sum := ⟨_, rfl⟩
  rw [← hH] at hS
  have hH0 : 0 ≤ H := by
    rw [hH]
    exact List.sum_nonneg (by intro x hx; rw [List.mem_map] at hx; obtain ⟨q, -, rfl⟩ := hx; positivity)
  have hΛ : 0 ≤ Λ := le_trans (abs_nonneg _) (hlΛ _ (hmem _ (mem_of_getD 0 a ha)))
  have haΛ : ∀ t, |withPast [] a t| ≤ Λ := by
    intro t
    unfold withPast
    split
    · rcases Nat.lt_or_ge t.toNat a.length with q | q
      · exact hlΛ _ (hmem _ (mem_of_getD 0 a q))
      · rw [getD_of_le 0 _ q, abs_zero]; exact hΛ
    · simpa using hΛ
  have hu : (2 : ℝ) ^ (-((53 : ℕ) : ℤ)) = 1 / 2 ^ 53 := by rw [zpow_neg, zpow_natCast, one_div]
  -- exact channel output and its rounding error
  obtain ⟨e, he⟩ : ∃ e : ℕ → ℝ, e = fun n : ℕ => ∑ i ∈ Finset.range (h.length + 1), (1 :: h).getD i 0 * withPast [] a ((n : ℤ) - i) :=
    ⟨_, rfl⟩
  have hesum : ∀ n : ℕ, e n = withPast [] a n + ∑ j ∈ Finset.range h.length, h.getD j 0 * withPast [] a ((n : ℤ) - 1 - j) := by
    intro n
    rw [he]
    simp only
    rw [Finset.sum_range_succ']
    simp only [List.getD_cons_succ, List.getD_cons_zero, Nat.cast_zero, sub_zero, one_mul, Nat.cast_add, Nat.cast_one]
    rw [add_comm]
    congr 1
    exact Finset.sum_congr rfl fun j _ => by rw [show (n : ℤ) - (j + 1) = (n : ℤ) - 1 - j by ring]
  have habs : ∀ n : ℕ, pairAbs ((List.range (h.length + 1)).map (fun i => ((1 :: h).getD i 0, withPast [] a ((n : ℤ) - i))))
      ≤ Λ * (1 + H) := by
    intro n
    rw [pairAbs_range, hH, map_abs_sum, Finset.sum_range_succ']
    simp only [List.getD_cons_succ, List.getD_cons_zero, abs_one, one_mul]
    rw [mul_add, mul_one, add_comm]
    refine add_le_add (haΛ _) ?_
    rw [Finset.mul_sum]
    refine Finset.sum_le_sum fun j _ => ?_
    rw [mul_comm]
    exact mul_le_mul_of_nonneg_right (haΛ _) (abs_nonneg _)
  have hN : ((h.length + 1 : ℕ) : ℝ) ≤ 2 ^ 52 := by exact_mod_cast hsize
  have hpow := one_add_pow_le (1 / 2 ^ 53) (by positivity) (h.length + 1) (by linarith)
  have hΛH : 0 ≤ Λ * (1 + H) := mul_nonneg hΛ (by linarith)
  have herr0 : ∀ n : ℕ, n < a.length → |y.getD n 0 - e n| ≤ 2 * ((h.length + 1 : ℕ) * (1 / 2 ^ 53)) * (Λ * (1 + H)) := by
    intro n hn
    have h1 := roundedDot_error (zpow_pos (by norm_num) _).le (fl_error 53) (hconv n hn)
    rw [pairSum_range, hu, List.length_map, List.length_range] at h1
    have h2 : 0 ≤ (1 + 1 / 2 ^ 53 : ℝ) ^ (h.length + 1) - 1 := by
      have : (1 : ℝ) ≤ (1 + 1 / 2 ^ 53) ^ (h.length + 1) := one_le_pow₀ (by norm_num)
      linarith
    have h3 := mul_le_mul_of_nonneg_left (habs n) h2
    have h4 := mul_le_mul_of_nonneg_right (sub_le_sub_right hpow 1) hΛH
    rw [he]
    simp only
    refine h1.trans (h3.trans (h4.trans (le_of_eq ?_)))
    ring
  have herr : ∀ n : ℕ, n < a.length → |y.getD n 0 - e n| ≤ 7 / 16 * D := by
    intro n hn
    refine (herr0 n hn).trans ?_
    have h3 : 2 * (((h.length + 1 : ℕ) : ℝ) * (1 / 2 ^ 53)) * (Λ * (1 + H))
        = (h.length + 1 : ℕ) * (3 * Λ * (1 + H)) * (1 / (3 * 2 ^ 52)) := by ring
    rw [h3]
    have h4 := mul_le_mul_of_nonneg_right hS (show (0 : ℝ) ≤ 1 / (3 * 2 ^ 52) by positivity)
    refine h4.trans ?_
    rw [show (2 : ℝ) ^ 47 * D * (1 / (3 * 2 ^ 52)) = 1 / 96 * D by ring]
    linarith
  have hybound : ∀ n : ℕ, n < a.length → |y.getD n 0| ≤ 2 * (Λ * (1 + H)) := by
    intro n hn
    have h1 := herr0 n hn
    have h2 : |e n| ≤ Λ * (1 + H) := by
      have := pairSum_abs_le ((List.range (h.length + 1)).map (fun i => ((1 :: h).getD i 0, withPast [] a ((n : ℤ) - i))))
      rw [pairSum_range] at this
      rw [he]
      exact this.trans (habs n)
    have h3 := abs_add_le (y.getD n 0 - e n) (e n)
    rw [sub_add_cancel] at h3
    have h4 : 2 * (((h.length + 1 : ℕ) : ℝ) * (1 / 2 ^ 53)) * (Λ * (1 + H)) ≤ 1 * (Λ * (1 + H)) :=
      mul_le_mul_of_nonneg_right (by linarith) hΛH
    linarith
  refine C82_symbols A hA y [1] h lv a ((List.range a.length).map (fun n => y.getD n 0 - e n)) phase hk (by simp) (by omega)
    (by omega) (by simp [hy]) none none (by simp) (by simp) (fun n hn => hmem _ (mem_of_getD 0 a (by omega))) D hD hdist
    ?_ ?_ (2 * (Λ * (1 + H))) Λ (by linarith) ?_ (by simp) hΛ hlΛ (by simp) ?_ ?_
  · intro n hn
    rw [hy] at hn
    rw [map_range_getD _ _ _ _ hn]
    exact herr n hn
  · intro n hn
    rw [hy] at hn
    rw [map_range_getD _ _ _ _ hn, hesum n]
    simp only [List.length_cons, List.length_nil, zero_add, Finset.sum_range_one, List.getD_cons_zero, one_mul, Nat.cast_zero,
      sub_zero, Option.getD_none]
    rw [withPast_nat, withPast_nat]
    ring
  · intro v hv
    obtain ⟨n, hn, rfl⟩ := List.getElem_of_mem hv
    have := hybound n (by omega)
    rwa [getD_of_lt 0 _ hn] at this
  · simpa [Nat.max_eq_right hk] using hsize
  · rw [List.length_cons, List.length_nil, zero_add, Nat.max_eq_right hk, ← hH]
    simp only [List.map_cons, List.map_nil, List.sum_cons, List.sum_nil, abs_one, add_zero, mul_one]
    refine le_trans (mul_le_mul_of_nonneg_left ?_ (Nat.cast_nonneg _)) hS
    nlinarith

theorem foldr_roundedDot (r : ℝ → ℝ) (l : List (ℝ × ℝ)) :
    RoundedDot r l (l.foldr (fun q s => r (q.1 * q.2 + s)) 0) := by
  induction l with
  | nil => exact .nil
  | cons q l ih => exact .fma _ _ _ _ ih

/-- an arithmetic of the assumed kind: fused multiply-adds from the last term to the first -/
theorem floatArith_exists (p : ℕ) : ∃ A, FloatArith p A :=
  ⟨⟨fun a b => (a.zip b).foldr (fun q s => fl p (q.1 * q.2 + s)) 0, fun x y => fl p (x - y)⟩,
    fun _ _ _ => foldr_roundedDot _ _, fun _ _ => rfl⟩

example : ∃ A, FloatArith 53 A := floatArith_exists 53

/-- the size condition for 20 feed-forward and 10 feedback taps, signals up to 100 and PAM4 levels -/
example : ((max 20 10 + 1 : ℕ) : ℝ) * (100 * 30 + 3 * 5) ≤ 2 ^ 47 * 2 := by norm_num

/-- symbols 1, -1, 1 over a channel with a postcursor of one half -/
example (A : Arith) (hA : FloatArith 53 A) :
    ∃ r, ffeDfeA A [1, -1 / 2, 1 / 2] [1] [1 / 2] (some [-1, 1]) 1 0 none none = .ok r ∧
      r.signal.map (sliceOneA A [-1, 1]) = [1, -1, 1] := by
  refine C82_symbols A hA [1, -1 / 2, 1 / 2] [1] [1 / 2] [-1, 1] [1, -1, 1] [0, 0, 0] 0 (by simp) (by simp) (by simp) rfl rfl none none (by simp) (by simp)
    ?_ 2 (by norm_num) ?_ ?_ ?_ 1 1 (by norm_num) ?_ (by simp) (by norm_num) ?_ (by simp) (by norm_num) (by norm_num)
  · intro n hn
    simp only [List.length_cons, List.length_nil] at hn
    interval_cases n <;> simp
  · intro l hl l' hl' hne
    simp only [List.mem_cons, List.not_mem_nil, or_false] at hl hl'
    rcases hl with rfl | rfl <;> rcases hl' with rfl | rfl <;> first | exact absurd rfl hne | norm_num
  · intro n hn
    simp only [List.length_cons, List.length_nil] at hn
    interval_cases n <;> norm_num
  · intro n hn
    simp only [List.length_cons, List.length_nil] at hn
    interval_cases n <;> simp [withPast] <;> norm_num
  · intro v hv
    simp only [List.mem_cons, List.not_mem_nil, or_false] at hv
    rcases hv with rfl | rfl | rfl <;> norm_num [abs_le]
  · intro v hv
    simp only [List.mem_cons, List.not_mem_nil, or_false] at hv
    rcases hv with rfl | rfl <;> norm_num

/-- any symbols of the alphabet -3, -1, 1, 3 over a channel with postcursors 2/3 and -1/10, convolved with fused
multiply-adds in double precision -/
example (A : Arith) (hA : FloatArith 53 A) (a : List ℝ) (ha : 0 < a.length) (hmem : ∀ s ∈ a, s ∈ ([-3, -1, 1, 3] : List ℝ)) :
    ∃ r, ffeDfeA A ((List.range a.length).map (fun n : ℕ => ((List.range 3).map (fun i =>
        (([1, 2 / 3, -1 / 10] : List ℝ).getD i 0, withPast [] a ((n : ℤ) - i)))).foldr
          (fun q s => fl 53 (q.1 * q.2 + s)) 0)) [1] [2 / 3, -1 / 10] (some [-3, -1, 1, 3]) 1 0 none none = .ok r ∧
      r.signal.map (sliceOneA A [-3, -1, 1, 3]) = a := by
  refine C82_link A hA [2 / 3, -1 / 10] [-3, -1, 1, 3] a _ 0 (by simp) ha hmem 2 (by norm_num) ?_ 3 ?_ (by simp) ?_ (by simp) ?_
  · intro l hl l' hl' hne
    simp only [List.mem_cons, List.not_mem_nil, or_false] at hl hl'
    rcases hl with rfl | rfl | rfl | rfl <;> rcases hl' with rfl | rfl | rfl | rfl <;>
      first | exact absurd rfl hne | norm_num [le_abs]
  · intro l hl
    simp only [List.mem_cons, List.not_mem_nil, or_false] at hl
    rcases hl with rfl | rfl | rfl | rfl <;> norm_num [abs_le]
  · intro n hn
    rw [map_range_getD _ _ _ _ hn]
    exact foldr_roundedDot _ _
  · simp only [List.length_cons, List.length_nil, List.map_cons, List.map_nil, List.sum_cons, List.sum_nil]
    norm_num [abs_div, abs_neg]

end Verif
