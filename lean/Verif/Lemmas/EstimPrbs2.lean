import Verif.Lemmas.EstimPrbs
import Verif.Lemmas.Lms

/-! Helper lemmas for the PRBS based estimators: locking on a periodic signal, averaging and the linear system. -/

open Finset

namespace Verif

open Spec (unitScale flipBit txLevel periodic chanOut popVar MainTap IsLs)

theorem sum_range_zmod {N : ℕ} [NeZero N] (f : ZMod N → ℝ) (q : ℕ) :
    ∑ t ∈ range (q * N), f (t : ZMod N) = q * ∑ z, f z := by
  induction q with
  | zero => simp
  | succ q ih =>
    have e : ∀ t ∈ range N, f ((q * N + t : ℕ) : ZMod N) = f (t : ZMod N) := by
      intro t _
      rw [Nat.cast_add, Nat.cast_mul, ZMod.natCast_self, mul_zero, zero_add]
    rw [Nat.succ_mul, sum_range_add, ih, sum_congr rfl e, zmod_sum_cast N f]
    push_cast; ring

theorem natCast_mod_mul {N : ℕ} (q t : ℕ) : ((t % (q * N) : ℕ) : ZMod N) = (t : ZMod N) := by
  rw [ZMod.natCast_eq_natCast_iff', Nat.mod_mul_left_mod]

/-- the lock finds the phase of a filtered reference -/
theorem lock_ref {N : ℕ} [NeZero N] (ref : ZMod N → ℝ) (h : ZMod N → ℝ) (φ : ZMod N) (q : ℕ) (hq : 0 < q)
    (hlock : ∀ s, s ≠ 0 →
      ∑ z, ref (z + s) * ∑ r, h r * ref (z + r) < ∑ z, ref z * ∑ r, h r * ref (z + r))
    (signal : List ℝ) (hlen : q * N ≤ signal.length)
    (hs : ∀ t < signal.length, signal.getD t 0 = ∑ r, h r * ref (t + φ + r)) :
    ∃ x, lockPattern ((List.range (q * N)).map (fun t : ℕ => ref (t : ZMod N))) signal
      = .ok ((List.range (q * N)).map (fun t : ℕ => ref ((t : ZMod N) + φ)), x) := by
  have hN : 0 < N := Nat.pos_of_ne_zero (NeZero.ne N)
  have hqN : 0 < q * N := Nat.mul_pos hq hN
  set P := (List.range (q * N)).map (fun t : ℕ => ref (t : ZMod N)) with hP
  have hPl : P.length = q * N := by simp [hP]
  have hmin : min P.length signal.length = q * N := by omega
  set v := signal.take (q * N) with hv
  have hvl : v.length = q * N := by rw [hv, List.length_take]; omega
  have hPg : ∀ t, P.getD (t % (q * N)) 0 = ref (t : ZMod N) := by
    intro t
    rw [hP, map_range_getD _ _ _ _ (Nat.mod_lt _ hqN), natCast_mod_mul]
  have hcorr : ∀ k, corr P v k = q * ∑ z, ref (z + (k - φ)) * ∑ r, h r * ref (z + r) := by
    intro k
    rw [corr, hvl, hPl]
    have e : ∀ i ∈ range (q * N), P.getD ((k + i) % (q * N)) 0 * v.getD i 0
        = (fun z : ZMod N => ref ((k : ZMod N) + z) * ∑ r, h r * ref (z + φ + r)) (i : ZMod N) := by
      intro i hi
      rw [mem_range] at hi
      rw [hPg, hv, take_getD _ _ _ _ hi, hs i (by omega)]
      push_cast
      rfl
    rw [sum_congr rfl e, sum_range_zmod (fun z : ZMod N => ref ((k : ZMod N) + z) * ∑ r, h r * ref (z + φ + r))]
    congr 1
    rw [← Equiv.sum_comp (Equiv.addRight (-φ))]
    refine sum_congr rfl (fun z _ => ?_)
    show ref ((k : ZMod N) + (z + -φ)) * ∑ r, h r * ref (z + -φ + φ + r) = _
    rw [show (k : ZMod N) + (z + -φ) = z + (k - φ) by ring]
    simp only [neg_add_cancel_right]
  obtain ⟨h1, h2⟩ := lock_core P v (by omega) (by omega)
  set s := argmax (correlateValid (tile P 2) v) with hsd
  have hsφ : (s : ZMod N) = φ := by
    by_contra hne
    have h3 := h2 φ.val
    rw [hcorr, hcorr, ZMod.natCast_zmod_val, sub_self] at h3
    have h4 := hlock ((s : ZMod N) - φ) (sub_ne_zero.2 hne)
    have hq' : (0 : ℝ) < q := by exact_mod_cast hq
    have h5 := le_of_mul_le_mul_left h3 hq'
    simp only [add_zero] at h5
    linarith
  refine ⟨correlateValid (tile P 2) v, ?_⟩
  rw [lockPattern, if_neg (by omega)]
  simp only [hmin]
  rw [← hv, ← hsd, tile_slice P s h1]
  congr 2
  apply List.ext_getElem
  · simp [hPl]
  · intro i hi hi'
    rw [List.getElem_rotate]
    simp only [hPl]
    have := hPg (i + s)
    rw [List.getD_eq_getElem _ _ (by rw [hPl]; exact Nat.mod_lt _ hqN)] at this
    rw [this, List.getElem_map, List.getElem_range]
    push_cast
    rw [hsφ]

/-! ### channel taps by residue -/

/-- the taps, by residue of the symbol they multiply -/
noncomputable def tapZ (N : ℕ) (h : List ℝ) (pre : ℕ) (r : ZMod N) : ℝ :=
  ∑ k ∈ range h.length, if (pre : ZMod N) - k = r then h.getD k 0 else 0

theorem tapZ_sum {N : ℕ} [NeZero N] (h : List ℝ) (pre : ℕ) (f : ZMod N → ℝ) :
    ∑ r, tapZ N h pre r * f r = ∑ k ∈ range h.length, h.getD k 0 * f ((pre : ZMod N) - k) := by
  simp only [tapZ, sum_mul]
  rw [sum_comm]
  refine sum_congr rfl (fun k _ => ?_)
  simp only [ite_mul, zero_mul]
  rw [sum_ite_eq univ ((pre : ZMod N) - k) (fun r => h.getD k 0 * f r), if_pos (mem_univ _)]

theorem tapZ_at {N : ℕ} [NeZero N] (h : List ℝ) (pre : ℕ) (hl : h.length ≤ N) (k : ℕ) (hk : k < h.length) :
    tapZ N h pre ((pre : ZMod N) - k) = h.getD k 0 := by
  rw [tapZ, sum_eq_single_of_mem k (mem_range.2 hk), if_pos rfl]
  intro j hj hjk
  rw [mem_range] at hj
  rw [if_neg]
  intro he
  apply hjk
  have : (j : ZMod N) = (k : ZMod N) := by linear_combination -he
  rwa [ZMod.natCast_eq_natCast_iff', Nat.mod_eq_of_lt (by omega), Nat.mod_eq_of_lt (by omega)] at this

theorem tapZ_else {N : ℕ} (h : List ℝ) (pre : ℕ) (r : ZMod N)
    (hr : ∀ k < h.length, (pre : ZMod N) - k ≠ r) : tapZ N h pre r = 0 :=
  sum_eq_zero (fun k hk => if_neg (hr k (mem_range.1 hk)))

theorem tapZ_zero {N : ℕ} [NeZero N] (h : List ℝ) (pre : ℕ) (hl : h.length ≤ N) (hp : pre < h.length) :
    tapZ N h pre 0 = h.getD pre 0 := by
  have := tapZ_at (N := N) h pre hl pre hp
  rwa [sub_self] at this

theorem tapZ_main {N : ℕ} [NeZero N] (c : Constellation) (h : List ℝ) (pre : ℕ) (hl : h.length ≤ N)
    (hp : pre < h.length) (hm : MainTap c h pre) (s : ZMod N) (hs : s ≠ 0) :
    if (decide (c = .pam4)) then 11 * |tapZ N h pre s| < 3 * tapZ N h pre 0 else tapZ N h pre s < tapZ N h pre 0 := by
  rw [tapZ_zero h pre hl hp]
  obtain ⟨h0, hm⟩ := hm
  by_cases hex : ∃ k < h.length, (pre : ZMod N) - k = s
  · obtain ⟨k, hk, rfl⟩ := hex
    rw [tapZ_at h pre hl k hk]
    have := hm k hk (by rintro rfl; exact hs (sub_self _))
    simpa using this
  · rw [tapZ_else h pre s (by push Not at hex; exact hex)]
    split_ifs
    · simpa using h0
    · exact h0

theorem chanOut_zmod {N : ℕ} [NeZero N] (h : List ℝ) (pre : ℕ) (x : ℤ → ℝ) (ref : ZMod N → ℝ)
    (hx : ∀ t : ℤ, x t = ref (t : ZMod N)) (t : ℤ) :
    chanOut h pre x t = ∑ r, tapZ N h pre r * ref ((t : ZMod N) + r) := by
  rw [tapZ_sum h pre (fun r => ref ((t : ZMod N) + r)), chanOut]
  refine sum_congr rfl (fun k _ => ?_)
  rw [hx]
  push_cast
  rw [add_sub_assoc]

/-! ### averaging -/

theorem rows_col_sum (s : List ℝ) (n reps j : ℕ) (hn : 0 < n) (hj : j < n) (hl : n * reps ≤ s.length) :
    ((rows n (s.take (n * reps))).map (fun r => r.getD j 0)).sum = ∑ r ∈ range reps, s.getD (r * n + j) 0 := by
  rw [rows]
  have hlen : (s.take (n * reps)).length / n = reps := by
    rw [List.length_take, Nat.min_eq_left hl, Nat.mul_div_cancel_left _ hn]
  rw [hlen, List.map_map, list_map_sum_getD, List.length_range]
  refine sum_congr rfl (fun r hr => ?_)
  rw [mem_range] at hr
  rw [range_getD _ _ hr]
  show (((s.take (n * reps)).drop (r * n)).take n).getD j 0 = _
  have h1 : r * n + n ≤ n * reps := by
    calc r * n + n = n * (r + 1) := by ring
      _ ≤ n * reps := Nat.mul_le_mul_left _ hr
  rw [take_getD _ _ _ _ hj, drop_getD, take_getD _ _ _ _ (by omega)]

theorem periodMean_getD (s : List ℝ) (n reps j : ℕ) (hn : 0 < n) (hj : j < n) (hl : n * reps ≤ s.length) :
    (periodMean s n reps).getD j 0 = (∑ r ∈ range reps, s.getD (r * n + j) 0) / reps := by
  rw [periodMean, map_range_getD _ _ _ _ hj, rows_col_sum s n reps j hn hj hl]

theorem periodMean_periodic {N : ℕ} [NeZero N] (s : List ℝ) (G : ZMod N → ℝ)
    (hs : ∀ t < s.length, s.getD t 0 = G (t : ZMod N)) (hr : 0 < s.length / N) :
    periodMean s N (s.length / N) = (List.range N).map (fun t : ℕ => G (t : ZMod N)) := by
  have hN : 0 < N := Nat.pos_of_ne_zero (NeZero.ne N)
  rw [periodMean]
  apply List.map_congr_left
  intro j hj
  rw [List.mem_range] at hj
  have hl : N * (s.length / N) ≤ s.length := Nat.mul_div_le _ _
  rw [rows_col_sum s N _ j hN hj hl]
  have : ∀ r ∈ range (s.length / N), s.getD (r * N + j) 0 = G (j : ZMod N) := by
    intro r hr
    rw [mem_range] at hr
    have h1 : r * N + N ≤ N * (s.length / N) := by
      calc r * N + N = N * (r + 1) := by ring
        _ ≤ N * (s.length / N) := Nat.mul_le_mul_left _ hr
    rw [hs _ (by omega)]
    push_cast
    rw [ZMod.natCast_self, mul_zero, zero_add]
  rw [sum_congr rfl this, sum_const, card_range, nsmul_eq_mul]
  field_simp

theorem periodMean_length (s : List ℝ) (n reps : ℕ) : (periodMean s n reps).length = n := by simp [periodMean]

theorem arangeZ_nat (a b : ℕ) : arangeZ (a : ℤ) (b : ℤ) = (List.range (b - a)).map (fun i : ℕ => ((a + i : ℕ) : ℤ)) := by
  unfold arangeZ
  have : ((b : ℤ) - (a : ℤ)).toNat = b - a := by omega
  rw [this]
  apply List.map_congr_left
  intro i _
  push_cast
  ring

theorem npTake_shift (l : List ℝ) (k n : ℕ) (hn : n ≤ l.length) (hk : k ≤ n) :
    npTake l (shiftIdx k n) = .ok ((List.range n).map (fun i => l.getD ((i + k) % n) 0)) := by
  rw [npTake_ok _ _ (fun x => l.getD x.toNat 0)]
  · congr 1
    rw [shiftIdx, arangeZ_nat, show (0 : ℤ) = ((0 : ℕ) : ℤ) from rfl, arangeZ_nat, List.map_append, List.map_map,
      List.map_map]
    have e : List.range n = List.range (n - k) ++ (List.range k).map (fun i => n - k + i) := by
      conv_lhs => rw [show n = n - k + k by omega]
      rw [List.range_add]
    rw [e, List.map_append, List.map_map]
    congr 1
    · apply List.map_congr_left
      intro i hi
      rw [List.mem_range] at hi
      show l.getD ((k + i : ℕ) : ℤ).toNat 0 = _
      rw [Int.toNat_natCast, Nat.mod_eq_of_lt (by omega), Nat.add_comm]
    · rw [Nat.sub_zero]
      apply List.map_congr_left
      intro i hi
      rw [List.mem_range] at hi
      show l.getD ((0 + i : ℕ) : ℤ).toNat 0 = l.getD ((n - k + i + k) % n) 0
      rw [Int.toNat_natCast, show n - k + i + k = i + n by omega, Nat.add_mod_right, Nat.mod_eq_of_lt (by omega),
        Nat.zero_add]
  · intro x hx
    rw [shiftIdx, List.mem_append, mem_arangeZ, mem_arangeZ] at hx
    exact npGet_valid _ _ _ (by omega) (by omega)

theorem npTake_shift_error (l : List ℝ) (k n : ℕ) (hk : l.length < k) :
    npTake l (shiftIdx k n) = .error .indexError := by
  apply npTake_error
  refine ⟨(l.length : ℤ), ?_, npGet_large _ _ le_rfl⟩
  rw [shiftIdx, List.mem_append, mem_arangeZ, mem_arangeZ]
  omega

/-! ### the linear system -/

theorem varL_eq (l : List ℝ) (s : ℕ → ℝ) (hs : ∀ t < l.length, l.getD t 0 = s t) : varL l = popVar l.length s := by
  have h1 : l.sum = ∑ r ∈ range l.length, s r := by
    have := list_map_sum_getD (fun v : ℝ => v) l
    rw [List.map_id'] at this
    rw [this]
    exact sum_congr rfl (fun t ht => hs t (mem_range.1 ht))
  rw [varL, popVar]
  rw [list_map_sum_getD, h1]
  congr 1
  exact sum_congr rfl (fun t ht => by rw [hs t (mem_range.1 ht)])

theorem chMatrix_eq (ext : List ℝ) (W n : ℕ) (hn : 0 < n) (h : n + W ≤ ext.length + 1) (hW : 0 < W) :
    chMatrix ext W n = (List.range n).map (fun i => (List.range W).map (fun j => ext.getD (i + j) 0)) := by
  rw [chMatrix, hankel_take _ _ _ (by omega)]
  apply List.map_congr_left
  intro i hi
  rw [List.mem_range] at hi
  have hl : (ext.reverse.take W).length = W := by simp; omega
  rw [hl]
  apply List.map_congr_left
  intro j hj
  rw [List.mem_range] at hj
  rw [List.getD_append _ _ _ _ (by omega)]

theorem ch_row (ext x : List ℝ) (pre post i n : ℕ) (a : ℤ → ℝ) (hx : x.length = post + pre + 1) (hi : i < n)
    (ha : ∀ m < n + (post + pre), ext.getD m 0 = a m) :
    ∑ j ∈ range (post + pre + 1), ext.getD (i + j) 0 * x.reverse.getD j 0 = chanOut x pre a ((i + post : ℕ) : ℤ) := by
  rw [chanOut, hx, ← sum_range_reflect]
  refine sum_congr rfl (fun k hk => ?_)
  rw [mem_range] at hk
  rw [reverse_getD _ _ _ (by omega), hx, ha _ (by omega), mul_comm]
  congr 2
  · omega
  · omega

theorem chSolve_ok (ls : Solver ℝ) (ext mean : List ℝ) (post pre n : ℕ) (normalize : Bool) (hn : 0 < n)
    (hm : mean.length = n) (hpost : post ≤ n) (hext : n + (post + pre) ≤ ext.length)
    (hls : IsLs (solveWith ls .none 0) (post + pre + 1)) (hv : varL mean ≠ 0) (a : ℤ → ℝ)
    (ha : ∀ m < n + (post + pre), ext.getD m 0 = a m) :
    ∃ x e, x.length = post + pre + 1 ∧
      chSolve ls ext mean post pre n normalize
        = .ok (some (if normalize then x.map (· / maxL x.reverse) else x, e)) ∧
      ∀ y : List ℝ, y.length = post + pre + 1 →
        ∑ i ∈ range n, (chanOut x pre a ((i + post : ℕ) : ℤ) - mean.getD ((i + post) % n) 0 / varL mean) ^ 2
          ≤ ∑ i ∈ range n, (chanOut y pre a ((i + post : ℕ) : ℤ) - mean.getD ((i + post) % n) 0 / varL mean) ^ 2 := by
  set A := chMatrix ext (post + pre + 1) n with hA
  have hAe := chMatrix_eq ext (post + pre + 1) n hn (by omega) (by omega)
  rw [← hA] at hAe
  set sh := (List.range n).map (fun i => mean.getD ((i + post) % n) 0) with hsh
  have htake := npTake_shift mean post n (by omega) hpost
  rw [← hsh] at htake
  set b := sh.map (· / varL mean) with hb
  have hbl : b.length = n := by simp [hb, hsh]
  obtain ⟨w, hw, hwl, hmin⟩ := hls A b (by rw [hbl, hAe]; simp) (by
    intro r hr
    rw [hAe] at hr
    obtain ⟨i, -, rfl⟩ := List.mem_map.1 hr
    simp)
  have hsolve : ∃ e, ls .none 0 A b = .ok (w, e) := by
    rw [solveWith, eqSolve, if_neg (by simp)] at hw
    cases h : ls .none 0 A b with
    | error e => rw [h] at hw; cases hw
    | ok r => rw [h] at hw; cases hw; exact ⟨_, rfl⟩
  obtain ⟨e, he⟩ := hsolve
  refine ⟨w.reverse, e, by simpa using hwl, ?_, fun y hy => ?_⟩
  · unfold chSolve
    rw [htake]
    simp only [bind, Except.bind, pure, Except.pure, if_neg hv]
    rw [← hA, ← hb, he]
    cases normalize <;> simp
  · have h := hmin y.reverse (by simpa using hy)
    rw [hbl] at h
    have key : ∀ u : List ℝ, u.length = post + pre + 1 →
        ∑ i ∈ range n, (∑ j ∈ range (post + pre + 1), (A.getD i []).getD j 0 * u.reverse.getD j 0 - b.getD i 0) ^ 2
          = ∑ i ∈ range n, (chanOut u pre a ((i + post : ℕ) : ℤ) - mean.getD ((i + post) % n) 0 / varL mean) ^ 2 := by
      intro u hu
      refine sum_congr rfl (fun i hi => ?_)
      rw [mem_range] at hi
      rw [hAe, map_range_getD _ _ _ _ hi, hb, map_div_getD, hsh, map_range_getD _ _ _ _ hi,
        ← ch_row ext u pre post i n a hu hi ha]
      congr 2
      refine sum_congr rfl (fun j hj => ?_)
      rw [map_range_getD _ _ _ _ (mem_range.1 hj)]
    rw [key y hy] at h
    have h2 := key w.reverse (by simpa using hwl)
    rw [List.reverse_reverse] at h2
    rwa [h2] at h

/-- the lock on any signal: a phase of best correlation -/
theorem lock_any {N : ℕ} [NeZero N] (ref : ZMod N → ℝ) (q : ℕ) (hq : 0 < q) (signal : List ℝ)
    (hne : 0 < signal.length) (x : ℤ → ℝ) (hx : ∀ t : ℤ, x t = ref (t : ZMod N)) :
    ∃ (s : ℕ) (c : List ℝ), s < q * N ∧
      lockPattern ((List.range (q * N)).map (fun t : ℕ => ref (t : ZMod N))) signal
        = .ok ((List.range (q * N)).map (fun t : ℕ => ref ((t : ZMod N) + s)), c) ∧
      Spec.BestPhase x (fun t => signal.getD t 0) (min (q * N) signal.length) s := by
  have hN : 0 < N := Nat.pos_of_ne_zero (NeZero.ne N)
  have hqN : 0 < q * N := Nat.mul_pos hq hN
  set P := (List.range (q * N)).map (fun t : ℕ => ref (t : ZMod N)) with hP
  have hPl : P.length = q * N := by simp [hP]
  have hmin : min P.length signal.length = min (q * N) signal.length := by rw [hPl]
  set v := signal.take (min (q * N) signal.length) with hv
  have hvl : v.length = min (q * N) signal.length := by rw [hv, List.length_take]; omega
  have hPg : ∀ t, P.getD (t % (q * N)) 0 = ref (t : ZMod N) := by
    intro t
    rw [hP, map_range_getD _ _ _ _ (Nat.mod_lt _ hqN), natCast_mod_mul]
  have hcorr : ∀ k : ℕ, corr P v k = ∑ i ∈ range (min (q * N) signal.length), x (i + k) * signal.getD i 0 := by
    intro k
    rw [corr, hvl, hPl]
    refine sum_congr rfl (fun i hi => ?_)
    rw [mem_range] at hi
    rw [hPg, hv, take_getD _ _ _ _ hi, hx]
    push_cast
    rw [add_comm (k : ZMod N)]
  obtain ⟨h1, h2⟩ := lock_core P v (by omega) (by omega)
  set s := argmax (correlateValid (tile P 2) v) with hsd
  refine ⟨s, correlateValid (tile P 2) v, by omega, ?_, ?_⟩
  · rw [lockPattern, if_neg (by omega)]
    simp only [hmin]
    rw [← hv, ← hsd, tile_slice P s h1]
    congr 2
    apply List.ext_getElem
    · simp [hPl]
    · intro i hi hi'
      rw [List.getElem_rotate]
      simp only [hPl]
      have := hPg (i + s)
      rw [List.getD_eq_getElem _ _ (by rw [hPl]; exact Nat.mod_lt _ hqN)] at this
      rw [this, List.getElem_map, List.getElem_range]
      push_cast
      rfl
  · intro k
    have h3 := h2 ((k : ZMod N).val)
    rw [hcorr, hcorr] at h3
    refine le_trans (le_of_eq (sum_congr rfl (fun i _ => ?_))) h3
    rw [hx, hx]
    push_cast
    rw [ZMod.natCast_zmod_val]

theorem alignedExt_getD {N : ℕ} [NeZero N] (ref : ZMod N → ℝ) (s : ZMod N) (q W m : ℕ) (hW : W ≤ q * N)
    (hm : m < q * N + W) :
    ((List.range (q * N)).map (fun t : ℕ => ref ((t : ZMod N) + s))
      ++ ((List.range (q * N)).map (fun t : ℕ => ref ((t : ZMod N) + s))).take W).getD m 0
      = ref ((m : ZMod N) + s) := by
  by_cases h : m < q * N
  · rw [List.getD_append _ _ _ _ (by simpa using h), map_range_getD _ _ _ _ h]
  · rw [List.getD_append_right _ _ _ _ (by simpa using h), List.length_map, List.length_range,
      take_getD _ _ _ _ (by omega), map_range_getD _ _ _ _ (by omega)]
    congr 2
    rw [Nat.cast_sub (by omega), Nat.cast_mul, ZMod.natCast_self, mul_zero, sub_zero]

theorem popVar_pos (N : ℕ) (hN : 0 < N) (s : ℕ → ℝ) (h : ∃ t < N, s t ≠ s 0) : 0 < popVar N s := by
  have hN' : (0 : ℝ) < N := by exact_mod_cast hN
  rw [popVar]
  refine div_pos ?_ hN'
  rcases (sum_nonneg (fun t _ => sq_nonneg (s t - (∑ r ∈ range N, s r) / N))).lt_or_eq with h1 | h1
  · exact h1
  · exfalso
    have h2 := (sum_eq_zero_iff_of_nonneg (fun t _ => sq_nonneg (s t - (∑ r ∈ range N, s r) / N))).1 h1.symm
    have h3 : ∀ t < N, s t = (∑ r ∈ range N, s r) / N := fun t ht =>
      sub_eq_zero.1 ((pow_eq_zero_iff two_ne_zero).1 (h2 t (mem_range.2 ht)))
    obtain ⟨t, ht, hne⟩ := h
    exact hne (by rw [h3 t ht, h3 0 hN])

theorem popVar_eq (N : ℕ) (hN : 0 < N) (s : ℕ → ℝ) :
    popVar N s = (∑ t ∈ range N, s t ^ 2) / N - ((∑ t ∈ range N, s t) / N) ^ 2 := by
  have hN' : (N : ℝ) ≠ 0 := by exact_mod_cast hN.ne'
  rw [popVar]
  set m := (∑ r ∈ range N, s r) / N with hm
  have e : ∑ t ∈ range N, (s t - m) ^ 2 = ∑ t ∈ range N, s t ^ 2 - 2 * m * ∑ t ∈ range N, s t + N * m ^ 2 := by
    rw [sum_congr rfl (fun t _ => show (s t - m) ^ 2 = s t ^ 2 - 2 * m * s t + m ^ 2 by ring), sum_add_distrib,
      sum_sub_distrib, ← mul_sum, sum_const, card_range, nsmul_eq_mul]
  have hS : ∑ t ∈ range N, s t = N * m := by rw [hm]; field_simp
  rw [e, hS]
  field_simp
  ring

/-- the phase of best correlation of a filtered reference is its own phase -/
theorem bestPhase_unique {N : ℕ} [NeZero N] (ref : ZMod N → ℝ) (h : ZMod N → ℝ) (φ : ℤ) (q : ℕ) (hq : 0 < q)
    (hlock : ∀ s, s ≠ 0 →
      ∑ z, ref (z + s) * ∑ r, h r * ref (z + r) < ∑ z, ref z * ∑ r, h r * ref (z + r))
    (x : ℤ → ℝ) (hx : ∀ t : ℤ, x t = ref (t : ZMod N)) (s : ℕ → ℝ)
    (hs : ∀ t < q * N, s t = ∑ r, h r * ref (t + φ + r)) (ph : ℤ) (hb : Spec.BestPhase x s (q * N) ph) :
    (ph : ZMod N) = (φ : ZMod N) := by
  have hcorr : ∀ k : ℤ, ∑ i ∈ range (q * N), x (i + k) * s i
      = q * ∑ z, ref (z + (k - φ)) * ∑ r, h r * ref (z + r) := by
    intro k
    have e : ∀ i ∈ range (q * N), x (i + k) * s i
        = (fun z : ZMod N => ref (z + (k : ZMod N)) * ∑ r, h r * ref (z + φ + r)) (i : ZMod N) := by
      intro i hi
      rw [mem_range] at hi
      rw [hs i hi, hx]
      push_cast
      rfl
    rw [sum_congr rfl e, sum_range_zmod (fun z : ZMod N => ref (z + (k : ZMod N)) * ∑ r, h r * ref (z + φ + r))]
    congr 1
    rw [← Equiv.sum_comp (Equiv.addRight (-(φ : ZMod N)))]
    refine sum_congr rfl (fun z _ => ?_)
    show ref (z + -(φ : ZMod N) + (k : ZMod N)) * ∑ r, h r * ref (z + -(φ : ZMod N) + φ + r) = _
    rw [show z + -(φ : ZMod N) + (k : ZMod N) = z + (k - φ) by ring]
    simp only [neg_add_cancel_right]
  by_contra hne
  have h3 := hb φ
  rw [hcorr, hcorr, sub_self] at h3
  have h4 := hlock ((ph : ZMod N) - φ) (sub_ne_zero.2 hne)
  have hq' : (0 : ℝ) < q := by exact_mod_cast hq
  have h5 := le_of_mul_le_mul_left h3 hq'
  simp only [add_zero] at h5
  linarith

/-- the rows of the equalizer system in terms of symbol times -/
theorem eqOutput_eqAt (f d : List ℝ) (N post pre dfe i : ℕ) (hf : f.length = post + pre + 1) (hd : d.length = dfe)
    (hi : dfe + i + (post + pre) < N) (m : ℕ → ℝ) (a : ℤ → ℝ) :
    Spec.eqOutput f d (fun t => ((List.range N).map m).getD t 0)
        (fun t => ((List.range N).map (fun n : ℕ => a ((n + post : ℕ) : ℤ))).getD t 0) (dfe + i)
      = Spec.eqAt f d pre (periodic N m) a ((post + dfe + i : ℕ) : ℤ) := by
  rw [Spec.eqOutput, Spec.eqAt]
  congr 1
  · refine sum_congr rfl (fun k hk => ?_)
    rw [mem_range] at hk
    congr 1
    rw [map_range_getD _ _ _ _ (by omega), periodic]
    congr 1
    rw [show ((post + dfe + i : ℕ) : ℤ) + pre - k = ((dfe + i + (f.length - 1) - k : ℕ) : ℤ) by omega,
      ← Int.natCast_mod, Int.toNat_natCast, Nat.mod_eq_of_lt (by omega)]
  · refine sum_congr rfl (fun k hk => ?_)
    rw [mem_range] at hk
    congr 1
    rw [map_range_getD _ _ _ _ (by omega)]
    congr 1
    omega

end Verif
