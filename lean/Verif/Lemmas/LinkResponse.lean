import Verif.Lemmas.SimFull
import Verif.Lemmas.SimLinkFull
import Verif.Lemmas.FilterClass
import Verif.Spec.SimEqualized

/-! Helper lemmas: a filter started from rest is the convolution with its impulse response. -/

open Finset

namespace Verif
open Spec

theorem linComb_zero (p q : ℝ) (K : ℕ) :
    linComb p q (List.replicate K 0) (List.replicate K 0) = List.replicate K (0 : ℝ) := by
  apply ext_getD 0 (by simp [linComb])
  intro i _
  rw [linComb_getD _ _ _ _ rfl, replicate_getD]
  simp

theorem lfRun_zero_cons (b a : List ℝ) (K : ℕ) (x : List ℝ) :
    (lfRun id b a (List.replicate K 0) (0 :: x)).1 = 0 :: (lfRun id b a (List.replicate K 0) x).1 := by
  have h : lfStep id b a (List.replicate K (0 : ℝ)) 0 = (0, List.replicate K 0) := by
    unfold lfStep
    simp only [id, replicate_getD, mul_zero, add_zero, zero_mul, sub_zero, List.length_replicate]
    congr 1
    apply List.ext_getElem
    · simp
    · intro i _ _; simp
  rw [lfRun, h]

/-- the response to a unit impulse `m` samples later -/
noncomputable def impulseAt (b a : List ℝ) (K : ℕ) (m : ℕ) : ℝ :=
  (lfRun id b a (List.replicate K 0) (1 :: List.replicate m 0)).1.getD m 0

theorem lfRun_impulse (b a : List ℝ) (K M m : ℕ) (h : m ≤ M) :
    (lfRun id b a (List.replicate K 0) (1 :: List.replicate M 0)).1.getD m 0 = impulseAt b a K m := by
  obtain ⟨t, rfl⟩ := Nat.exists_eq_add_of_le h
  rw [List.replicate_add, ← List.cons_append, lfRun_append]
  rw [List.getD_append _ _ _ _ (by rw [lfRun_length]; simp)]
  rfl

theorem lfRun_conv (b a : List ℝ) (K : ℕ) (x : List ℝ) : ∀ n, n < x.length →
    (lfRun id b a (List.replicate K 0) x).1.getD n 0 = ∑ m ∈ range (n + 1), impulseAt b a K m * x.getD (n - m) 0 := by
  induction x with
  | nil => intro n hn; simp at hn
  | cons x xs ih =>
    intro n hn
    have e : (x :: xs) = linComb x 1 (1 :: List.replicate xs.length 0) (0 :: xs) := by
      apply ext_getD 0 (by simp [linComb])
      intro i hi
      rw [linComb_getD _ _ _ _ (by simp)]
      cases i with
      | zero => simp
      | succ i => rw [List.getD_cons_succ, List.getD_cons_succ, List.getD_cons_succ, replicate_getD]; simp
    have h1 : (lfRun id b a (List.replicate K 0) (x :: xs)).1.getD n 0
        = x * impulseAt b a K n + (0 :: (lfRun id b a (List.replicate K 0) xs).1).getD n 0 := by
      conv_lhs => rw [e, ← linComb_zero x 1 K]
      rw [lfRun_linear _ _ _ _ _ _ rfl _ _ (by simp), linComb_getD _ _ _ _ (by rw [lfRun_length, lfRun_length]; simp),
        lfRun_impulse b a K xs.length n (by simp at hn; omega), lfRun_zero_cons, one_mul]
    rw [h1, Finset.sum_range_succ, Nat.sub_self, List.getD_cons_zero, mul_comm x, add_comm]
    congr 1
    cases n with
    | zero => simp
    | succ n =>
      rw [List.getD_cons_succ, ih n (by simpa using hn)]
      refine sum_congr rfl fun m hm => ?_
      have := mem_range.1 hm
      rw [show n + 1 - m = (n - m) + 1 by omega, List.getD_cons_succ]

/-- convolving a shifted response -/
theorem conv_shift (c h : ℕ → ℝ) (s n : ℕ) :
    ∑ m ∈ range (n + 1), c m * (if s ≤ n - m then h (n - m - s) else 0)
      = if s ≤ n then ∑ m ∈ range (n - s + 1), c m * h (n - s - m) else 0 := by
  split_ifs with hs
  · symm
    have : ∑ m ∈ range (n - s + 1), c m * h (n - s - m)
        = ∑ m ∈ range (n - s + 1), c m * (if s ≤ n - m then h (n - m - s) else 0) := by
      refine sum_congr rfl fun m hm => ?_
      have := mem_range.1 hm
      rw [if_pos (by omega), show n - m - s = n - s - m by omega]
    rw [this]
    refine sum_subset (range_subset_range.2 (by omega)) fun m h1 h2 => ?_
    rw [mem_range] at h1 h2
    rw [if_neg (by omega), mul_zero]
  · refine sum_eq_zero fun m _ => ?_
    rw [if_neg (by omega), mul_zero]

/-- convolving a superposition of shifted responses -/
theorem conv_superpose (c h : ℕ → ℝ) (N : ℕ) (x : ℕ → ℝ) (s : ℕ → ℕ) (n : ℕ) :
    ∑ m ∈ range (n + 1), c m * ∑ j ∈ range N, x j * (if s j ≤ n - m then h (n - m - s j) else 0)
      = ∑ j ∈ range N, x j * (if s j ≤ n then ∑ m ∈ range (n - s j + 1), c m * h (n - s j - m) else 0) := by
  simp only [mul_sum]
  rw [sum_comm]
  refine sum_congr rfl fun j _ => ?_
  rw [← conv_shift, mul_sum]
  exact sum_congr rfl fun m _ => by ring

/-- taps on a superposition of shifted responses -/
theorem taps_superpose (F : List ℝ) (p : ℕ → ℝ) (N : ℕ) (x : ℕ → ℝ) (n : ℕ) :
    ∑ i ∈ range F.length, F.getD i 0 * (if i ≤ n then ∑ j ∈ range N, x j * (if j ≤ n - i then p (n - i - j) else 0) else 0)
      = ∑ j ∈ range N, x j * (if j ≤ n then ∑ i ∈ range F.length, F.getD i 0 * (if i ≤ n - j then p (n - j - i) else 0) else 0) := by
  have h1 : ∀ i ∈ range F.length, F.getD i 0 *
      (if i ≤ n then ∑ j ∈ range N, x j * (if j ≤ n - i then p (n - i - j) else 0) else 0)
      = ∑ j ∈ range N, F.getD i 0 * (x j * (if j ≤ n ∧ i ≤ n - j then p (n - j - i) else 0)) := by
    intro i _
    split_ifs with hi
    · rw [mul_sum]
      refine sum_congr rfl fun j _ => ?_
      by_cases hj : j ≤ n - i
      · rw [if_pos hj, if_pos (by omega), show n - i - j = n - j - i by omega]
      · rw [if_neg hj, if_neg (by omega)]
    · rw [mul_zero]
      symm
      refine sum_eq_zero fun j _ => ?_
      rw [if_neg (by omega)]; ring
  rw [sum_congr rfl h1, sum_comm]
  refine sum_congr rfl fun j _ => ?_
  split_ifs with hj
  · rw [mul_sum]
    refine sum_congr rfl fun i _ => ?_
    by_cases hi : i ≤ n - j
    · rw [if_pos ⟨hj, hi⟩, if_pos hi]; ring
    · rw [if_neg (fun h => hi h.2), if_neg hi]; ring
  · rw [mul_zero]
    refine sum_eq_zero fun i _ => ?_
    rw [if_neg (fun h => hj h.1)]; ring

/-- a superposition of responses one symbol apart, ordered by age -/
theorem superpose_reflect (h x : ℕ → ℝ) (N n : ℕ) (hn : n < N) :
    ∑ j ∈ range N, x j * (if j ≤ n then h (n - j) else 0) = ∑ q ∈ range (n + 1), x (n - q) * h q := by
  have h1 : ∑ j ∈ range N, x j * (if j ≤ n then h (n - j) else 0) = ∑ j ∈ range (n + 1), x j * h (n - j) := by
    symm
    rw [show ∑ j ∈ range (n + 1), x j * h (n - j) = ∑ j ∈ range (n + 1), x j * (if j ≤ n then h (n - j) else 0) from
      sum_congr rfl fun j hj => by rw [if_pos (by have := mem_range.1 hj; omega)]]
    refine sum_subset (range_subset_range.2 (by omega)) fun m a1 a2 => ?_
    rw [mem_range] at a1 a2
    rw [if_neg (by omega), mul_zero]
  rw [h1, ← sum_range_reflect]
  refine sum_congr rfl fun q hq => ?_
  have := mem_range.1 hq
  rw [show n + 1 - 1 - q = n - q by omega, show n - (n - q) = q by omega]

/-- what a symbol of value one contributes to the channel output -/
noncomputable def pulseThrough (d : ChannelArgs) (g : ℝ → ℝ) (f : List ℝ) (s : ℕ) : ℝ :=
  ∑ k ∈ range f.length, f.getD k 0 * (if k ≤ s then truncated d.span g (((s - k : ℕ) : ℝ) / d.osr - d.span) else 0)

theorem response_split (d : ChannelArgs) (g : ℝ → ℝ) (f : List ℝ) (ho : 0 < d.osr) (N : ℕ) (x : ℕ → ℝ) (n : ℕ) :
    ∑ k ∈ range f.length, f.getD k 0 *
        (if k ≤ n then ∑ j ∈ range N, x j * truncated d.span g (((n - k : ℕ) : ℝ) / d.osr - j - d.span) else 0)
      = ∑ j ∈ range N, x j * (if j * d.osr ≤ n then pulseThrough d g f (n - j * d.osr) else 0) := by
  have hoR : (0 : ℝ) < d.osr := by exact_mod_cast ho
  have h1 : ∀ k ∈ range f.length, f.getD k 0 *
      (if k ≤ n then ∑ j ∈ range N, x j * truncated d.span g (((n - k : ℕ) : ℝ) / d.osr - j - d.span) else 0)
      = ∑ j ∈ range N, x j * (f.getD k 0 * (if j * d.osr ≤ n ∧ k ≤ n - j * d.osr then
          truncated d.span g (((n - j * d.osr - k : ℕ) : ℝ) / d.osr - d.span) else 0)) := by
    intro k _
    split_ifs with hk
    · rw [mul_sum]
      refine sum_congr rfl fun j _ => ?_
      by_cases hj : j * d.osr ≤ n ∧ k ≤ n - j * d.osr
      · rw [if_pos hj]
        have e : ((n - k : ℕ) : ℝ) / d.osr - j = ((n - j * d.osr - k : ℕ) : ℝ) / d.osr := by
          rw [Nat.cast_sub hk, Nat.cast_sub hj.2, Nat.cast_sub hj.1]
          push_cast
          field_simp
          ring
        rw [e]; ring
      · rw [if_neg hj]
        have e : ((n - k : ℕ) : ℝ) / d.osr - j - d.span < -(d.span : ℝ) := by
          have h2 : n - k < j * d.osr := by omega
          have h3 : ((n - k : ℕ) : ℝ) < j * d.osr := by exact_mod_cast h2
          have := (div_lt_iff₀ hoR).2 h3
          linarith
        unfold truncated
        rw [Set.indicator_of_notMem (by rw [Set.mem_Ico]; intro h; linarith [h.1])]
        ring
    · rw [mul_zero]
      symm
      refine sum_eq_zero fun j _ => ?_
      rw [if_neg (by omega)]; ring
  rw [sum_congr rfl h1, sum_comm]
  refine sum_congr rfl fun j _ => ?_
  rw [← mul_sum]
  congr 1
  unfold pulseThrough
  split_ifs with hj
  · refine sum_congr rfl fun k _ => ?_
    by_cases hk : k ≤ n - j * d.osr
    · rw [if_pos ⟨hj, hk⟩, if_pos hk]
    · rw [if_neg (fun h => hk h.2), if_neg hk]
  · refine sum_eq_zero fun k _ => ?_
    rw [if_neg (fun h => hj h.1), mul_zero]

/-- the output of a dispersive channel: superposition of the responses, plus bounded noise -/
theorem dispersive_output (d : ChannelArgs) (g : ℝ → ℝ) (f : List ℝ) (amp ε : ℝ) (hε : 0 ≤ ε) (ha : 0 ≤ amp) (S : ℕ) (hS : 0 < S)
    (nzs cs : List (List ℝ)) (hd : DispersiveChannel d g f amp (S * d.osr) ε nzs) (hu : UsablePulse d)
    (m : ChannelMem) (hm : channelInit d = .ok m) (hl : nzs.length = cs.length) (hcs0 : cs ≠ []) (hcs : ∀ c ∈ cs, c.length = S)
    (hamp : ∀ c ∈ cs, ∀ v ∈ c, |v| ≤ amp / 2) :
    ∃ (m' : ChannelMem) (ys : List (List ℝ)),
      channelRun d m nzs cs = .ok (ys.map .signal, m') ∧ ys.length = cs.length ∧ (∀ y ∈ ys, y.length = S * d.osr) ∧
      ∀ n, n < cs.length * (S * d.osr) → |ys.flatten.getD n 0 - ∑ j ∈ range cs.flatten.length, cs.flatten.getD j 0 *
        (if j * d.osr ≤ n then pulseThrough d g f (n - j * d.osr) else 0)| ≤ ε := by
  obtain ⟨L, hL, hn⟩ := hd.bounded
  have hs := hd.span
  have ho := hd.osr
  have hic : d.iirCoefs = some [1] := by unfold ChannelArgs.iirCoefs; rw [hd.iir]
  have hfc : d.firCoefs = f := by unfold ChannelArgs.firCoefs; rw [hd.fir]; rfl
  have hfl : 0 < d.firCoefs.length := by rw [hfc]; exact List.length_pos_of_ne_nil hd.taps
  have hinit := channelInit_rest d [1] hic hs ho hfl hd.rest.1 hd.rest.2
  rw [hm] at hinit
  have hinit := Except.ok.inj hinit
  have hmp : m.pulse = List.replicate (d.osr * d.span * 2 - 1) 0 := by rw [hinit]
  have hmc : m.ch.length = max d.firCoefs.length ([1] : List ℝ).length - 1 := by
    rw [hinit, List.length_replicate, max_comm]
  have hcsp : ∀ c ∈ cs, 0 < c.length := fun c hc => by rw [hcs c hc]; exact hS
  have hfx : cs.flatten.length = cs.length * S := by
    rw [List.length_flatten, show cs.map List.length = cs.map (fun _ => S) from List.map_congr_left hcs]
    simp
  have hcpos := List.length_pos_of_ne_nil hcs0
  have hfpos : 0 < cs.flatten.length := by rw [hfx]; exact Nat.mul_pos hcpos hS
  have hxa : ∀ v ∈ cs.flatten, |v| ≤ amp / 2 := by
    intro v hv
    obtain ⟨c, hc, hvc⟩ := List.mem_flatten.1 hv
    exact hamp c hc v hvc
  obtain ⟨qs, m', c1, c2, c3⟩ := C72_chunks { d with snr := none } hu hs ho [1] hic (by simp)
    (by show d.firCoefs ≠ []; rw [hfc]; exact hd.taps) rfl (Or.inl hd.type) m (by rw [hmp]; simp) hmc cs hcs0
    (fun c hc => List.ne_nil_of_length_pos (hcsp c hc))
  obtain ⟨m2, y2, m2', e1, e2, e3, e4⟩ := C72_response_partial { d with snr := none } g hd.pulse hs ho f hd.fir hd.taps hd.iir
    hd.type rfl hd.rest.1 hd.rest.2 cs.flatten (List.ne_nil_of_length_pos hfpos) []
  have hm2 : m2 = m := by
    have : channelInit { d with snr := none } = channelInit d := rfl
    rw [this, hm] at e1
    exact (Except.ok.inj e1).symm
  subst hm2
  rw [c2] at e2
  have hy2 : qs.flatten = y2 := by
    have := Except.ok.inj e2
    rw [Prod.mk.injEq] at this
    exact ChOut.signal.inj this.1
  subst hy2
  have hql : ∀ q ∈ qs, q.length = S * d.osr := by
    intro q hq
    have h1 : q.length ∈ qs.map List.length := List.mem_map_of_mem hq
    rw [c3] at h1
    obtain ⟨c, hc, e⟩ := List.mem_map.1 h1
    rw [← e, hcs c hc]
  have hqn : qs.length = cs.length := by simpa using congrArg List.length c3
  obtain ⟨ys, r1, r2, r3⟩ := channelRun_isi d hd.type nzs cs hl m2 m' qs c1 (fun p hp => by rw [hql p hp]; exact hd.chunk)
  obtain ⟨g', hg', hgs⟩ := hL
  obtain ⟨y0, z0, p1, p2, -, p3⟩ := C50_superposition cs.flatten d.osr d.span d.pulse d.rolloff g hd.pulse ho hs hfpos
  have hb := peak_bound d hs ho (amp / 2) L (by linarith) ⟨g', hg', hgs⟩ cs.flatten hfpos hxa _ _ p1
  set A := amp / 2 * L with hA
  have hA0 : 0 ≤ A := le_trans (abs_nonneg _) (hb 0 (Nat.mul_pos hfpos ho))
  have hresp : ∀ n, n < cs.flatten.length * d.osr → qs.flatten.getD n 0
      = ∑ k ∈ range f.length, f.getD k 0 * (if k ≤ n then y0.getD (n - k) 0 else 0) := by
    intro n hn'
    rw [e4 n hn']
    apply sum_congr rfl
    intro k _
    split_ifs with hk
    · rw [p3 (n - k) (by omega)]
    · rfl
  have hq1 : ∀ n, n < qs.length * (S * d.osr) → |qs.flatten.getD n 0| ≤ A * ∑ k ∈ range f.length, |f.getD k 0| := by
    intro n hn'
    rw [hqn, ← Nat.mul_assoc, ← hfx] at hn'
    rw [hresp n hn', mul_sum]
    refine (abs_sum_le_sum_abs _ _).trans (sum_le_sum fun k _ => ?_)
    rw [abs_mul, mul_comm]
    refine mul_le_mul_of_nonneg_right ?_ (abs_nonneg _)
    split_ifs
    · exact hb _ (by omega)
    · rw [abs_zero]; exact hA0
  obtain ⟨f1, f2⟩ := flat_close (S * d.osr) qs ys r2 hql ε (by
    intro i hi'
    have hpi : (qs.getD i []).length = S * d.osr := hql _ (by
      rw [List.getD_eq_getElem?_getD, List.getElem?_eq_getElem hi']; exact List.getElem_mem _)
    have hmem : nzs.getD i [] ∈ nzs := by
      rw [List.getD_eq_getElem?_getD, List.getElem?_eq_getElem (by omega)]; exact List.getElem_mem _
    have := noised_close _ _ _ _ (r3 i hi') _ ε (by rw [hpi]; exact hd.chunk)
      (by rw [hpi]; exact chunk_of_flat _ qs hql _ hq1 i hi') hε
      (by
        intro s hs'
        obtain ⟨Z, z1, z2⟩ := hn s hs'
        exact ⟨Z, by rw [hpi]; exact (z1 _ hmem).1, (z1 _ hmem).2, z2⟩)
    rw [hpi] at this
    exact this)
  refine ⟨m', ys, r1, by omega, f1, ?_⟩
  intro n hn'
  have h1 := f2 n (by rw [hqn]; exact hn')
  rw [e4 n (by rw [hfx, Nat.mul_assoc]; exact hn')] at h1
  rw [← response_split d g f ho cs.flatten.length (fun j => cs.flatten.getD j 0) n]
  exact h1

/-- the demapped symbols are the nearest levels, the first among equals -/
theorem recoverSymbols_nearest (c : Constellation) (x : List ℝ) (sym : List ℕ)
    (h : recoverSymbols x c (getLevels c false) = .ok (sym.map (fun (k : ℕ) => (k : Int)))) (i : ℕ) (hi : i < x.length) :
    NearestFirst (getLevels c false) (x.getD i 0) ((getLevels c false).getD (sym.getD i 0) 0) := by
  obtain ⟨hlen0, -⟩ := C19_levels c false
  have hn := numLevels_pos c
  have hne0 : getLevels c false ≠ [] := List.ne_nil_of_length_pos (by omega)
  have hgap : 0 < (getLevels c false).getD 1 0 - (getLevels c false).getD 0 0 := by
    cases c <;> simp [getLevels, intLevels]
  choose idx hidx hval hmin hfirst using fun y => sliceOne_spec (getLevels c false) hne0 y
  have h2 : recoverSymbols x c (getLevels c false) = .ok ((x.map idx).map (fun (k : ℕ) => (k : Int))) := by
    rw [recoverSymbols_eq _ _ _ hne0]
    refine (C18_demapping_nearest_partial c false false _ (x.map idx) (by simp) ?_).1
    intro i s k hi hk
    rw [List.getElem?_map, Option.map_eq_some_iff] at hi hk
    obtain ⟨y, hy, rfl⟩ := hi
    obtain ⟨y', hy', rfl⟩ := hk
    rw [hy] at hy'
    cases hy'
    refine ⟨_, List.getElem?_eq_getElem (hidx y), ?_⟩
    rw [← hval y]
    simpa using hgap
  rw [h] at h2
  have e := Except.ok.inj h2
  have e' : sym = x.map idx := List.map_injective_iff.2 (fun a b hab => by exact_mod_cast hab) e
  rw [e', getD_map_lt _ 0 0 _ hi]
  refine ⟨idx (x.getD i 0), hidx _, ?_, ?_, ?_⟩
  · rw [List.getD_eq_getElem?_getD, List.getElem?_eq_getElem (hidx _)]; rfl
  · have hv : (getLevels c false).getD (idx (x.getD i 0)) 0 = sliceOne (getLevels c false) (x.getD i 0) := by
      rw [hval, List.getD_eq_getElem?_getD, List.getElem?_eq_getElem (hidx _)]; rfl
    rw [hv]
    exact hmin _
  · have hv : (getLevels c false).getD (idx (x.getD i 0)) 0 = sliceOne (getLevels c false) (x.getD i 0) := by
      rw [hval, List.getD_eq_getElem?_getD, List.getElem?_eq_getElem (hidx _)]; rfl
    rw [hv]
    exact hfirst _

/-- scaling the levels and the value -/
theorem nearestFirst_scaled (lv : List ℝ) (G x y : ℝ) (hG : 0 < G) (h : NearestFirst (lv.map (fun l => l / G)) x y) :
    NearestFirst lv (G * x) (G * y) := by
  obtain ⟨i, hi, rfl, h1, h2⟩ := h
  have hi' : i < lv.length := by simpa using hi
  have habs : ∀ l : ℝ, |G * x - l| = G * |x - l / G| := by
    intro l
    rw [← abs_of_pos hG, ← abs_mul, abs_of_pos hG]
    congr 1
    field_simp
  have hy : G * (lv.map (fun l => l / G))[i] = lv[i] := by
    rw [List.getElem_map]; field_simp
  refine ⟨i, hi', hy, ?_, ?_⟩
  · intro l hl
    rw [hy, habs, habs]
    refine mul_le_mul_of_nonneg_left ?_ hG.le
    have := h1 (l / G) (List.mem_map_of_mem (f := fun l => l / G) hl)
    rwa [List.getElem_map] at this
  · intro j hj
    rw [hy, habs, habs]
    refine mul_lt_mul_of_pos_left ?_ hG
    have := h2 j hj
    rwa [List.getElem_map, List.getElem_map] at this

/-- a feedback sum as a sum over the age of the symbols -/
theorem feedback_reindex (B : List ℝ) (x : ℕ → ℝ) (δ n : ℕ) :
    ∑ q ∈ range (n + δ + 1), x (n + δ - q) * (if δ < q then B.getD (q - δ - 1) 0 else 0)
      = ∑ j ∈ range B.length, B.getD j 0 * (if j < n then x (n - 1 - j) else 0) := by
  rw [show n + δ + 1 = (δ + 1) + n by ring, sum_range_add,
    sum_eq_zero (fun q hq => by rw [if_neg (by have := mem_range.1 hq; omega), mul_zero]), zero_add]
  have h1 : ∀ j ∈ range n, x (n + δ - (δ + 1 + j)) * (if δ < δ + 1 + j then B.getD (δ + 1 + j - δ - 1) 0 else 0)
      = B.getD j 0 * (if j < n then x (n - 1 - j) else 0) := by
    intro j hj
    rw [if_pos (by omega), if_pos (mem_range.1 hj), show n + δ - (δ + 1 + j) = n - 1 - j by omega,
      show δ + 1 + j - δ - 1 = j by omega, mul_comm]
  rw [sum_congr rfl h1]
  have h2 : ∑ j ∈ range n, B.getD j 0 * (if j < n then x (n - 1 - j) else 0)
      = ∑ j ∈ range (n + B.length), B.getD j 0 * (if j < n then x (n - 1 - j) else 0) := by
    refine sum_subset (range_subset_range.2 (by omega)) fun j _ hj => ?_
    rw [if_neg (by rwa [mem_range] at hj), mul_zero]
  have h3 : ∑ j ∈ range B.length, B.getD j 0 * (if j < n then x (n - 1 - j) else 0)
      = ∑ j ∈ range (n + B.length), B.getD j 0 * (if j < n then x (n - 1 - j) else 0) := by
    refine sum_subset (range_subset_range.2 (by omega)) fun j _ hj => ?_
    rw [mem_range, not_lt] at hj
    rw [List.getD_eq_getElem?_getD, List.getElem?_eq_none hj]
    simp
  rw [h2, h3]

/-- feedback of decisions that are right for all symbols sent so far; older decisions belong to no symbol -/
theorem feedback_close (B : List ℝ) (G ρ M : ℝ) (hM : 0 ≤ M) (x : ℕ → ℝ) (d : List ℝ) (δ n : ℕ)
    (hd : ∀ i, |G * d.getD i 0| ≤ M)
    (hok : ∀ j, j < B.length → j < n → G * d.getD (n + δ - 1 - j) 0 = x (n - 1 - j) * ρ) :
    |G * ∑ j ∈ range B.length, B.getD j 0 * withPast ((none : Option (List ℝ)).getD []) d (((n + δ : ℕ) : ℤ) - 1 - j)
        - ρ * ∑ q ∈ range (n + δ + 1), x (n + δ - q) * (if δ < q then B.getD (q - δ - 1) 0 else 0)|
      ≤ if B.length ≤ n then 0 else M * ∑ j ∈ range B.length, |B.getD j 0| := by
  have hwp : ∀ j : ℕ, withPast ((none : Option (List ℝ)).getD []) d (((n + δ : ℕ) : ℤ) - 1 - j)
      = if j < n + δ then d.getD (n + δ - 1 - j) 0 else 0 := by
    intro j
    split_ifs with h
    · rw [show ((n + δ : ℕ) : ℤ) - 1 - j = ((n + δ - 1 - j : ℕ) : ℤ) by omega, withPast_nat]
    · unfold withPast
      rw [if_neg (by omega)]
      simp
  rw [feedback_reindex, mul_sum, mul_sum, ← sum_sub_distrib]
  simp only [hwp]
  split_ifs with hn
  · rw [sum_eq_zero, abs_zero]
    intro j hj
    have hj' := mem_range.1 hj
    rw [if_pos (by omega), if_pos (by omega)]
    have := hok j hj' (by omega)
    linear_combination B.getD j 0 * this
  · rw [mul_sum]
    refine (abs_sum_le_sum_abs _ _).trans (sum_le_sum fun j hj => ?_)
    have hj' := mem_range.1 hj
    by_cases h1 : j < n
    · rw [if_pos (by omega), if_pos h1]
      have := hok j hj' h1
      rw [show G * (B.getD j 0 * d.getD (n + δ - 1 - j) 0) - ρ * (B.getD j 0 * x (n - 1 - j)) = 0 by
        linear_combination B.getD j 0 * this, abs_zero]
      positivity
    · rw [if_neg h1, mul_zero, mul_zero, sub_zero]
      split_ifs with h2
      · rw [show G * (B.getD j 0 * d.getD (n + δ - 1 - j) 0) = G * d.getD (n + δ - 1 - j) 0 * B.getD j 0 by ring, abs_mul]
        exact mul_le_mul_of_nonneg_right (hd _) (abs_nonneg _)
      · rw [mul_zero, mul_zero, abs_zero]
        positivity

end Verif
