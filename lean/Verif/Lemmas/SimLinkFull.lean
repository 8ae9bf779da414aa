import Verif.Spec.SimFull
import Verif.Lemmas.SimFull
import Verif.Lemmas.Noise
import Verif.Lemmas.Delay
import Verif.Props.SimLink
import Verif.Props.SimChannel
import Verif.Props.Symbol

/-! Helper lemmas for C78: levels, bounds of the channel's disturbance, uncoded links. -/

namespace Verif
open Spec

/-- transmitter and slicer levels belong together -/
theorem levels_match (c : Constellation) (fs : Bool) (amp rx : ℝ) (tx : List ℝ) (ha : 0 < amp)
    (hrx : ∀ l ∈ getLevels c false, |l| ≤ rx) (hrx' : ∃ l ∈ getLevels c false, |l| = rx)
    (h : mappingDataLevels c (some (getLevels c fs)) amp = .ok tx) :
    receiverLevels tx amp rx = getLevels c false ∧ tx.length = numLevels c ∧ 0 < rx ∧
      (∀ k, k < numLevels c → tx.getD k 0 * 2 / amp * rx = (getLevels c false).getD k 0) ∧
      ∀ k, k < numLevels c → |tx.getD k 0| ≤ amp / 2 := by
  obtain ⟨hlen, -, ⟨g, hg, hge⟩, -⟩ := C19_levels c fs
  obtain ⟨hlen0, -⟩ := C19_levels c false
  have hn := numLevels_pos c
  have hne : getLevels c fs ≠ [] := List.ne_nil_of_length_pos (by omega)
  have hrx0 : 0 < rx := by
    have h1 : ∃ l ∈ getLevels c false, l ≠ 0 := by
      cases c <;> simp [getLevels, intLevels]
    obtain ⟨l, hl, h⟩ := h1
    exact lt_of_lt_of_le (abs_pos.2 h) (hrx l hl)
  have hmax : maxAbs (getLevels c fs) = rx * g := by
    rw [hge]
    apply maxAbs_eq _ _ (by positivity)
    · intro y hy
      obtain ⟨l, hl, rfl⟩ := List.mem_map.1 hy
      rw [abs_mul, abs_of_pos hg]
      exact mul_le_mul_of_nonneg_right (hrx l hl) hg.le
    · obtain ⟨l, hl, e⟩ := hrx'
      exact ⟨l * g, List.mem_map.2 ⟨l, hl, rfl⟩, by rw [abs_mul, abs_of_pos hg, e]⟩
  rw [mappingDataLevels_some c _ amp hne] at h
  cases h
  have hrl : receiverLevels ((getLevels c fs).map (fun v => v / maxAbs (getLevels c fs) * amp / 2)) amp rx
      = getLevels c false := by
    rw [receiverLevels_of _ _ _ ha.ne', hmax]
    conv_lhs => rw [hge]
    rw [List.map_map]
    conv_rhs => rw [← List.map_id (getLevels c false)]
    apply List.map_congr_left
    intro v _
    simp only [Function.comp, id]
    field_simp
  have htl : ((getLevels c fs).map (fun v => v / maxAbs (getLevels c fs) * amp / 2)).length = numLevels c := by
    rw [List.length_map, hlen]
  have hval : ∀ k, k < numLevels c → ((getLevels c fs).map (fun v => v / maxAbs (getLevels c fs) * amp / 2)).getD k 0
      * 2 / amp * rx = (getLevels c false).getD k 0 := by
    intro k hk
    rw [← hrl]
    unfold receiverLevels
    rw [getD_map_lt (fun v => v * 2 / amp * rx) 0 0 _ (by rw [htl]; exact hk)]
  refine ⟨hrl, htl, hrx0, hval, fun k hk => ?_⟩
  have h1 := hval k hk
  set t := ((getLevels c fs).map (fun v => v / maxAbs (getLevels c fs) * amp / 2)).getD k 0
  have h2 : |(getLevels c false).getD k 0| ≤ rx := by
    apply hrx
    rw [List.getD_eq_getElem?_getD, List.getElem?_eq_getElem (by omega)]
    exact List.getElem_mem _
  rw [← h1, abs_mul, abs_div, abs_mul, abs_of_pos hrx0, abs_of_pos ha, abs_of_pos (by norm_num : (0 : ℝ) < 2)] at h2
  have h3 : |t| * 2 / amp ≤ 1 := by
    by_contra hc
    push Not at hc
    nlinarith
  rw [div_le_one ha] at h3
  linarith

theorem noised_close (snr : Option ℝ) (nz y y' : List ℝ) (h : Noised snr nz y y') (A δ : ℝ) (hl : 2 ≤ y.length)
    (hy : ∀ n, n < y.length → |y.getD n 0| ≤ A) (hδ : 0 ≤ δ)
    (hn : ∀ s, snr = some s → ∃ Z, nz.length = y.length ∧ (∀ z ∈ nz, |z| ≤ Z) ∧ 2 * (A * Z) ^ 2 ≤ δ ^ 2 * (10 : ℝ) ^ (s / 10)) :
    y'.length = y.length ∧ ∀ n, n < y.length → |y'.getD n 0 - y.getD n 0| ≤ δ := by
  cases snr with
  | none =>
    cases h
    exact ⟨rfl, fun n _ => by rw [sub_self, abs_zero]; exact hδ⟩
  | some s =>
    obtain ⟨Z, h1, h2, h3⟩ := hn s rfl
    obtain ⟨t, y2, -, g2, g3, g4, g5, g6, -⟩ := C59_ratio y nz s hl h1
    have : y2 = y' := by
      have h' : awgn nz y s = some y' := h
      rw [g2] at h'
      exact Option.some.inj h'
    subst this
    refine ⟨g3, fun n hn' => ?_⟩
    rw [g4 n hn', add_sub_cancel_left]
    have hG : (0 : ℝ) < (10 : ℝ) ^ (s / 10) := Real.rpow_pos_of_pos (by norm_num) _
    have hA : 0 ≤ A := le_trans (abs_nonneg _) (hy n hn')
    have hP : t ^ 2 * (10 : ℝ) ^ (s / 10) ≤ 2 * A ^ 2 := by
      rw [← g6]
      obtain ⟨e1, e2⟩ := estimate_bounds y.length hl (fun n => y.getD n 0)
      have hN1 : (1 : ℝ) ≤ (y.length : ℝ) - 1 := by
        have : (2 : ℝ) ≤ y.length := by exact_mod_cast hl
        linarith
      have hm : meanPower y.length (fun n => y.getD n 0) ≤ A ^ 2 := by
        unfold meanPower
        rw [div_le_iff₀ (by linarith)]
        calc ∑ n ∈ Finset.range y.length, y.getD n 0 ^ 2 ≤ ∑ _n ∈ Finset.range y.length, A ^ 2 := by
              apply Finset.sum_le_sum
              intro i hi
              rw [← sq_abs]
              exact pow_le_pow_left₀ (abs_nonneg _) (hy i (Finset.mem_range.1 hi)) 2
          _ = _ := by rw [Finset.sum_const, Finset.card_range, nsmul_eq_mul]; ring
      rw [e1]
      have h5 : (meanPower y.length (fun n => y.getD n 0) - avg y.length (fun n => y.getD n 0) ^ 2) / ((y.length : ℝ) - 1)
          ≤ A ^ 2 := by
        rw [div_le_iff₀ (by linarith)]
        nlinarith [sq_nonneg (avg y.length (fun n => y.getD n 0)), sq_nonneg A]
      linarith
    have hz : |nz.getD n 0| ≤ Z := by
      apply h2
      rw [List.getD_eq_getElem?_getD, List.getElem?_eq_getElem (by omega)]
      exact List.getElem_mem _
    refine abs_le_of_sq_le_sq ?_ hδ
    have hz2 : nz.getD n 0 ^ 2 ≤ Z ^ 2 := by
      rw [← sq_abs]
      exact pow_le_pow_left₀ (abs_nonneg _) hz 2
    have : (t * nz.getD n 0) ^ 2 * (10 : ℝ) ^ (s / 10) ≤ δ ^ 2 * (10 : ℝ) ^ (s / 10) := by
      calc (t * nz.getD n 0) ^ 2 * (10 : ℝ) ^ (s / 10) = (t ^ 2 * (10 : ℝ) ^ (s / 10)) * nz.getD n 0 ^ 2 := by ring
        _ ≤ (2 * A ^ 2) * Z ^ 2 := mul_le_mul hP hz2 (sq_nonneg _) (by positivity)
        _ = 2 * (A * Z) ^ 2 := by ring
        _ ≤ _ := h3
    exact le_of_mul_le_mul_right this hG

theorem flat_close (M : ℕ) (ps ys : List (List ℝ)) (hl : ys.length = ps.length) (hp : ∀ p ∈ ps, p.length = M) (δ : ℝ)
    (h : ∀ i, i < ps.length → (ys.getD i []).length = M ∧ ∀ n, n < M → |(ys.getD i []).getD n 0 - (ps.getD i []).getD n 0| ≤ δ) :
    (∀ y ∈ ys, y.length = M) ∧ ∀ n, n < ps.length * M → |ys.flatten.getD n 0 - ps.flatten.getD n 0| ≤ δ := by
  have hy : ∀ y ∈ ys, y.length = M := by
    intro y hy
    obtain ⟨i, hi, rfl⟩ := List.getElem_of_mem hy
    have := (h i (by omega)).1
    rwa [List.getD_eq_getElem?_getD, List.getElem?_eq_getElem hi] at this
  refine ⟨hy, fun n hn => ?_⟩
  have hM : 0 < M := by
    rcases Nat.eq_zero_or_pos M with h0 | h0
    · rw [h0] at hn; omega
    · exact h0
  have hr := Nat.mod_lt n hM
  have hq : n / M < ps.length := (Nat.div_lt_iff_lt_mul hM).2 hn
  have hd := Nat.div_add_mod n M
  rw [← hd, Nat.mul_comm, flatten_getD 0 M ys hy _ _ (by omega) hr, flatten_getD 0 M ps hp _ _ hq hr]
  exact (h _ hq).2 _ hr

/-- the pulse-shaped signal is bounded -/
theorem peak_bound (d : ChannelArgs) (hs : 0 < d.span) (ho : 0 < d.osr) (A L : ℝ) (hA : 0 ≤ A) (hL : PeakGain d L) (x : List ℝ)
    (hx : 0 < x.length) (hxa : ∀ v ∈ x, |v| ≤ A) (y z : List ℝ)
    (h : pulseShape x d.osr d.span d.pulse d.rolloff none = .ok (y, z)) (n : ℕ) (hn : n < x.length * d.osr) :
    |y.getD n 0| ≤ A * L := by
  obtain ⟨g, hg, hsum⟩ := hL
  obtain ⟨y', z', e1, -, -, e2⟩ := C50_superposition x d.osr d.span d.pulse d.rolloff g hg ho hs hx
  rw [h] at e1
  cases e1
  rw [e2 n hn]
  calc |∑ j ∈ Finset.range x.length, x.getD j 0 * truncated d.span g ((n : ℝ) / d.osr - j - d.span)|
      ≤ ∑ j ∈ Finset.range x.length, |x.getD j 0 * truncated d.span g ((n : ℝ) / d.osr - j - d.span)| :=
        Finset.abs_sum_le_sum_abs _ _
    _ ≤ ∑ j ∈ Finset.range x.length, A * |truncated d.span g ((n : ℝ) / d.osr - j - d.span)| := by
        apply Finset.sum_le_sum
        intro j hj
        rw [abs_mul]
        refine mul_le_mul_of_nonneg_right (hxa _ ?_) (abs_nonneg _)
        rw [List.getD_eq_getElem?_getD, List.getElem?_eq_getElem (Finset.mem_range.1 hj)]
        exact List.getElem_mem _
    _ = A * ∑ j ∈ Finset.range x.length, |truncated d.span g ((n : ℝ) / d.osr - j - d.span)| := by rw [Finset.mul_sum]
    _ ≤ A * L := mul_le_mul_of_nonneg_left (hsum _ _) hA

theorem chunk_of_flat (M : ℕ) (ps : List (List ℝ)) (hp : ∀ p ∈ ps, p.length = M) (A : ℝ)
    (h : ∀ n, n < ps.length * M → |ps.flatten.getD n 0| ≤ A) (i : ℕ) (hi : i < ps.length) (n : ℕ) (hn : n < M) :
    |(ps.getD i []).getD n 0| ≤ A := by
  rw [← flatten_getD 0 M ps hp i n hi hn]
  apply h
  calc i * M + n < i * M + M := by omega
    _ = (i + 1) * M := by ring
    _ ≤ ps.length * M := Nat.mul_le_mul_right _ hi

/-- the output of the channel stays close to the pulse-shaped signal -/
theorem channel_close (d : ChannelArgs) (hname : d.pulse = "sinc" ∨ (d.pulse = "rcos" ∧ d.rolloff ≠ 0)) (hs : 0 < d.span)
    (ho : 0 < d.osr) (hi : d.iir = none) (m : ChannelMem) (hm : channelInit d = .ok m) (hpz : d.pulseZi = none)
    (hcz : d.chZi = none) (hf0 : d.fir ≠ some []) (amp ε : ℝ) (ha : 0 ≤ amp) (S : ℕ) (hS : 0 < S)
    (nzs cs : List (List ℝ)) (hl : nzs.length = cs.length) (hcs0 : cs ≠ []) (hcs : ∀ c ∈ cs, c.length = S)
    (hamp : ∀ c ∈ cs, ∀ v ∈ c, |v| ≤ amp / 2) (hf : ChannelFits d amp (S * d.osr) ε nzs) :
    ∃ (m' : ChannelMem) (ys : List (List ℝ)) (y0 z0 : List ℝ),
      channelRun d m nzs cs = .ok (ys.map .signal, m') ∧ ys.length = cs.length ∧ (∀ y ∈ ys, y.length = S * d.osr) ∧
      pulseShape cs.flatten d.osr d.span d.pulse d.rolloff none = .ok (y0, z0) ∧
      ∀ n, n < cs.length * (S * d.osr) → |ys.flatten.getD n 0 - y0.getD n 0| ≤ ε := by
  have hname' : d.pulse = "rect" ∨ d.pulse = "sinc" ∨ ((d.pulse = "rcos" ∨ d.pulse = "rrc") ∧ d.rolloff ≠ 0) := by
    rcases hname with h | ⟨h, h'⟩
    · exact Or.inr (Or.inl h)
    · exact Or.inr (Or.inr ⟨Or.inl h, h'⟩)
  have hic : d.iirCoefs = some [1] := by unfold ChannelArgs.iirCoefs; rw [hi]
  have hfl : 0 < d.firCoefs.length := by
    unfold ChannelArgs.firCoefs
    cases h : d.fir with
    | none => decide
    | some f =>
      rw [h] at hf0
      exact List.length_pos_of_ne_nil (by simpa using hf0)
  have hinit := channelInit_rest d [1] hic hs ho hfl hpz hcz
  rw [hm] at hinit
  have hinit := Except.ok.inj hinit
  have hmp : m.pulse = List.replicate (d.osr * d.span * 2 - 1) 0 := by rw [hinit]
  have hmc : m.ch.length = max d.firCoefs.length ([1] : List ℝ).length - 1 := by
    rw [hinit, List.length_replicate, max_comm]
  have hcsp : ∀ c ∈ cs, 0 < c.length := fun c hc => by rw [hcs c hc]; exact hS
  obtain ⟨ps, zp, q1, q2, q3⟩ := C50_chunks d.osr d.span d.pulse d.rolloff ho hs hname' (some m.pulse)
    (by intro z hz; cases hz; rw [hmp]; simp) cs hcs0 hcsp
  have q2' : pulseShape cs.flatten d.osr d.span d.pulse d.rolloff none = .ok (ps.flatten, zp) := by
    rw [← q2, hmp, pulseShape_rest]
  have hpl : ∀ p ∈ ps, p.length = S * d.osr := by
    intro p hp
    have h1 : p.length ∈ ps.map List.length := List.mem_map_of_mem hp
    rw [q3] at h1
    obtain ⟨c, hc, e⟩ := List.mem_map.1 h1
    rw [← e, hcs c hc]
  have hpn : ps.length = cs.length := by simpa using congrArg List.length q3
  have hfx : cs.flatten.length = cs.length * S := by
    rw [List.length_flatten, show cs.map List.length = cs.map (fun _ => S) from List.map_congr_left hcs]
    simp
  have hcpos := List.length_pos_of_ne_nil hcs0
  have hfpos : 0 < cs.flatten.length := by rw [hfx]; exact Nat.mul_pos hcpos hS
  have hxa : ∀ v ∈ cs.flatten, |v| ≤ amp / 2 := by
    intro v hv
    obtain ⟨c, hc, hvc⟩ := List.mem_flatten.1 hv
    exact hamp c hc v hvc
  cases hf with
  | pulse ht hε =>
    refine ⟨_, ps, _, _, channelRun_pulse d ht nzs cs hl m ps zp q1, hpn, hpl, q2', fun n _ => ?_⟩
    rw [sub_self, abs_zero]
    exact hε
  | awgn ht snr L Z hsnr hL hM hn hε hsum =>
    obtain ⟨ys, r1, r2, r3⟩ := channelRun_awgn d ht snr hsnr nzs cs hl m ps zp q1 (fun p hp => by rw [hpl p hp]; exact hM)
    have hb := peak_bound d hs ho (amp / 2) L (by linarith) hL cs.flatten hfpos hxa _ _ q2'
    rw [hfx, Nat.mul_assoc, ← hpn] at hb
    obtain ⟨f1, f2⟩ := flat_close (S * d.osr) ps ys r2 hpl ε (by
      intro i hi'
      have hpi : (ps.getD i []).length = S * d.osr := hpl _ (by
        rw [List.getD_eq_getElem?_getD, List.getElem?_eq_getElem hi']; exact List.getElem_mem _)
      have hni := hn (nzs.getD i []) (by
        rw [List.getD_eq_getElem?_getD, List.getElem?_eq_getElem (by omega)]; exact List.getElem_mem _)
      have := noised_close _ _ _ _ (r3 i hi') (amp / 2 * L) ε (by rw [hpi]; exact hM)
        (by rw [hpi]; exact chunk_of_flat _ ps hpl _ hb i hi') hε
        (by intro s hs'; cases hs'; exact ⟨Z, by rw [hpi]; exact hni.1, hni.2, hsum⟩)
      rw [hpi] at this
      exact this)
    refine ⟨_, ys, _, _, r1, by omega, f1, q2', ?_⟩
    rw [← hpn]
    exact f2
  | isi ht f hff hfe L δ hL hM hδ hn hsum =>
    have hfc : d.firCoefs = f := by unfold ChannelArgs.firCoefs; rw [hff]; rfl
    obtain ⟨qs, m', c1, c2, c3⟩ := C72_chunks { d with snr := none } hname' hs ho [1] hic (by simp)
      (by show d.firCoefs ≠ []; rw [hfc]; exact hfe) rfl (Or.inl ht) m (by rw [hmp]; simp) hmc cs hcs0
      (fun c hc => List.ne_nil_of_length_pos (hcsp c hc))
    obtain ⟨g, hg, hgs⟩ := hL
    obtain ⟨m2, y2, m2', e1, e2, e3, e4⟩ := C72_response_partial { d with snr := none } g hg hs ho f hff hfe hi ht rfl hpz hcz
      cs.flatten (List.ne_nil_of_length_pos hfpos) []
    have hm2 : m2 = m := by
      have : channelInit { d with snr := none } = channelInit d := rfl
      rw [this, hm] at e1
      exact (Except.ok.inj e1).symm
    subst hm2
    rw [c2] at e2
    have hy2 : qs.flatten = y2 := by
      have := Except.ok.inj e2
      rw [Prod.mk.injEq] at this
      exact ChOut.signal.inj this.1
    subst hy2
    have hql : ∀ q ∈ qs, q.length = S * d.osr := by
      intro q hq
      have h1 : q.length ∈ qs.map List.length := List.mem_map_of_mem hq
      rw [c3] at h1
      obtain ⟨c, hc, e⟩ := List.mem_map.1 h1
      rw [← e, hcs c hc]
    have hqn : qs.length = cs.length := by simpa using congrArg List.length c3
    obtain ⟨ys, r1, r2, r3⟩ := channelRun_isi d ht nzs cs hl m2 m' qs c1 (fun p hp => by rw [hql p hp]; exact hM)
    -- the noise-free response
    obtain ⟨y0, z0, p1, p2, -, p3⟩ := C50_superposition cs.flatten d.osr d.span d.pulse d.rolloff g hg ho hs hfpos
    have hb := peak_bound d hs ho (amp / 2) L (by linarith) ⟨g, hg, hgs⟩ cs.flatten hfpos hxa _ _ p1
    set A := amp / 2 * L with hA
    have hA0 : 0 ≤ A := le_trans (abs_nonneg _) (hb 0 (Nat.mul_pos hfpos ho))
    have hresp : ∀ n, n < cs.flatten.length * d.osr → qs.flatten.getD n 0
        = ∑ k ∈ Finset.range f.length, f.getD k 0 * (if k ≤ n then y0.getD (n - k) 0 else 0) := by
      intro n hn'
      rw [e4 n hn']
      apply Finset.sum_congr rfl
      intro k _
      split_ifs with hk
      · rw [p3 (n - k) (by omega)]
      · rfl
    have hterm : ∀ n k, n < cs.flatten.length * d.osr → |f.getD k 0 * (if k ≤ n then y0.getD (n - k) 0 else 0)|
        ≤ A * |f.getD k 0| := by
      intro n k hn'
      rw [abs_mul, mul_comm]
      refine mul_le_mul_of_nonneg_right ?_ (abs_nonneg _)
      split_ifs
      · exact hb _ (by omega)
      · rw [abs_zero]; exact hA0
    have hq1 : ∀ n, n < qs.length * (S * d.osr) → |qs.flatten.getD n 0| ≤ A * ∑ k ∈ Finset.range f.length, |f.getD k 0| := by
      intro n hn'
      rw [hqn, ← Nat.mul_assoc, ← hfx] at hn'
      rw [hresp n hn', Finset.mul_sum]
      exact (Finset.abs_sum_le_sum_abs _ _).trans (Finset.sum_le_sum fun k _ => hterm n k hn')
    have hq2 : ∀ n, n < qs.length * (S * d.osr) → |qs.flatten.getD n 0 - y0.getD n 0|
        ≤ A * (|f.getD 0 0 - 1| + ∑ k ∈ Finset.Ico 1 f.length, |f.getD k 0|) := by
      intro n hn'
      rw [hqn, ← Nat.mul_assoc, ← hfx] at hn'
      have hf1 := List.length_pos_of_ne_nil hfe
      rw [hresp n hn', Finset.range_eq_Ico, Finset.sum_eq_sum_Ico_succ_bot hf1, if_pos (Nat.zero_le _), Nat.sub_zero,
        show ∀ u v w : ℝ, u * v + w - v = (u - 1) * v + w by intros; ring, mul_add, Finset.mul_sum]
      refine (abs_add_le _ _).trans (add_le_add ?_ ?_)
      · rw [abs_mul, mul_comm]
        exact mul_le_mul_of_nonneg_right (hb n hn') (abs_nonneg _)
      · exact (Finset.abs_sum_le_sum_abs _ _).trans (Finset.sum_le_sum fun k _ => hterm n k hn')
    obtain ⟨f1, f2⟩ := flat_close (S * d.osr) qs ys r2 hql δ (by
      intro i hi'
      have hpi : (qs.getD i []).length = S * d.osr := hql _ (by
        rw [List.getD_eq_getElem?_getD, List.getElem?_eq_getElem hi']; exact List.getElem_mem _)
      have hmem : nzs.getD i [] ∈ nzs := by
        rw [List.getD_eq_getElem?_getD, List.getElem?_eq_getElem (by omega)]; exact List.getElem_mem _
      have := noised_close _ _ _ _ (r3 i hi') _ δ (by rw [hpi]; exact hM)
        (by rw [hpi]; exact chunk_of_flat _ qs hql _ hq1 i hi') hδ
        (by
          intro s hs'
          obtain ⟨Z, z1, z2⟩ := hn s hs'
          exact ⟨Z, by rw [hpi]; exact (z1 _ hmem).1, (z1 _ hmem).2, z2⟩)
      rw [hpi] at this
      exact this)
    refine ⟨m', ys, y0, z0, r1, by omega, f1, p1, fun n hn' => ?_⟩
    rw [← hqn] at hn'
    calc |ys.flatten.getD n 0 - y0.getD n 0|
        = |(ys.flatten.getD n 0 - qs.flatten.getD n 0) + (qs.flatten.getD n 0 - y0.getD n 0)| := by congr 1; ring
      _ ≤ δ + A * (|f.getD 0 0 - 1| + ∑ k ∈ Finset.Ico 1 f.length, |f.getD k 0|) :=
        (abs_add_le _ _).trans (add_le_add (f2 n hn') (hq2 n hn'))
      _ ≤ ε := by linarith

/-- at most `2·span` pulses overlap, so `2·span` is a peak gain of the sinc pulse -/
theorem peakGain_sinc (d : ChannelArgs) (h : d.pulse = "sinc") : PeakGain d (2 * d.span) := by
  refine ⟨_, Or.inr (Or.inl ⟨h, rfl⟩), fun t J => ?_⟩
  have h1 : ∀ j ∈ Finset.range J, |truncated d.span (fun t => Real.sinc (Real.pi * t)) (t - j - d.span)|
      ≤ if (j : ℤ) ∈ Finset.Ioc (⌊t⌋ - 2 * d.span) ⌊t⌋ then (1 : ℝ) else 0 := by
    intro j _
    unfold truncated
    by_cases hj : t - j - d.span ∈ Set.Ico (-(d.span : ℝ)) d.span
    · rw [Set.indicator_of_mem hj, if_pos]
      · exact Real.abs_sinc_le_one _
      · obtain ⟨a1, a2⟩ := hj
        rw [Finset.mem_Ioc]
        constructor
        · have : (⌊t⌋ : ℝ) ≤ t := Int.floor_le t
          have : ((⌊t⌋ - 2 * d.span : ℤ) : ℝ) < ((j : ℤ) : ℝ) := by push_cast; linarith
          exact_mod_cast this
        · apply Int.le_floor.2
          push_cast
          linarith
    · rw [Set.indicator_of_notMem hj, abs_zero]
      split_ifs <;> norm_num
  refine (Finset.sum_le_sum h1).trans ?_
  rw [← Finset.sum_filter, Finset.sum_const, nsmul_eq_mul, mul_one]
  have h2 : ((Finset.range J).filter (fun j : ℕ => (j : ℤ) ∈ Finset.Ioc (⌊t⌋ - 2 * d.span) ⌊t⌋)).card
      ≤ (Finset.Ioc (⌊t⌋ - 2 * (d.span : ℤ)) ⌊t⌋).card := by
    apply Finset.card_le_card_of_injOn (fun j : ℕ => (j : ℤ))
    · intro j hj
      exact (Finset.mem_filter.1 hj).2
    · intro x _ y _ hxy
      simpa using hxy
  rw [Int.card_Ioc] at h2
  have h3 : (⌊t⌋ - (⌊t⌋ - 2 * (d.span : ℤ))).toNat = 2 * d.span := by
    rw [sub_sub_cancel]; omega
  rw [h3] at h2
  exact_mod_cast h2

/-- without codes, encoder and decoder work symbol by symbol -/
theorem uncoded_codec (rnd : Int → Int) (d : CodingData) (w : ℕ) (hw : 1 ≤ w) (hu : Uncoded d w) :
    ∃ f : Int → List Int, (∀ s, (f s).length = w) ∧
      (∀ s : List Int, (w = 1 ∨ s.length ≠ 1 ∨ d.flags.matrixOp = false) →
        decoder d s = .ok ((s.map f).flatten.map (fun (v : Int) => (v : ℚ)))) ∧
      ∀ (x : List Int) (S : ℕ), IsBinary x → x.length = w * S → ∃ sym, encoder rnd d x = .ok sym ∧ sym.length = S ∧
        (∀ v ∈ sym, 0 ≤ v ∧ v < 2 ^ w) ∧ (sym.map f).flatten = x := by
  have hencb : ∀ x, encoder rnd d x = encodeSymbols d x := by
    intro x
    have h1 : encodeBinary rnd d x = .ok x := by
      simp [encodeBinary, optStage, hu.binDifferential, hu.manchester, hu.bipolar, hu.mlt3, hu.diffManchester, hu.linear,
        hu.conv, bind, Except.bind]
    have h2 : ∀ y, encodeOuter d y = .ok y := by
      intro y; simp [encodeOuter, optStage, hu.differential, hu.gray, bind, Except.bind]
    unfold encoder
    rw [h1]
    simp only [bind, Except.bind]
    cases encodeSymbols d x with
    | error e => rfl
    | ok y => exact h2 y
  have hdecb : ∀ s y, decodeSymbols d s = .ok y → decoder d s = .ok (y.map (fun (v : Int) => (v : ℚ))) := by
    intro s y h
    have h1 : decodeOuter d s = .ok s := by
      simp [decodeOuter, optStage, hu.differential, hu.gray, bind, Except.bind]
    have h2 : ∀ y, decodeBinaryTail d y = .ok y := by
      intro y
      simp [decodeBinaryTail, optStage, hu.bipolar, hu.mlt3, hu.diffManchester, hu.linear, hu.conv, bind, Except.bind]
    unfold decoder
    rw [h1]
    simp only [bind, Except.bind]
    rw [h]
    simp [decodeBinary, optStage, hu.binDifferential, hu.manchester, h2, bind, Except.bind, pure, Except.pure]
  rcases Nat.lt_or_ge 1 w with hw2 | hw1
  · refine ⟨fun s => rxRow d.flags (symBits w s), fun s => by rw [rxRow_length, symBits_length], fun s hs => ?_, ?_⟩
    · apply hdecb
      unfold decodeSymbols
      rw [hu.bps]
      simp only []
      rw [if_pos hw2, symbol2bin_multi s w hw2 d.flags (by
        rcases hs with h | h
        · omega
        · exact h)]
    · intro x S hx hl
      have he : encoder rnd d x = bin2symbol x (2 ^ w) d.flags := by
        rw [hencb]
        unfold encodeSymbols
        rw [hu.bps]
        simp only []
        rw [if_pos hw2]
      obtain ⟨sy, h1, h2, h3⟩ := C14_symbol_range x hx w hw d.flags
      refine ⟨sy, by rw [he, h1], by rw [h2, hl, Nat.mul_div_cancel_left _ (by omega)], h3, ?_⟩
      rw [bin2symbol_multi x w hw2 d.flags] at h1
      have hm : x.length % w = 0 := by rw [hl]; exact Nat.mul_mod_right _ _
      rw [hm, Nat.sub_zero, List.take_length] at h1
      cases h1
      rw [List.map_map, show (rows w x).map ((fun s => rxRow d.flags (symBits w s)) ∘ fun r => leVal (txRow d.flags r))
          = (rows w x).map id from ?_, List.map_id, flatten_rows w (by omega) _ hm]
      apply List.map_congr_left
      intro r hr
      have hrl := mem_rows_length w x r hr
      have hrb : IsBinary r := fun y hy => hx y (mem_rows_mem w x r hr y hy)
      have h1 : symBits w (leVal (txRow d.flags r)) = txRow d.flags r := by
        have := symBits_leVal (txRow d.flags r) (binary_txRow d.flags hrb)
        rwa [txRow_length, hrl] at this
      simp only [Function.comp, h1, rx_tx, id]
  · obtain rfl : w = 1 := by omega
    have hflat : ∀ (g : Int → Int) (l : List Int), (l.map (fun s => [g s])).flatten = l.map g := by
      intro g l
      induction l with
      | nil => rfl
      | cons a l ih => rw [List.map_cons, List.flatten_cons, ih]; rfl
    refine ⟨fun s => [if d.flags.pnInv then 1 - s else s], fun s => rfl, fun s _ => ?_, ?_⟩
    · apply hdecb
      unfold decodeSymbols
      rw [hu.bps, hflat]
      simp only []
      rw [if_neg (by omega)]
      cases d.flags.pnInv <;> simp
    · intro x S hx hl
      have he : encoder rnd d x = .ok (if d.flags.pnInv then x.map (fun v => 1 - v) else x) := by
        rw [hencb]
        unfold encodeSymbols
        rw [hu.bps]
        simp only []
        rw [if_neg (by omega)]
      refine ⟨_, he, ?_, ?_, ?_⟩
      · split_ifs <;> simp [hl]
      · intro v hv
        split_ifs at hv
        · obtain ⟨y, hy, rfl⟩ := List.mem_map.1 hv
          rcases hx y hy with rfl | rfl <;> norm_num
        · rcases hx v hv with rfl | rfl <;> norm_num
      · rw [hflat]
        cases d.flags.pnInv <;> simp

theorem flatMap_getD {α β : Type} (f : α → List β) (w : ℕ) (hf : ∀ s, (f s).length = w) (a0 : α) (b0 : β) (l : List α) :
    ∀ n r, n < l.length → r < w → (l.map f).flatten.getD (w * n + r) b0 = (f (l.getD n a0)).getD r b0 := by
  induction l with
  | nil => intro n r h; simp at h
  | cons a l ih =>
    intro n r hn hr
    rw [List.map_cons, List.flatten_cons]
    cases n with
    | zero => rw [Nat.mul_zero, Nat.zero_add, List.getD_append _ _ _ _ (by rw [hf]; exact hr)]; rfl
    | succ n =>
      rw [List.getD_append_right _ _ _ _ (by rw [hf, Nat.mul_succ]; omega), hf, List.getD_cons_succ,
        ← ih n r (by simpa using hn) hr]
      congr 1
      rw [Nat.mul_succ]; omega

end Verif
