import Verif.Lemmas.SurvivorBlock

/-! Lemmas: errors corrected by the Viterbi decoder. -/

namespace Verif
open Spec

theorem dist_blocks (n k : ℕ) (a b : ℕ → Int) :
    Spec.dist (n * k) a b = ∑ t ∈ Finset.range n, Spec.dist k (fun j => a (t * k + j)) (fun j => b (t * k + j)) := by
  induction n with
  | zero => simp [Spec.dist]
  | succ n ih =>
    rw [Finset.sum_range_succ, ← ih]
    unfold Spec.dist
    simp only [Finset.card_filter]
    rw [Nat.succ_mul, Finset.sum_range_add]

section
variable {nO : ℕ} {G : ConvG} {fb : Fb}

/-- registers from step `k` on -/
def shiftW (w : ℕ → ℤ → Int) (k : ℕ) : ℕ → ℤ → Int := fun i t => w i (t + k)

theorem shift_run {v : List Int} (hv : IsBinary v) {w : ℕ → ℤ → Int} (hw : IsRun G fb v w) (k : ℕ) {x : List Int}
    (hx : ∀ i < G.length, ∀ t : ℕ, inBit x G.length i t = inBit v G.length i (t + k)) : IsRun G fb x (shiftW w k) := by
  intro i hi
  refine ⟨fun t ht => ?_, fun t _ => register_binary (hw i hi).1 (hw i hi).2 _⟩
  obtain ⟨n, rfl⟩ := Int.eq_ofNat_of_zero_le ht
  unfold shiftW
  rw [(hw i hi).1 (n + k) (by omega), hx i hi n]
  congr 2
  refine Finset.sum_congr rfl (fun d _ => ?_)
  congr 2
  ring

theorem shift_cells (w : ℕ → ℤ → Int) (k : ℕ) (t : ℤ) : cellsAt G (shiftW w k) t = cellsAt G w (t + k) := by
  rw [cellsAt_eq, cellsAt_eq]
  apply stateAt_congr
  intro i _ j _
  unfold shiftW
  congr 1
  ring

theorem shift_bit {v x : List Int} {w : ℕ → ℤ → Int} (k t j : ℕ)
    (hx : ∀ i < G.length, ∀ t : ℕ, inBit x G.length i t = inBit v G.length i (t + k)) :
    runBit G fb x (shiftW w k) t j = runBit G fb v w (t + k) j := by
  unfold runBit encBit
  congr 1
  refine Finset.sum_congr rfl (fun i hi => ?_)
  rw [Finset.mem_range] at hi
  split
  · rw [hx i hi t]
    push_cast
    rfl
  · unfold tapSum shiftW
    refine Finset.sum_congr rfl (fun d _ => ?_)
    congr 2
    push_cast
    ring

theorem inBit_drop (v : List Int) (k : ℕ) : ∀ i < G.length, ∀ t : ℕ,
    inBit (v.drop (k * G.length)) G.length i t = inBit v G.length i (t + k) := by
  intro i _ t
  unfold inBit
  rw [if_pos (by omega), if_pos (by omega), drop_getD]
  congr 1
  rw [show ((t : ℤ) + k).toNat = t + k by omega]
  simp
  ring

/-- one step of a run as a run -/
theorem one_run {v : List Int} (hv : IsBinary v) {w : ℕ → ℤ → Int} (hw : IsRun G fb v w) (t : ℕ) :
    ∃ u wt, Word G.length u ∧ u = rowOf G v t ∧ IsRun G fb u wt ∧ cellsAt G wt 0 = cellsAt G w t ∧
      cellsAt G wt 1 = cellsAt G w (t + 1) ∧ runBit G fb u wt 0 = runBit G fb v w t := by
  -- the run with all later data agrees in the first step
  have hu := rowOf_word G v hv t
  obtain ⟨u, hu'⟩ : ∃ u, u = rowOf G v t := ⟨_, rfl⟩
  rw [← hu'] at hu
  have hin : ∀ i < G.length, inBit u G.length i 0 = inBit v G.length i t := by
    intro i hi
    rw [← rowOf_getD G v t i hi, ← hu']
    simp [inBit]
  obtain ⟨N, hN⟩ : ∃ N : ℕ → ℕ, ∀ i, N i = (poly fb i).length + (cols (G.getD i []) + ((G.getD i []).map List.length).sum) :=
    ⟨_, fun _ => rfl⟩
  have hex : ∀ i, ∃ wi : ℤ → Int, i < G.length → (IsRegister (poly fb i) (inBit u G.length i) wi ∧ (∀ s < 0, wi s = 0 ∨ wi s = 1) ∧
      ∀ s ≤ 0, -(s : ℤ) ≤ N i → wi s = w i (s + t)) := by
    intro i
    obtain ⟨wi, h1, h2⟩ := exists_register (poly fb i) (inBit u G.length i) ((List.range (N i + 1)).map fun k : ℕ => w i (t - 1 - k))
    refine ⟨wi, fun hi => ?_⟩
    have hneg : ∀ k : ℕ, k < N i + 1 → wi (-1 - k) = w i (t - 1 - k) := by
      intro k hk
      rw [h2, map_range_getD _ _ _ _ hk]
    refine ⟨h1, ?_, ?_⟩
    · intro s hs
      obtain ⟨k, rfl⟩ : ∃ k : ℕ, s = -1 - k := ⟨(-1 - s).toNat, by omega⟩
      rw [h2]
      rcases Nat.lt_or_ge k (N i + 1) with hk | hk
      · rw [map_range_getD _ _ _ _ hk]
        exact register_binary (hw i hi).1 (hw i hi).2 _
      · rw [getD_of_le 0 _ (by simpa using hk)]
        exact Or.inl rfl
    · intro s hs hs'
      rcases lt_or_eq_of_le hs with hs | rfl
      · obtain ⟨k, rfl⟩ : ∃ k : ℕ, s = -1 - k := ⟨(-1 - s).toNat, by omega⟩
        rw [hneg k (by omega)]
        congr 1
        ring
      · rw [h1 0 le_rfl, zero_add, (hw i hi).1 t (by omega), hin i hi]
        congr 2
        refine Finset.sum_congr rfl (fun d hd => ?_)
        rw [Finset.mem_range] at hd
        have := hneg d (by have := hN i; omega)
        rw [show (0:ℤ) - (d + 1) = -1 - d by ring, this]
        congr 2
        ring
  choose wt hwt using hex
  refine ⟨u, wt, hu, hu', fun i hi => ⟨(hwt i hi).1, (hwt i hi).2.1⟩, ?_, ?_, ?_⟩
  · rw [cellsAt_eq, cellsAt_eq]
    apply stateAt_congr
    intro i hi k hk
    rw [(hwt i hi).2.2 _ (by omega) (by have := hN i; unfold memOf at hk; omega)]
    congr 1
    ring
  · rw [cellsAt_eq, cellsAt_eq]
    apply stateAt_congr
    intro i hi k hk
    rw [(hwt i hi).2.2 _ (by omega) (by have := hN i; unfold memOf at hk; omega)]
    congr 1
    ring
  · funext j
    unfold runBit encBit
    congr 1
    refine Finset.sum_congr rfl (fun i hi => ?_)
    rw [Finset.mem_range] at hi
    split
    · rw [show ((0:ℕ):ℤ) = 0 by rfl, hin i hi]
    · unfold tapSum
      refine Finset.sum_congr rfl (fun d hd => ?_)
      rw [Finset.mem_range] at hd
      have hlen : (tf G i j).length ≤ ((G.getD i []).map List.length).sum := by
        unfold tf
        rcases Nat.lt_or_ge j (G.getD i []).length with hj | hj
        · apply List.single_le_sum (by simp)
          exact List.mem_map_of_mem (mem_of_getD [] _ hj)
        · rw [getD_of_le [] _ hj]; simp
      rw [(hwt i hi).2.2 _ (by omega) (by have := hN i; omega)]
      congr 2
      push_cast
      ring

theorem stepDist_congr {u v : List Int} {w w' : ℕ → ℤ → Int} {t t' : ℕ} (h : runBit G fb u w t = runBit G fb v w' t')
    (r : ℕ → Int) (q : ℕ) : stepDist nO G fb u w t r q = stepDist nO G fb v w' t' r q := by
  unfold stepDist
  rw [h]

/-- surviving runs that meet have come the same way -/
theorem survivor_back {r : ℕ → Int} {n : ℕ} {v v' : List Int} {w w' : ℕ → ℤ → Int} (hv : IsBinary v) (hv' : IsBinary v')
    (hs : IsSurvivor nO n G fb r v w) (hs' : IsSurvivor nO n G fb r v' w') (t : ℕ) (ht : t < n)
    (he : cellsAt G w (t + 1) = cellsAt G w' (t + 1)) :
    cellsAt G w t = cellsAt G w' t ∧ stepDist nO G fb v w t r t = stepDist nO G fb v' w' t r t := by
  obtain ⟨u, wt, hu, _, hr, c0, c1, hb⟩ := one_run hv hs.1 t
  obtain ⟨u', wt', hu', _, hr', c0', c1', hb'⟩ := one_run hv' hs'.1 t
  have a := hs.2 t ht u' wt' hu' hr' (by rw [c1', he])
  have b := hs'.2 t ht u wt hu hr (by rw [c1, he])
  rw [stepDist_congr hb', c0'] at a
  rw [stepDist_congr hb, c0] at b
  refine ⟨?_, by omega⟩
  rw [cellsAt_eq, cellsAt_eq] at *
  exact wordNum_inj (run_word hs.1 t) (run_word hs'.1 t) (by omega)

/-- the sent run survives -/
theorem sent_survives (h : GoodCode nO G fb) (hpos : 0 < nO) (hf : Fits nO G fb) (hm : HasMemory nO G) {r : ℕ → Int}
    {n : ℕ} {v : List Int} {w : ℕ → ℤ → Int} (hv : IsBinary v) (hw : IsRun G fb v w)
    (hmerge : ∀ t < n, MergeDist nO G fb (2 * stepDist nO G fb v w t r t + 1)) : IsSurvivor nO n G fb r v w := by
  refine ⟨hw, fun t ht u' w' hu' hw' he => ?_⟩
  obtain ⟨u, wt, hu, _, hr, c0, c1, hb⟩ := one_run hv hw t
  by_cases hc : cellsAt G w t = cellsAt G w' 0
  · refine Or.inr ⟨?_, by rw [hc]⟩
    have s1 := run_step h hpos hf hu.2 hr 0
    have s2 := run_step h hpos hf hu'.2 hw' 0
    rw [rowOf_zero hu] at s1
    rw [rowOf_zero hu'] at s2
    have e0 : stateAt G wt ((0:ℕ):ℤ) = stateAt G w' ((0:ℕ):ℤ) := by
      have := c0.trans hc
      rwa [cellsAt_eq, cellsAt_eq] at this
    have e1 : stateAt G wt (((0:ℕ):ℤ) + 1) = stateAt G w' (((0:ℕ):ℤ) + 1) := by
      have := c1.trans he.symm
      rw [cellsAt_eq, cellsAt_eq] at this
      simpa using this
    have huu := (goodTrellis h hpos hf hm).simple _ u u' (run_word hr _) hu hu' (by
      rw [s1, e0, s2]
      exact e1)
    subst huu
    rw [e0] at s1
    have ho : outOf nO G fb u wt 0 = outOf nO G fb u w' 0 := congrArg Prod.fst (s1.symm.trans s2)
    rw [← stepDist_congr hb]
    unfold stepDist
    apply dist_congr _ _ (fun _ _ => rfl)
    intro j hj
    have := congrArg (fun l => l.getD j 0) ho
    unfold outOf at this
    rwa [map_range_getD _ _ _ _ hj, map_range_getD _ _ _ _ hj] at this
  · left
    have hd := hmerge t ht u u' wt w' hu hu' hr hw' (by rw [c1, he]) (by rw [c0]; exact hc)
    rw [hb] at hd
    unfold stepDist at hd ⊢
    have htri := dist_triangle nO (runBit G fb v w t) (fun j => r (t * nO + j)) (runBit G fb u' w' 0)
    rw [dist_comm nO (fun j => r (t * nO + j))] at htri
    omega

/-- runs far from the sent run are far from the received bits -/
theorem far_sum {r : ℕ → Int} {v v' : List Int} {w w' : ℕ → ℤ → Int} (s : Finset ℕ)
    (hd : 2 * ∑ t ∈ s, stepDist nO G fb v w t r t + 1 ≤ ∑ t ∈ s, Spec.dist nO (runBit G fb v w t) (runBit G fb v' w' t)) :
    ∑ t ∈ s, stepDist nO G fb v w t r t < ∑ t ∈ s, stepDist nO G fb v' w' t r t := by
  have : ∑ t ∈ s, Spec.dist nO (runBit G fb v w t) (runBit G fb v' w' t)
      ≤ ∑ t ∈ s, stepDist nO G fb v w t r t + ∑ t ∈ s, stepDist nO G fb v' w' t r t := by
    rw [← Finset.sum_add_distrib]
    refine Finset.sum_le_sum (fun t _ => ?_)
    have htri := dist_triangle nO (runBit G fb v w t) (fun j => r (t * nO + j)) (runBit G fb v' w' t)
    rw [dist_comm nO (fun j => r (t * nO + j))] at htri
    exact htri
  omega

theorem drop_word {n k : ℕ} (_hk : k ≤ n) {v : List Int} (hv : Word (G.length * n) v) :
    Word (G.length * (n - k)) (v.drop (k * G.length)) := by
  refine ⟨?_, fun x hx => hv.2 x (List.mem_of_mem_drop hx)⟩
  rw [List.length_drop, hv.1, Nat.mul_sub, Nat.mul_comm k]

/-- all other surviving runs are further away -/
theorem others_lose {r : ℕ → Int} {n : ℕ} {v v' : List Int} {w w' : ℕ → ℤ → Int} (hv : Word (G.length * n) v)
    (hv' : Word (G.length * n) v') (hs : IsSurvivor nO n G fb r v w) (hs' : IsSurvivor nO n G fb r v' w')
    (hdiv : ∀ k < n, DivergeDist nO G fb (n - k) (2 * ∑ t ∈ Finset.Ico k n, stepDist nO G fb v w t r t + 1))
    (hapart : ApartDist nO G fb n (2 * runDist nO n G fb v w r + 1)) (he : cellsAt G w n ≠ cellsAt G w' n) :
    runDist nO n G fb v w r < runDist nO n G fb v' w' r := by
  classical
  by_cases hex : ∃ k ≤ n, cellsAt G w k = cellsAt G w' k
  · obtain ⟨k0, hk0, hP⟩ := hex
    set k := Nat.findGreatest (fun k : ℕ => cellsAt G w k = cellsAt G w' k) n with hkd
    have hPk : cellsAt G w k = cellsAt G w' k := Nat.findGreatest_spec (P := fun k : ℕ => cellsAt G w k = cellsAt G w' k) hk0 hP
    have hkn : k ≤ n := Nat.findGreatest_le n
    have hlt : k < n := lt_of_le_of_ne hkn (fun e => he (by rw [← e]; exact hPk))
    have hno : ∀ t, k < t → t ≤ n → cellsAt G w t ≠ cellsAt G w' t := fun t h1 h2 =>
      Nat.findGreatest_is_greatest (P := fun k : ℕ => cellsAt G w k = cellsAt G w' k) h1 h2
    have hback : ∀ j ≤ k, cellsAt G w (k - j : ℕ) = cellsAt G w' (k - j : ℕ) := by
      intro j
      induction j with
      | zero => intro _; exact hPk
      | succ j ih =>
        intro hj
        have := ih (by omega)
        have e : ((k - j : ℕ) : ℤ) = ((k - (j + 1) : ℕ) : ℤ) + 1 := by omega
        rw [e] at this
        exact (survivor_back hv.2 hv'.2 hs hs' _ (by omega) this).1
    have hpre : ∑ t ∈ Finset.range k, stepDist nO G fb v w t r t = ∑ t ∈ Finset.range k, stepDist nO G fb v' w' t r t := by
      refine Finset.sum_congr rfl (fun t ht => ?_)
      rw [Finset.mem_range] at ht
      have := hback (k - (t + 1)) (by omega)
      rw [show k - (k - (t + 1)) = t + 1 by omega] at this
      exact (survivor_back hv.2 hv'.2 hs hs' t (by omega) (by exact_mod_cast this)).2
    have hd := hdiv k hlt _ _ (shiftW w k) (shiftW w' k) (drop_word hkn hv) (drop_word hkn hv')
      (shift_run hv.2 hs.1 k (inBit_drop v k)) (shift_run hv'.2 hs'.1 k (inBit_drop v' k))
      (by rw [shift_cells, shift_cells, zero_add]; exact hPk)
      (fun t ht => by
        rw [shift_cells, shift_cells]
        have := hno (t + 1 + k) (by omega) (by omega)
        push_cast at this
        exact this)
    have hsum : ∑ t ∈ Finset.range (n - k), Spec.dist nO (runBit G fb (v.drop (k * G.length)) (shiftW w k) t)
          (runBit G fb (v'.drop (k * G.length)) (shiftW w' k) t)
        = ∑ t ∈ Finset.Ico k n, Spec.dist nO (runBit G fb v w t) (runBit G fb v' w' t) := by
      rw [Finset.sum_Ico_eq_sum_range]
      refine Finset.sum_congr rfl (fun t _ => ?_)
      apply dist_congr
      · intro j _
        rw [shift_bit k t j (inBit_drop v k), Nat.add_comm]
      · intro j _
        rw [shift_bit k t j (inBit_drop v' k), Nat.add_comm]
    rw [hsum] at hd
    have := far_sum _ hd
    unfold runDist
    rw [← Finset.sum_range_add_sum_Ico _ hkn, ← Finset.sum_range_add_sum_Ico (fun t => stepDist nO G fb v' w' t r t) hkn, hpre]
    omega
  · push Not at hex
    have hd := hapart v v' w w' hv hv' hs.1 hs'.1 (fun t ht => by
      have := hex (t + 1) (by omega)
      push_cast at this
      exact this)
    exact far_sum _ hd

end

end Verif
