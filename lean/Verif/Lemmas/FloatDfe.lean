import Verif.Lemmas.Float

/-! The decision feedback loop in rounded arithmetic. -/

namespace Verif
open Spec

theorem pairAbs_zip_le (X : ℝ) (hX : 0 ≤ X) : ∀ (a b : List ℝ), (∀ v ∈ a, |v| ≤ X) →
    pairAbs (a.zip b) ≤ X * (b.map (fun v => |v|)).sum
  | [], b, _ => by
    have : 0 ≤ (b.map (fun v => |v|)).sum :=
      List.sum_nonneg (by intro x hx; rw [List.mem_map] at hx; obtain ⟨q, -, rfl⟩ := hx; positivity)
    simpa [pairAbs] using mul_nonneg hX this
  | _ :: _, [], _ => by simp [pairAbs]
  | x :: a, y :: b, h => by
    have ih := pairAbs_zip_le X hX a b (fun v hv => h v (by simp [hv]))
    simp only [pairAbs, List.zip_cons_cons, List.map_cons, List.sum_cons] at ih ⊢
    have := mul_le_mul_of_nonneg_right (h x (by simp)) (abs_nonneg y)
    linarith

theorem pairSum_zip (a b : List ℝ) : pairSum (a.zip b) = dotL a b := by
  simp only [pairSum, dotL, List.zip, List.map_zipWith]

/-- the selected element is the strict minimiser -/
theorem getD_argmin (f : ℝ → ℝ) (lv : List ℝ) (l : ℝ) (hl : l ∈ lv) (h : ∀ l' ∈ lv, l' ≠ l → f l < f l') :
    lv.getD (argmin (lv.map f)) 0 = l := by
  have hne : lv.map f ≠ [] := by
    intro e
    rw [List.map_eq_nil_iff] at e
    rw [e] at hl
    simp at hl
  have h1 := argmin_lt _ hne
  have h2 := argmin_spec _ hne (f l) (List.mem_map.2 ⟨l, hl, rfl⟩)
  rw [List.getElem_map] at h2
  rw [List.length_map] at h1
  rw [getD_of_lt 0 _ h1]
  by_contra hc
  exact absurd h2 (not_le.2 (h _ (List.getElem_mem _) hc))

theorem sliceOneA_near {r : ℝ → ℝ} {u : ℝ} (hu : u ≤ 1) (hr : ∀ x, |r x - x| ≤ u * |x|) (A : Arith)
    (hA : ∀ x y, A.sub x y = r (x - y)) (lv : List ℝ) (l s m D : ℝ) (hu0 : 0 ≤ u) (hl : l ∈ lv) (hs : |s - l| ≤ m)
    (hd : ∀ l' ∈ lv, l' ≠ l → D ≤ |l' - l|) (hm : (1 + u) * m < (1 - u) * (D - m)) : sliceOneA A lv s = l := by
  unfold sliceOneA
  apply getD_argmin _ _ _ hl
  intro l' hl' hne
  simp only [hA]
  have a1 := hr (s - l)
  have a2 := hr (s - l')
  have b1 : |r (s - l)| ≤ (1 + u) * |s - l| := by
    have := abs_add_le (r (s - l) - (s - l)) (s - l)
    rw [sub_add_cancel] at this
    linarith
  have b2 : (1 - u) * |s - l'| ≤ |r (s - l')| := by
    have := abs_add_le ((s - l') - r (s - l')) (r (s - l'))
    rw [sub_add_cancel, abs_sub_comm (s - l') (r (s - l'))] at this
    linarith
  have c : D - m ≤ |s - l'| := by
    have h1 := hd l' hl' hne
    have h2 := abs_add_le (l' - s) (s - l)
    rw [sub_add_sub_cancel, abs_sub_comm l' s] at h2
    linarith
  have d1 := mul_le_mul_of_nonneg_left hs (by linarith : 0 ≤ 1 + u)
  have d2 := mul_le_mul_of_nonneg_left c (by linarith : 0 ≤ 1 - u)
  linarith

theorem sliceOne_near' (lv : List ℝ) (l s m D : ℝ) (hl : l ∈ lv) (hs : |s - l| ≤ m)
    (hd : ∀ l' ∈ lv, l' ≠ l → D ≤ |l' - l|) (hm : 2 * m < D) : sliceOne lv s = l := by
  have := sliceOne_near lv l (s - l) hl (fun l' h1 h2 => by have := hd l' h1 h2; linarith)
  rwa [add_sub_cancel] at this

/-- error of one slicer input -/
theorem frame_error {r : ℝ → ℝ} {u : ℝ} (hu0 : 0 ≤ u) (hr : ∀ x, |r x - x| ≤ u * |x|) (A : Arith)
    (hsub : ∀ x y, A.sub x y = r (x - y))
    (hdot : ∀ a b : List ℝ, a.length = b.length → RoundedDot r (a.zip b) (A.dot a b)) (fr ffe mem dfe : List ℝ) (X Λ : ℝ)
    (hX : 0 ≤ X) (hΛ : 0 ≤ Λ) (h1 : fr.length = ffe.length) (h2 : mem.length = dfe.length) (hf : ∀ v ∈ fr, |v| ≤ X)
    (hm : ∀ v ∈ mem, |v| ≤ Λ) :
    |A.sub (A.dot fr ffe) (A.dot mem dfe) - (dotL fr ffe - dotL mem dfe)|
      ≤ ((1 + u) ^ (max ffe.length dfe.length + 1) - 1)
        * (X * (ffe.map (fun v => |v|)).sum + Λ * (dfe.map (fun v => |v|)).sum) := by
  have e1 := roundedDot_error hu0 hr (hdot fr ffe h1)
  have e2 := roundedDot_error hu0 hr (hdot mem dfe h2)
  rw [pairSum_zip] at e1 e2
  have p1 := pairSum_abs_le (fr.zip ffe)
  have p2 := pairSum_abs_le (mem.zip dfe)
  rw [pairSum_zip] at p1 p2
  have q1 := pairAbs_zip_le X hX fr ffe hf
  have q2 := pairAbs_zip_le Λ hΛ mem dfe hm
  have z1 := pairAbs_nonneg (fr.zip ffe)
  have z2 := pairAbs_nonneg (mem.zip dfe)
  rw [List.length_zip, h1, min_self] at e1
  rw [List.length_zip, h2, min_self] at e2
  have e2' : |-(A.dot mem dfe) - -(dotL mem dfe)| ≤ ((1 + u) ^ dfe.length - 1) * pairAbs (mem.zip dfe) := by
    rw [show -(A.dot mem dfe) - -(dotL mem dfe) = -(A.dot mem dfe - dotL mem dfe) by ring, abs_neg]
    exact e2
  have h3 := add_round hr _ _ _ _ _ _ hu0 e1 e2'
  rw [← sub_eq_add_neg, ← sub_eq_add_neg, ← hsub, abs_neg] at h3
  refine h3.trans ?_
  have w : (1 : ℝ) ≤ 1 + u := by linarith
  have b1 : (1 + u) ^ (ffe.length + 1) ≤ (1 + u) ^ (max ffe.length dfe.length + 1) :=
    pow_le_pow_right₀ w (by omega)
  have b2 : (1 + u) ^ (dfe.length + 1) ≤ (1 + u) ^ (max ffe.length dfe.length + 1) :=
    pow_le_pow_right₀ w (by omega)
  have b0 : 1 ≤ (1 + u) ^ (max ffe.length dfe.length + 1) := one_le_pow₀ w
  have c1 := mul_le_mul_of_nonneg_right b1 z1
  have c2 := mul_le_mul_of_nonneg_right b2 z2
  have d1 := mul_le_mul_of_nonneg_left p1 hu0
  have d2 := mul_le_mul_of_nonneg_left p2 hu0
  have f1 := mul_le_mul_of_nonneg_left q1 (by linarith : 0 ≤ (1 + u) ^ (max ffe.length dfe.length + 1) - 1)
  have f2 := mul_le_mul_of_nonneg_left q2 (by linarith : 0 ≤ (1 + u) ^ (max ffe.length dfe.length + 1) - 1)
  rw [pow_succ] at c1 c2
  rw [mul_add]
  nlinarith

theorem dfeMemory_bound (k osr : ℕ) (phase : ℤ) (ii : ℕ) (sOut mem : List ℝ) (Λ : ℝ) (hΛ : 0 ≤ Λ)
    (h1 : ∀ v ∈ sOut, |v| ≤ Λ) (h2 : ∀ v ∈ mem, |v| ≤ Λ) : ∀ v ∈ dfeMemory k osr phase ii sOut mem, |v| ≤ Λ := by
  have h3 : ∀ i, |sOut.getD i 0| ≤ Λ := by
    intro i
    rcases Nat.lt_or_ge i sOut.length with h | h
    · exact h1 _ (mem_of_getD 0 _ h)
    · rw [getD_of_le 0 _ h, abs_zero]; exact hΛ
  unfold dfeMemory
  intro v hv
  split_ifs at hv
  · rw [List.mem_cons] at hv
    rcases hv with rfl | hv
    · exact h3 _
    · exact h2 _ (List.mem_of_mem_dropLast hv)
  · rw [List.mem_singleton] at hv
    rw [hv]; exact h3 _
  · exact h2 _ hv
  · exact h2 _ hv

theorem dfeLoopA_close {r : ℝ → ℝ} {u : ℝ} (hu0 : 0 ≤ u) (hu : u ≤ 1) (hr : ∀ x, |r x - x| ≤ u * |x|) (A : Arith)
    (hsub : ∀ x y, A.sub x y = r (x - y))
    (hdot : ∀ a b : List ℝ, a.length = b.length → RoundedDot r (a.zip b) (A.dot a b)) (ffe dfe lv : List ℝ) (hlv : lv ≠ [])
    (osr : ℕ) (phase : ℤ) (X Λ m D β : ℝ) (hX : 0 ≤ X) (hΛ : 0 ≤ Λ) (hlvΛ : ∀ l ∈ lv, |l| ≤ Λ)
    (hβ : ((1 + u) ^ (max ffe.length dfe.length + 1) - 1)
        * (X * (ffe.map (fun v => |v|)).sum + Λ * (dfe.map (fun v => |v|)).sum) ≤ β) (hβ0 : 0 ≤ β)
    (hm : (1 + u) * (m + β) < (1 - u) * (D - (m + β))) (frs : List (List ℝ)) (hfr : ∀ fr ∈ frs, ∀ v ∈ fr, |v| ≤ X) :
    ∀ (ii : ℕ) (sOut mem zs m' : List ℝ), (∀ v ∈ sOut, |v| ≤ Λ) → (∀ v ∈ mem, |v| ≤ Λ) →
      dfeLoop ffe dfe (some lv) osr phase ii sOut mem frs = .ok (zs, m') →
      (∀ s ∈ zs, ∃ l ∈ lv, |s - l| ≤ m ∧ ∀ l' ∈ lv, l' ≠ l → D ≤ |l' - l|) →
      ∃ zs', dfeLoopA A ffe dfe (some lv) osr phase ii sOut mem frs = .ok (zs', m') ∧ zs'.length = zs.length ∧
        ∀ i < zs.length, |zs'.getD i 0 - zs.getD i 0| ≤ β := by
  induction frs with
  | nil =>
    intro ii sOut mem zs m' _ _ h _
    rw [dfeLoop] at h
    cases h
    exact ⟨[], by rw [dfeLoopA], rfl, fun i hi => by simp at hi⟩
  | cons fr frs ih =>
    intro ii sOut mem zs m' h1 h2 h h4
    rw [dfeLoop] at h
    rw [dfeLoopA]
    by_cases hc : fr.length ≠ ffe.length ∨ mem.length ≠ dfe.length
    · rw [if_pos hc] at h; cases h
    rw [if_neg hc] at h ⊢
    simp only [not_or, not_not] at hc
    have hsc : ∀ s, sliceScalar (some lv) s = .ok (sliceOne lv s) := fun s => sliceScalar_eq _ _ rfl (by simpa using hlv) s
    have hscA : ∀ s, sliceScalarA A (some lv) s = .ok (sliceOneA A lv s) := by
      intro s
      unfold sliceScalarA
      simp only [Option.getD_some]
      rw [if_neg (by simpa using hlv)]
    simp only [hsc, hscA, bind, Except.bind] at h ⊢
    by_cases ho : osr = 0
    · rw [if_pos ho] at h; cases h
    rw [if_neg ho] at h ⊢
    cases hl : dfeLoop ffe dfe (some lv) osr phase (ii + 1) (sOut ++ [sliceOne lv (dotL fr ffe.reverse - dotL mem dfe)])
        (dfeMemory dfe.length osr phase ii (sOut ++ [sliceOne lv (dotL fr ffe.reverse - dotL mem dfe)]) mem) frs with
    | error e => rw [hl] at h; cases h
    | ok q =>
      rw [hl] at h
      have h' : (dotL fr ffe.reverse - dotL mem dfe) :: q.1 = zs ∧ q.2 = m' := by
        have := Except.ok.inj h
        exact ⟨congrArg Prod.fst this, congrArg Prod.snd this⟩
      obtain ⟨rfl, rfl⟩ := h'
      obtain ⟨l, hl1, hl2, hl3⟩ := h4 (dotL fr ffe.reverse - dotL mem dfe) (by simp)
      have herr := frame_error hu0 hr A hsub hdot fr ffe.reverse mem dfe X Λ hX hΛ (by simp [hc.1]) hc.2
        (hfr fr (by simp)) h2
      rw [List.length_reverse, List.map_reverse, List.sum_reverse] at herr
      have herr' := herr.trans hβ
      have hnear : |A.sub (A.dot fr ffe.reverse) (A.dot mem dfe) - l| ≤ m + β := by
        have := abs_add_le (A.sub (A.dot fr ffe.reverse) (A.dot mem dfe) - (dotL fr ffe.reverse - dotL mem dfe))
          ((dotL fr ffe.reverse - dotL mem dfe) - l)
        rw [sub_add_sub_cancel] at this
        linarith
      have hsA := sliceOneA_near hu hr A hsub lv l _ (m + β) D hu0 hl1 hnear hl3 hm
      have hm0 : 0 ≤ m := le_trans (abs_nonneg _) hl2
      have hs := sliceOne_near' lv l _ m D hl1 hl2 hl3 (by nlinarith)
      rw [hs] at hl
      rw [hsA]
      have hso : ∀ v ∈ sOut ++ [l], |v| ≤ Λ := by
        intro v hv
        rw [List.mem_append, List.mem_singleton] at hv
        rcases hv with hv | rfl
        · exact h1 v hv
        · exact hlvΛ _ hl1
      obtain ⟨zs', g1, g2, g3⟩ := ih (fun f hf => hfr f (by simp [hf])) (ii + 1) (sOut ++ [l]) _ q.1 q.2 hso
        (dfeMemory_bound _ _ _ _ _ _ Λ hΛ hso h2) hl (fun s hs => h4 s (by simp [hs]))
      rw [g1]
      refine ⟨_ :: zs', rfl, by simp [g2], fun i hi => ?_⟩
      cases i with
      | zero => exact herr'
      | succ i => exact g3 i (by simpa using hi)

end Verif
