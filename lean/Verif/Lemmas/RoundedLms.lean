import Verif.Lemmas.RoundedStats
import Mathlib.Data.Option.Basic

/-! The entries of the LMS gradient in rounded arithmetic. -/

open Finset

namespace Verif
open Spec

theorem mapM_rel {α β : Type*} {R : β → β → Prop} (f f' : α → Py β) (l : List α)
    (h : ∀ a ∈ l, ∀ b, f a = .ok b → ∃ b', f' a = .ok b' ∧ R b' b) :
    ∀ bs, l.mapM f = .ok bs → ∃ bs', l.mapM f' = .ok bs' ∧ List.Forall₂ R bs' bs := by
  induction l with
  | nil =>
    intro bs hbs
    rw [List.mapM_nil] at hbs ⊢
    cases hbs
    exact ⟨[], rfl, .nil⟩
  | cons a l ih =>
    intro bs hbs
    rw [List.mapM_cons] at hbs ⊢
    cases ha : f a with
    | error e => rw [ha] at hbs; cases hbs
    | ok b =>
      rw [ha] at hbs
      cases hl : l.mapM f with
      | error e => simp only [hl] at hbs; cases hbs
      | ok cs =>
        simp only [hl] at hbs
        cases hbs
        obtain ⟨b', hb', hR⟩ := h a (by simp) b ha
        obtain ⟨cs', hcs', hF⟩ := ih (fun a ha => h a (by simp [ha])) cs hl
        rw [hb']
        simp only [hcs']
        exact ⟨b' :: cs', rfl, .cons hR hF⟩

theorem npGet_rel {R : ℝ → ℝ → Prop} {l' l : List ℝ} (h : List.Forall₂ R l' l) (i : ℤ) (a : ℝ) (ha : npGet l i = .ok a) :
    ∃ a', npGet l' i = .ok a' ∧ R a' a := by
  have hlen := h.length_eq
  have key : ∀ k : ℕ, ∀ a, l[k]? = some a → ∃ a', l'[k]? = some a' ∧ R a' a := by
    clear ha
    induction h with
    | nil => intro k a h; simp at h
    | cons h0 _ ih =>
      intro k a h
      cases k with
      | zero => simp at h; subst h; exact ⟨_, by simp, h0⟩
      | succ k =>
        simp only [List.getElem?_cons_succ] at h ⊢
        exact ih (by simpa using hlen) k a h
  unfold npGet at ha ⊢
  rw [hlen]
  split_ifs at ha ⊢ with h1 h2
  · cases hk : l[i.toNat]? with
    | none => rw [hk] at ha; cases ha
    | some b =>
      rw [hk] at ha
      cases ha
      obtain ⟨a', e, hR⟩ := key _ _ hk
      rw [e]
      exact ⟨a', rfl, hR⟩
  · cases hk : l[((l.length : ℤ) + i).toNat]? with
    | none => rw [hk] at ha; cases ha
    | some b =>
      rw [hk] at ha
      cases ha
      obtain ⟨a', e, hR⟩ := key _ _ hk
      rw [e]
      exact ⟨a', rfl, hR⟩

theorem npGet_mem {l : List ℝ} {i : ℤ} {a : ℝ} (h : npGet l i = .ok a) : a ∈ l := by
  unfold npGet at h
  split_ifs at h
  · split at h
    · cases h; rename_i hk; exact List.mem_of_getElem? hk
    · cases h
  · split at h
    · cases h; rename_i hk; exact List.mem_of_getElem? hk
    · cases h

theorem npTake_mem {l : List ℝ} {idx : List ℤ} {b : List ℝ} (h : npTake l idx = .ok b) : b.length = idx.length ∧ ∀ v ∈ b, v ∈ l := by
  obtain ⟨b', e, hF⟩ := mapM_rel (R := fun x' x => x' = x ∧ x ∈ l) (npGet l) (npGet l) idx
    (fun a _ v hv => ⟨v, hv, rfl, npGet_mem hv⟩) b h
  refine ⟨?_, ?_⟩
  · clear e hF b'
    revert b
    unfold npTake
    induction idx with
    | nil => intro b h; rw [List.mapM_nil] at h; cases h; rfl
    | cons i idx ih =>
      intro b h
      rw [List.mapM_cons] at h
      cases hi : npGet l i with
      | error e => rw [hi] at h; cases h
      | ok v =>
        rw [hi] at h
        cases hl : idx.mapM (npGet l) with
        | error e => simp only [hl] at h; cases h
        | ok cs => simp only [hl] at h; cases h; simp [ih hl]
  · clear h e
    induction hF with
    | nil => simp
    | cons h0 _ ih =>
      intro v hv
      rcases List.mem_cons.1 hv with rfl | hv
      · exact h0.2
      · exact ih v hv

/-- one entry of the gradient -/
theorem tapGradR_near {r : ℝ → ℝ} {u : ℝ} (hu : 0 ≤ u) (hr : ∀ x, |r x - x| ≤ u * |x|) (sumR : List ℝ → ℝ) (hs : ∀ l, RoundedSum r l (sumR l))
    (c : ℝ) (hc : |c| = 1 / 2) (e' e y : List ℝ) (he : NearL u 1 e' e) (E Y : ℝ) (hE : ∀ v ∈ e, |v| ≤ E) (hY : ∀ v ∈ y, |v| ≤ Y)
    (m1 m2 : List ℤ) (N : ℕ) (hN : m1.length ≤ N) (hE0 : 0 ≤ E) (g : Option ℝ)
    (h : (do let a ← npTake e m1
             let b ← npTake y m2
             return (meanOpt (List.zipWith (· * ·) a b)).map (fun m => c * m) : Py (Option ℝ)) = .ok g) :
    ∃ g', (do let a ← npTake e' m1
              let b ← npTake y m2
              return (meanR r sumR (List.zipWith (fun x y => r (x * y)) a b)).map (fun m => r (c * m)) : Py (Option ℝ)) = .ok g' ∧
      Option.Rel (fun v' v => |v' - v| ≤ ((1 + u) ^ (N + 3) - 1) * (E * Y / 2)) g' g := by
  cases ha : npTake e m1 with
  | error q => rw [ha] at h; cases h
  | ok a =>
    rw [ha] at h
    cases hb : npTake y m2 with
    | error q => simp only [hb] at h; cases h
    | ok b =>
      simp only [hb] at h
      obtain ⟨a', ea, hF⟩ := mapM_rel (R := Near u 1) (npGet e) (npGet e') m1 (fun i _ v hv => npGet_rel he i v hv) a ha
      rw [show npTake e' m1 = .ok a' from ea]
      refine ⟨_, rfl, ?_⟩
      obtain ⟨hal, ham⟩ := npTake_mem ha
      obtain ⟨-, hbm⟩ := npTake_mem hb
      have hg : g = (meanOpt (List.zipWith (· * ·) a b)).map (fun m => c * m) := (Except.ok.inj h).symm
      rw [hg]
      have hz : NearL u 2 (List.zipWith (fun x y => r (x * y)) a' b) (List.zipWith (· * ·) a b) := by
        clear h hg hb ea ha hal ham hbm
        induction hF generalizing b with
        | nil => simp
        | cons h0 _ ih =>
          cases b with
          | nil => simp
          | cons b0 b =>
            exact .cons (near_trans hu (near_round hr _) (near_mul hu h0 (near_refl hu 0 b0))) (ih b)
      have hzm : ∀ v ∈ List.zipWith (· * ·) a b, |v| ≤ E * Y := by
        clear h hg hb ea ha hal hF hz
        induction a generalizing b with
        | nil => simp
        | cons a0 a ih =>
          cases b with
          | nil => simp
          | cons b0 b =>
            intro v hv
            rw [List.zipWith_cons_cons, List.mem_cons] at hv
            rcases hv with rfl | hv
            · rw [abs_mul]
              exact mul_le_mul (hE _ (ham _ (by simp))) (hY _ (hbm _ (by simp))) (abs_nonneg _) hE0
            · exact ih b (fun v hv => ham v (by simp [hv])) (fun v hv => hbm v (by simp [hv])) v hv
      have hzl : (List.zipWith (· * ·) a b).length ≤ N := by
        rw [List.length_zipWith]; omega
      generalize List.zipWith (· * ·) a b = z at hz hzm hzl
      generalize List.zipWith (fun x y => r (x * y)) a' b = z' at hz
      by_cases hz0 : z = []
      · subst hz0
        have : z' = [] := by cases hz; rfl
        subst this
        simp only [meanR, meanOpt, List.length_nil, if_true, Option.map_none]
        exact .none
      · obtain ⟨m, em, hm⟩ := meanR_near hu hr sumR hs hz hz0
        have hpos : 0 < z.length := List.length_pos_iff.2 hz0
        have hn : (0 : ℝ) < z.length := by exact_mod_cast hpos
        rw [em, meanOpt, if_neg (by omega), Option.map_some, Option.map_some]
        refine .some ?_
        have hA : absSum z / z.length ≤ E * Y := by
          rw [div_le_iff₀ hn]
          have := List.sum_le_card_nsmul (z.map (fun v => |v|)) (E * Y) (by
            intro v hv
            rw [List.mem_map] at hv
            obtain ⟨q, hq, rfl⟩ := hv
            exact hzm q hq)
          rw [List.length_map, nsmul_eq_mul, mul_comm] at this
          exact this
        have hA0 : 0 ≤ absSum z / z.length := div_nonneg (absSum_nonneg z) hn.le
        have hmean : |z.sum / (z.length : ℝ)| ≤ absSum z / z.length := by
          rw [abs_div, abs_of_pos hn]
          exact div_le_div_of_nonneg_right (sum_abs_le z) hn.le
        have h1 := hr (c * m)
        have h2 : |c * m - c * (z.sum / z.length)| ≤ 1 / 2 * (((1 + u) ^ (2 + z.length) - 1) * (absSum z / z.length)) := by
          rw [← mul_sub, abs_mul, hc]
          exact mul_le_mul_of_nonneg_left hm (by norm_num)
        have h3 : |c * m| ≤ 1 / 2 * ((1 + u) ^ (2 + z.length) * (absSum z / z.length)) := by
          have := abs_sub_abs_le_abs_sub (c * m) (c * (z.sum / z.length))
          rw [abs_mul c (z.sum / z.length), hc] at this
          have := mul_le_mul_of_nonneg_left hmean (by norm_num : (0 : ℝ) ≤ 1 / 2)
          linarith
        have h4 := mul_le_mul_of_nonneg_left h3 hu
        have h5 := abs_sub_le (r (c * m)) (c * m) (c * (z.sum / z.length))
        have h6 : |r (c * m) - c * (z.sum / z.length)| ≤ ((1 + u) ^ (z.length + 3) - 1) * (absSum z / z.length / 2) := by
          rw [show z.length + 3 = (2 + z.length) + 1 by ring, pow_succ]
          nlinarith
        refine h6.trans (mul_le_mul (sub_le_sub_right (pow_le_pow_right₀ (by linarith) (by omega)) 1) ?_ (by positivity)
          (near_pow_nonneg hu _))
        linarith

end Verif
