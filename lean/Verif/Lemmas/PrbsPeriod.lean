import Verif.Lemmas.Prbs

/-! Period, balance and shift-and-add for the supported PRBS streams. -/

namespace Verif
open Gf2

theorem draw_eq (poly seed : List Int) (h : poly.length = seed.length) (hn : 0 < poly.length)
    (prev : Option (List Int)) (k : Nat) :
    PrbsIter.draw k ⟨poly, seed, prev⟩ = .ok ((List.range k).map (bitAt poly seed),
      ⟨poly, reg poly seed k, if k = 0 then prev else some (reg poly seed (k - 1))⟩) := by
  induction k generalizing seed prev with
  | zero => simp [PrbsIter.draw, reg_zero]
  | succ k ih =>
    have hl : (regStep poly seed).length = seed.length := by simp [regStep]; omega
    simp only [PrbsIter.draw, PrbsIter.next]
    rw [if_neg (by simpa using h)]
    have := ih (regStep poly seed) (by omega) (some seed)
    unfold regStep at this
    simp only [bind, Except.bind, this, pure, Except.pure]
    congr 2
    · rw [List.range_succ_eq_map, List.map_cons, List.map_map]
      congr 1
    · simp only [reg_succ', regStep, Nat.add_eq_zero_iff, Nat.add_sub_cancel]
      cases k with
      | zero => simp [reg_zero]
      | succ k => simp [reg_succ', regStep]

theorem code_ne_zero {l : List Int} (h : ∃ x ∈ l, x % 2 = 1) : code l ≠ 0 := by
  induction l with
  | nil => simp at h
  | cons y ys ih =>
    obtain ⟨x, hx, hx1⟩ := h
    simp only [code]
    rcases List.mem_cons.1 hx with rfl | hx
    · omega
    · have := ih ⟨x, hx, hx1⟩; omega

theorem code_eq_zero {l : List Int} (h : ∀ x ∈ l, x % 2 = 0) : code l = 0 := by
  induction l with
  | nil => rfl
  | cons y ys ih =>
    simp only [code]
    have h1 := h y (by simp)
    have h2 := ih (fun x hx => h x (by simp [hx]))
    omega

theorem bitAt_zero_seed (poly seed : List Int) (h : poly.length = seed.length) (hn : 0 < seed.length)
    (hz : ∀ x ∈ seed, x % 2 = 0) (t : Nat) : bitAt poly seed t = 0 := by
  rw [bitAt_eq_code _ _ h hn, code_eq_zero hz, ((xlin_step _ _).iterate _).map_zero]
  rfl

theorem code_inj {l m : List Int} (h : l.length = m.length)
    (hc : ∀ i < l.length, l.getD i 0 = m.getD i 0) : l = m := by
  apply List.ext_getElem h
  intro i h1 h2
  have := hc i h1
  simpa [List.getD_eq_getElem?_getD, List.getElem?_eq_getElem h1, List.getElem?_eq_getElem h2] using this

theorem step_iter_pos (p : PrbsEnum) {c : Nat} (hc : c < 2 ^ p.value) (h0 : c ≠ 0) (t : Nat) :
    (step p.value (code (getPolynomial p)))^[t] c ≠ 0 := by
  intro h
  apply h0
  have hP := two_pow_sub_pos (value_pos p)
  have hid := supported_id p
  -- continue to a multiple of the period
  have h1 : ∀ k, (step p.value (code (getPolynomial p)))^[k * (2 ^ p.value - 1)] c = c := by
    intro k
    induction k with
    | zero => simp
    | succ k ih => rw [Nat.succ_mul, Function.iterate_add_apply, hid c hc, ih]
  have h2 := h1 t
  have hle : t ≤ t * (2 ^ p.value - 1) := Nat.le_mul_of_pos_right _ hP
  rw [← Nat.sub_add_cancel hle, Function.iterate_add_apply, h,
    ((xlin_step _ _).iterate _).map_zero] at h2
  exact h2.symm

theorem bitAt_period_iff (p : PrbsEnum) (seed : List Int) (hseed : seed.length = p.value)
    (hne : ∃ x ∈ seed, x % 2 = 1) (d : Nat) :
    (∀ t, bitAt (getPolynomial p) seed (t + d) = bitAt (getPolynomial p) seed t) ↔
      (2 ^ p.value - 1) ∣ d := by
  have hv := value_pos p
  have hl := poly_length p
  have hclt : code seed < 2 ^ p.value := by rw [← hseed]; exact code_lt _
  constructor
  · intro h
    have hreg : reg (getPolynomial p) seed (p.value + d) = reg (getPolynomial p) seed p.value := by
      apply code_inj
      · rw [reg_length _ _ _ (by omega), reg_length _ _ _ (by omega)]
      · intro i hi
        rw [reg_length _ _ _ (by omega)] at hi
        rw [reg_getD _ _ _ _ hi, reg_getD _ _ _ _ hi, if_pos (by omega), if_pos (by omega), ← h (p.value - 1 - i)]
        congr 1; omega
    have hc := congrArg code hreg
    rw [code_reg _ _ (by omega) (by omega), code_reg _ _ (by omega) (by omega), hseed,
      Nat.add_comm, Function.iterate_add_apply] at hc
    have hper : Function.IsPeriodicPt (step p.value (code (getPolynomial p))) d
      ((step p.value (code (getPolynomial p)))^[p.value] (code seed)) := hc
    have := hper.minimalPeriod_dvd
    rwa [supported_maximal p (iterate_step_lt hv _ _ _ hclt)
      (step_iter_pos p hclt (code_ne_zero hne) _)] at this
  · rintro ⟨k, rfl⟩ t
    rw [← bitAt_mod p seed hseed, Nat.add_mul_mod_self_left, bitAt_mod p seed hseed]

theorem count_map_range {α : Type*} [DecidableEq α] (f : Nat → α) (a : α) (n : Nat) :
    ((List.range n).map f).count a = ((Finset.range n).filter (fun t => f t = a)).card := by
  induction n with
  | zero => simp
  | succ n ih =>
    rw [List.range_succ, List.map_append, List.count_append, ih, Finset.range_add_one,
      Finset.filter_insert]
    by_cases h : f n = a
    · rw [if_pos h, Finset.card_insert_of_notMem (by simp)]; simp [h]
    · rw [if_neg h]; simp [h]

theorem bitAt_mem (poly seed : List Int) (t : Nat) :
    bitAt poly seed t = 0 ∨ bitAt poly seed t = 1 := Int.emod_two_eq_zero_or_one _

theorem bitAt_balance (p : PrbsEnum) (seed : List Int) (hseed : seed.length = p.value)
    (hne : ∃ x ∈ seed, x % 2 = 1) (start : Nat) :
    ((List.range (2 ^ p.value - 1)).map
      (fun t => bitAt (getPolynomial p) seed (start + t))).count 1 = 2 ^ (p.value - 1) ∧
    ((List.range (2 ^ p.value - 1)).map
      (fun t => bitAt (getPolynomial p) seed (start + t))).count 0 = 2 ^ (p.value - 1) - 1 := by
  have hv := value_pos p
  have hl := poly_length p
  have hclt : code seed < 2 ^ p.value := by rw [← hseed]; exact code_lt _
  have h1 : ((List.range (2 ^ p.value - 1)).map
      (fun t => bitAt (getPolynomial p) seed (start + t))).count 1 = 2 ^ (p.value - 1) := by
    rw [count_map_range]
    have hs := iterate_step_lt hv (code (getPolynomial p)) (start + 1) _ hclt
    have hs0 := step_iter_pos p hclt (code_ne_zero hne) (start + 1)
    rw [← orbit_balance hv hs hs0 (supported_maximal p hs hs0)]
    congr 1
    apply Finset.filter_congr
    intro t _
    rw [bitAt_eq_code _ _ (by omega) (by omega), hseed, ← Function.iterate_add_apply,
      show start + t + 1 = t + (start + 1) by omega]
    omega
  refine ⟨h1, ?_⟩
  have htot : ∀ n, ((List.range n).map (fun t => bitAt (getPolynomial p) seed (start + t))).count 1
      + ((List.range n).map (fun t => bitAt (getPolynomial p) seed (start + t))).count 0 = n := by
    intro n
    induction n with
    | zero => simp
    | succ n ih =>
      rw [List.range_succ, List.map_append, List.count_append, List.count_append]
      rcases bitAt_mem (getPolynomial p) seed (start + n) with h | h <;> simp [h] <;> omega
  have := htot (2 ^ p.value - 1)
  have h2 : 2 ^ p.value = 2 * 2 ^ (p.value - 1) := by rw [← Nat.pow_succ']; congr 1; omega
  omega

theorem bitAt_shift_distance (p : PrbsEnum) (seed : List Int) (hseed : seed.length = p.value)
    (hne : ∃ x ∈ seed, x % 2 = 1) (τ : Nat) (hτ : ¬ (2 ^ p.value - 1) ∣ τ) (start : Nat) :
    ((Finset.range (2 ^ p.value - 1)).filter (fun t =>
      bitAt (getPolynomial p) seed (start + t) ≠ bitAt (getPolynomial p) seed (start + τ + t))).card
      = 2 ^ (p.value - 1) := by
  have hv := value_pos p
  have hl := poly_length p
  have hclt : code seed < 2 ^ p.value := by rw [← hseed]; exact code_lt _
  obtain ⟨f, hf⟩ : ∃ f, f = step p.value (code (getPolynomial p)) := ⟨_, rfl⟩
  have hlin : XLin f := hf ▸ xlin_step _ _
  -- the difference register
  have hy : f^[start + 1] (code seed) < 2 ^ p.value := hf ▸ iterate_step_lt hv _ _ _ hclt
  have hy' : f^[start + 1 + τ] (code seed) < 2 ^ p.value := hf ▸ iterate_step_lt hv _ _ _ hclt
  have hz : f^[start + 1] (code seed) ^^^ f^[start + 1 + τ] (code seed) < 2 ^ p.value :=
    Nat.xor_lt_two_pow hy hy'
  have hz0 : f^[start + 1] (code seed) ^^^ f^[start + 1 + τ] (code seed) ≠ 0 := by
    intro h
    rw [Nat.xor_eq_zero_iff] at h
    apply hτ
    have hper : Function.IsPeriodicPt f τ (f^[start + 1] (code seed)) := by
      show f^[τ] _ = _
      rw [← Function.iterate_add_apply, Nat.add_comm, ← h]
    have := hper.minimalPeriod_dvd
    rw [hf] at this
    rwa [supported_maximal p (hf ▸ hy) (step_iter_pos p hclt (code_ne_zero hne) _)] at this
  have hb := orbit_balance hv hz hz0 (supported_maximal p hz hz0)
  rw [← hb]
  congr 1
  apply Finset.filter_congr
  intro t _
  rw [bitAt_eq_code _ _ (by omega) (by omega), bitAt_eq_code _ _ (by omega) (by omega), hseed, ← hf,
    (hlin.iterate t).map_xor, ← Function.iterate_add_apply, ← Function.iterate_add_apply]
  rw [show start + t + 1 = t + (start + 1) by omega,
    show start + τ + t + 1 = t + (start + 1 + τ) by omega]
  generalize f^[t + (start + 1)] (code seed) = a
  generalize f^[t + (start + 1 + τ)] (code seed) = b
  have hx : (a ^^^ b) % 2 = (a % 2) ^^^ (b % 2) := by
    have := @Nat.xor_mod_two_pow a b 1; simpa using this
  rw [hx]
  rcases Nat.mod_two_eq_zero_or_one a with ha | ha <;>
  rcases Nat.mod_two_eq_zero_or_one b with hb' | hb' <;> simp [ha, hb']

end Verif
