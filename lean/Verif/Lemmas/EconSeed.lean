import Verif.Spec.EconSeed
import Verif.Lemmas.Checker
import Verif.Lemmas.PrbsShift

/-! Helper lemmas for `Verif/Props/EconSeed.lean`. -/

namespace Verif
open Spec Finset

/-- ones of a non-zero PRBS stream in `K` periods -/
theorem ones_periods (p : PrbsEnum) (seed : List Int) (hseed : seed.length = p.value)
    (hne : ∃ x ∈ seed, x % 2 = 1) (K : ℕ) :
    ((range (K * (2 ^ p.value - 1))).filter (fun t => bitAt (getPolynomial p) seed t = 1)).card = K * 2 ^ (p.value - 1) := by
  have hv := value_pos p
  induction K with
  | zero => simp
  | succ K ih =>
    have h1 := window_card p seed [1] hseed hne (by simp) (by simp; omega) (K * (2 ^ p.value - 1))
    simp only [List.length_singleton, Nat.lt_one_iff, forall_eq, List.getD_cons_zero, add_zero, List.mem_singleton,
      one_ne_zero, if_false, Nat.sub_zero] at h1
    rw [add_mul, one_mul, add_mul, one_mul, ← ih, ← h1, card_filter, card_filter, card_filter, sum_range_add]

/-- two registers that differ give streams that differ in half of the places -/
theorem dirty_distance (p : PrbsEnum) (s₁ s₂ : List Int) (h₁ : s₁.length = p.value) (h₂ : s₂.length = p.value)
    (hb₁ : ∀ x ∈ s₁, x = 0 ∨ x = 1) (hb₂ : ∀ x ∈ s₂, x = 0 ∨ x = 1) (hne : s₁ ≠ s₂) (K : ℕ) :
    mismatches (K * (2 ^ p.value - 1)) (bitAt (getPolynomial p) s₁) (bitAt (getPolynomial p) s₂) = K * 2 ^ (p.value - 1) := by
  have hpl := poly_length p
  have hl : (List.zipWith (· + ·) s₁ s₂).length = p.value := by rw [List.length_zipWith]; omega
  rw [← ones_periods p (List.zipWith (· + ·) s₁ s₂) hl ?_ K]
  · unfold mismatches
    congr 1
    refine filter_congr fun t _ => ?_
    rw [bitAt_add_seed _ _ _ (by omega) (by omega)]
    rcases bitAt_mem (getPolynomial p) s₁ t with h | h <;> rcases bitAt_mem (getPolynomial p) s₂ t with h' | h' <;>
      rw [h, h'] <;> decide
  · by_contra hno
    apply hne
    refine List.ext_getElem (by omega) fun i hi hi' => ?_
    have hm : s₁[i] + s₂[i] ∈ List.zipWith (· + ·) s₁ s₂ := by
      have : (List.zipWith (· + ·) s₁ s₂)[i]'(by omega) = s₁[i] + s₂[i] := by simp
      rw [← this]; exact List.getElem_mem _
    have h3 : ¬ (s₁[i] + s₂[i]) % 2 = 1 := fun h => hno ⟨_, hm, h⟩
    rcases hb₁ _ (List.getElem_mem hi) with h | h <;> rcases hb₂ _ (List.getElem_mem hi') with h' | h' <;>
      rw [h, h'] at h3 ⊢ <;> revert h3 <;> decide

/-- a part of the positions has at most as many disagreements -/
theorem mismatches_part (a m n : ℕ) (h : a + m ≤ n) (f g : ℕ → Int) :
    mismatches m (fun i => f (a + i)) (fun i => g (a + i)) ≤ mismatches n f g := by
  unfold mismatches
  refine card_le_card_of_injOn (fun i => a + i) ?_ ?_
  · intro i hi
    simp only [coe_filter, mem_range, Set.mem_ofPred_eq] at hi ⊢
    exact ⟨by omega, hi.2⟩
  · intro i _ j _ hij
    simpa using hij

/-- the disagreements split at a position -/
theorem mismatches_split (a m : ℕ) (f g : ℕ → Int) :
    mismatches (a + m) f g = mismatches a f g + mismatches m (fun i => f (a + i)) (fun i => g (a + i)) := by
  unfold mismatches
  rw [card_filter, card_filter, card_filter, sum_range_add]

theorem reg_window (p : PrbsEnum) (seed : List Int) (hseed : seed.length = p.value) (φ : ℕ) :
    reg (getPolynomial p) seed (φ + p.value)
      = ((List.range p.value).map fun i => bitAt (getPolynomial p) seed (φ + i)).reverse := by
  have hv := value_pos p
  have h := window_reg (getPolynomial p) seed ((List.range p.value).map fun i => bitAt (getPolynomial p) seed (φ + i)) φ
    (by omega) (by simp [hseed]) (fun i hi => by
      unfold stream
      rw [List.getD_eq_getElem?_getD, map_range_getElem?, if_pos (by omega), Option.getD_some])
  rw [h, hseed]

/-- the reference continued from a window with an error is wrong in half of the places -/
theorem dirty_step (p : PrbsEnum) (seed : List Int) (hseed : seed.length = p.value) (φ : ℕ) (data : List Int)
    (hbin : ∀ x ∈ data, x = 0 ∨ x = 1) (s K : ℕ) (hlen : s + p.value + K * (2 ^ p.value - 1) ≤ data.length)
    (hd : ¬ cleanWindow p.value (stream data) (fun i => bitAt (getPolynomial p) seed (φ + i)) s) (th : Int) (r : CheckResult)
    (hr : econStep p data th s = .ok r)
    (hth : th + (mismatches data.length (stream data) (fun i => bitAt (getPolynomial p) seed (φ + i)) : ℕ) ≤ (K * 2 ^ (p.value - 1) : ℕ)) :
    r.lostLock = true := by
  obtain ⟨r', hr', -, c, hrep⟩ := econStep_spec p data th s
  rw [hr] at hr'
  cases hr'
  rw [hrep.lost]
  set w := (data.drop s).take p.value with hw
  have hwl : w.length = p.value := by simp [hw]; omega
  have hwbin : ∀ x ∈ w.reverse, x = 0 ∨ x = 1 := fun x hx =>
    hbin x (List.mem_of_mem_drop (List.mem_of_mem_take (List.mem_reverse.1 hx)))
  have hws : ∀ i < p.value, w.getD i 0 = stream data (s + i) := by
    intro i hi
    apply getD_eq_of_getElem?
    rw [hw, List.getElem?_take, if_pos hi, List.getElem?_drop]
  have hreg := reg_window p seed hseed (φ + s)
  set v := (List.range p.value).map fun i => bitAt (getPolynomial p) seed (φ + s + i) with hv
  have hne : w.reverse ≠ reg (getPolynomial p) seed (φ + s + p.value) := by
    rw [hreg]
    intro h
    apply hd
    have h' := List.reverse_injective h
    intro i hi
    rw [← hws i hi, h', hv]
    rw [List.getD_eq_getElem?_getD, map_range_getElem?, if_pos hi, Option.getD_some, Nat.add_assoc]
  have hdist := dirty_distance p w.reverse (reg (getPolynomial p) seed (φ + s + p.value)) (by simpa using hwl)
    (by rw [hreg]; simp [hv]) hwbin (by
      rw [hreg]
      intro x hx
      rw [List.mem_reverse, hv, List.mem_map] at hx
      obtain ⟨t, -, rfl⟩ := hx
      exact bitAt_mem _ _ _) hne K
  have htri := mismatches_triangle (K * (2 ^ p.value - 1)) (bitAt (getPolynomial p) w.reverse)
    (fun i => stream data (s + p.value + i)) (bitAt (getPolynomial p) (reg (getPolynomial p) seed (φ + s + p.value)))
  have hA := mismatches_part (s + p.value) (K * (2 ^ p.value - 1)) data.length (by omega) (stream data)
    (fun i => bitAt (getPolynomial p) seed (φ + i))
  have hAe : mismatches (K * (2 ^ p.value - 1)) (fun i => stream data (s + p.value + i))
      (bitAt (getPolynomial p) (reg (getPolynomial p) seed (φ + s + p.value)))
      = mismatches (K * (2 ^ p.value - 1)) (fun i => stream data (s + p.value + i))
        (fun i => bitAt (getPolynomial p) seed (φ + (s + p.value + i))) := by
    refine mismatches_congr (fun i _ => rfl) (fun i _ => ?_)
    rw [← bitAt_add]
    congr 1; omega
  have hB := mismatches_part p.value (K * (2 ^ p.value - 1)) (data.drop s).length (by simp; omega) (stream (data.drop s))
    (fun i => if i < p.value then stream data (s + i) else bitAt (getPolynomial p) w.reverse (i - p.value))
  have hBe : mismatches (K * (2 ^ p.value - 1)) (fun i => stream (data.drop s) (p.value + i))
      (fun i => (fun i => if i < p.value then stream data (s + i) else bitAt (getPolynomial p) w.reverse (i - p.value)) (p.value + i))
      = mismatches (K * (2 ^ p.value - 1)) (bitAt (getPolynomial p) w.reverse) (fun i => stream data (s + p.value + i)) := by
    rw [mismatches_comm]
    refine mismatches_congr (fun i _ => ?_) (fun i _ => ?_)
    · show (if p.value + i < p.value then _ else _) = _
      rw [if_neg (by omega), Nat.add_sub_cancel_left]
    · simp only [stream, List.getD_eq_getElem?_getD, List.getElem?_drop]
      rw [Nat.add_assoc]
  rw [hBe] at hB
  rw [hAe] at htri
  have hth' : th + (mismatches data.length (stream data) (fun i => bitAt (getPolynomial p) seed (φ + i)) : ℤ)
      ≤ ((mismatches (K * (2 ^ p.value - 1)) (bitAt (getPolynomial p) w.reverse)
        (bitAt (getPolynomial p) (reg (getPolynomial p) seed (φ + s + p.value))) : ℕ) : ℤ) := by rw [hdist]; exact hth
  omega

/-- a start whose window is clean reports against the true stream -/
theorem clean_step (p : PrbsEnum) (seed : List Int) (hseed : seed.length = p.value) (φ : ℕ) (data : List Int)
    (s : ℕ) (hlen : s + p.value ≤ data.length)
    (hc : cleanWindow p.value (stream data) (fun i => bitAt (getPolynomial p) seed (φ + i)) s) (th : Int) :
    ∃ r, econStep p data th s = .ok r ∧ r.correctBitCount = data.length - r.errorBit.count true ∧
      ∃ c, ExactReport (data.drop s) (fun i => bitAt (getPolynomial p) seed (φ + s + i)) th r.lostLock c r.errorBit := by
  obtain ⟨r, hr, hcnt, c, hrep⟩ := econStep_spec p data th s
  refine ⟨r, hr, hcnt, c, ?_⟩
  have hv := value_pos p
  have hsame : ∀ i, (if i < p.value then stream data (s + i) else
      bitAt (getPolynomial p) ((data.drop s).take p.value).reverse (i - p.value))
      = bitAt (getPolynomial p) seed (φ + s + i) := by
    intro i
    by_cases h : i < p.value
    · rw [if_pos h, hc i h, Nat.add_assoc]
    · rw [if_neg h, window_reg (getPolynomial p) seed ((data.drop s).take p.value) (φ + s) (by omega)
        (by simp; omega) (fun j hj => by
          refine Eq.trans ?_ ((hc j (by omega)).trans (by rw [Nat.add_assoc]))
          simp only [stream, List.getD_eq_getElem?_getD, List.getElem?_take, List.getElem?_drop]
          rw [if_pos (by omega)]),
        ← bitAt_add]
      congr 1; omega
  simpa only [hsame] using hrep

/-- the loop skips the starts that lose lock -/
theorem econLoop_skip (p : PrbsEnum) (data : List Int) (th : Int) (m k s : ℕ) (o : Option CheckResult)
    (h : ∀ s', s ≤ s' → s' < s + m → ∀ r, econStep p data th s' = .ok r → r.lostLock = true) :
    ∃ o', econLoop p data th (m + k) s o = econLoop p data th k (s + m) o' := by
  induction m generalizing s o with
  | zero => exact ⟨o, by simp⟩
  | succ m ih =>
    obtain ⟨r, hr, -⟩ := econStep_spec p data th s
    rw [show m + 1 + k = (m + k) + 1 by omega]
    simp only [econLoop, hr, bind, Except.bind]
    rw [if_pos (h s le_rfl (by omega) r hr)]
    obtain ⟨o', ho⟩ := ih (s + 1) (some r) (fun s' h1 h2 => h s' (by omega) (by omega))
    exact ⟨o', by rw [ho, show s + 1 + m = s + (m + 1) by omega]⟩

end Verif
