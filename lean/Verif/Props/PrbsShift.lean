import Verif.Lemmas.PrbsShift

/-!
# Shift-and-add, window counts and superposition of the PRBS streams (C76)
-/

namespace Verif
open Finset

/-- **C76**, shift-and-add. For every supported type, non-zero seed and delay `τ` that is no multiple
of the period there is exactly one delay `d` below the period such that, in every generated
sequence, the sum modulo two of the sequence and its copy advanced by `τ` is the copy advanced by
`d`. -/
theorem C76_shift_and_add (p : PrbsEnum) (seed : List Int) (hseed : seed.length = p.value)
    (hne : ∃ x ∈ seed, x % 2 = 1) (τ : ℕ) (hτ : ¬ (2 ^ p.value - 1) ∣ τ) :
    ∃! d, d < 2 ^ p.value - 1 ∧ ∀ (L : ℕ) seq sd,
      prbsGenerator (getPolynomial p) seed L = .ok (seq, sd) →
        ∀ t x y z, seq[t]? = some x → seq[t + τ]? = some y → seq[t + d]? = some z →
          z = (x + y) % 2 := by
  obtain ⟨d, hd, h⟩ := shift_and_add p seed hseed hne τ hτ
  refine ⟨d, ⟨hd, ?_⟩, ?_⟩
  · intro L seq sd hg t x y z hx hy hz
    rw [prbsGenerator_supported p seed hseed] at hg
    cases hg
    rw [map_range_getElem?] at hx hy hz
    split_ifs at hx hy hz
    rw [← Option.some.inj hx, ← Option.some.inj hy, ← Option.some.inj hz]
    exact h t
  · rintro e ⟨he, h'⟩
    have key : ∀ t, bitAt (getPolynomial p) seed (t + e) = bitAt (getPolynomial p) seed (t + d) := by
      intro t
      rw [h t]
      refine h' (t + τ + e + 1) _ _ (prbsGenerator_supported p seed hseed _) t _ _ _ ?_ ?_ ?_ <;>
        rw [map_range_getElem?, if_pos (by omega)]
    have hper := bitAt_period_iff p seed hseed hne
    have hP := two_pow_sub_pos (value_pos p)
    -- shift both sides by a multiple of the period
    have h1 : ∀ a b, a < 2 ^ p.value - 1 → b < 2 ^ p.value - 1 → a ≤ b →
        (∀ t, bitAt (getPolynomial p) seed (t + b) = bitAt (getPolynomial p) seed (t + a)) → a = b := by
      intro a b ha hb hab hk
      have hdvd := (hper (b - a)).1 (fun t => by
        have hpp := (hper (2 ^ p.value - 1)).2 dvd_rfl
        have := hk (t + (2 ^ p.value - 1 - a))
        rw [show t + (2 ^ p.value - 1 - a) + b = (t + (b - a)) + (2 ^ p.value - 1) by omega,
          show t + (2 ^ p.value - 1 - a) + a = t + (2 ^ p.value - 1) by omega, hpp, hpp] at this
        exact this)
      have := Nat.eq_zero_of_dvd_of_lt hdvd (by omega)
      omega
    rcases Nat.le_total d e with hle | hle
    · exact (h1 d e hd he hle key).symm
    · exact h1 e d he hd hle (fun t => (key t).symm)

example : ¬ (2 ^ PrbsEnum.prbs7.value - 1) ∣ 3 := by decide
/-- for PRBS7 the sum with the copy advanced by one is the copy advanced by seven -/
example : (prbsGenerator (getPolynomial .prbs7) [1, 0, 0, 1, 0, 1, 1] 300).map (fun r =>
    (List.range 200).all fun t => r.1.getD (t + 7) 2 = (r.1.getD t 0 + r.1.getD (t + 1) 0) % 2)
    = .ok true := by decide +kernel

/-- **C76**, window counts. For every supported type, non-zero seed and start position, a binary word
`w` of length `k ≤ n` starts at exactly `2^(n-k)` of the `2^n - 1` positions of a period
(`2^(n-k) - 1` if it is the all-zero word). With `k = n`: every non-zero word of register length
occurs exactly once per period. -/
theorem C76_window_count (p : PrbsEnum) (seed w : List Int) (hseed : seed.length = p.value)
    (hne : ∃ x ∈ seed, x % 2 = 1) (hbin : ∀ x ∈ w, x = 0 ∨ x = 1) (hw : w.length ≤ p.value)
    (start L : ℕ) (hL : start + (2 ^ p.value - 1) + w.length ≤ L)
    (seq sd : List Int) (hg : prbsGenerator (getPolynomial p) seed L = .ok (seq, sd)) :
    ((range (2 ^ p.value - 1)).filter (fun t => (seq.drop (start + t)).take w.length = w)).card
      = 2 ^ (p.value - w.length) - if (∀ x ∈ w, x = 0) then 1 else 0 := by
  rw [prbsGenerator_supported p seed hseed] at hg
  cases hg
  rw [← window_card p seed w hseed hne hbin hw start]
  congr 1
  apply filter_congr
  intro t ht
  rw [mem_range] at ht
  constructor
  · intro h i hi
    have := congrArg (fun l => l[i]?) h
    simp only [List.getElem?_take, List.getElem?_drop, map_range_getElem?] at this
    rw [if_pos hi, if_pos (by omega)] at this
    rw [List.getD_eq_getElem?_getD, ← this]
    rfl
  · intro h
    apply List.ext_getElem?
    intro i
    rw [List.getElem?_take, List.getElem?_drop, map_range_getElem?]
    by_cases hi : i < w.length
    · rw [if_pos hi, if_pos (by omega), h i hi, List.getD_eq_getElem _ _ hi,
        List.getElem?_eq_getElem hi]
    · rw [if_neg hi, List.getElem?_eq_none (by omega)]

/-- **C76**, runs. Per period of a supported PRBS with non-zero seed, a block of exactly `k` ones
between zeros occurs `2^(n-2-k)` times for `1 ≤ k ≤ n-2`, and the run of `n` ones occurs once. -/
theorem C76_runs (p : PrbsEnum) (seed : List Int) (hseed : seed.length = p.value)
    (hne : ∃ x ∈ seed, x % 2 = 1) (start L : ℕ) (hL : start + (2 ^ p.value - 1) + p.value ≤ L)
    (seq sd : List Int) (hg : prbsGenerator (getPolynomial p) seed L = .ok (seq, sd)) :
    (∀ k, 1 ≤ k → k + 2 ≤ p.value →
      ((range (2 ^ p.value - 1)).filter (fun t => (seq.drop (start + t)).take (k + 2)
        = 0 :: (List.replicate k 1 ++ [0]))).card = 2 ^ (p.value - 2 - k)) ∧
    ((range (2 ^ p.value - 1)).filter (fun t => (seq.drop (start + t)).take p.value
        = List.replicate p.value 1)).card = 1 := by
  have hv := value_pos p
  constructor
  · intro k hk hkn
    have hlen : (0 :: (List.replicate k (1 : Int) ++ [0])).length = k + 2 := by simp
    have h := C76_window_count p seed (0 :: (List.replicate k 1 ++ [0])) hseed hne
      (by simp only [List.mem_cons, List.mem_append, List.mem_replicate]; tauto)
      (by omega) start L (by omega) seq sd hg
    rw [hlen] at h
    rw [h, if_neg, show p.value - (k + 2) = p.value - 2 - k by omega, Nat.sub_zero]
    intro hc
    exact absurd (hc 1 (by simp; omega)) (by norm_num)
  · have h := C76_window_count p seed (List.replicate p.value 1) hseed hne
      (by simp only [List.mem_replicate]; tauto)
      (by simp) start L (by simpa using hL) seq sd hg
    rw [List.length_replicate] at h
    rw [h, if_neg]
    · simp
    · intro hc
      exact absurd (hc 1 (by simp; omega)) (by norm_num)

example : ∃ seq sd, prbsGenerator (getPolynomial .prbs7) [0, 1, 0, 0, 0, 0, 1] 140 = .ok (seq, sd) ∧
    ((range 127).filter (fun t => (seq.drop (3 + t)).take 5 = [0, 1, 1, 1, 0])).card = 4 :=
  ⟨_, _, rfl, by decide +kernel⟩

/-- **C76**, superposition. For every polynomial (supported or not) and two seeds of its length, the
sequence of the cellwise sum of the seeds is the sum modulo two of the two sequences. -/
theorem C76_superposition (poly s₁ s₂ : List Int) (hn : 0 < poly.length)
    (h₁ : poly.length = s₁.length) (h₂ : poly.length = s₂.length) (L : ℕ) :
    ∃ a b c sa sb sc, prbsGenerator poly s₁ L = .ok (a, sa) ∧ prbsGenerator poly s₂ L = .ok (b, sb) ∧
      prbsGenerator poly (List.zipWith (· + ·) s₁ s₂) L = .ok (c, sc) ∧
      c = List.zipWith (fun x y => (x + y) % 2) a b := by
  have h12 : poly.length = (List.zipWith (· + ·) s₁ s₂).length := by
    rw [List.length_zipWith]; omega
  obtain ⟨sa, ea, -⟩ := prbsGenerator_seq poly s₁ L hn h₁
  obtain ⟨sb, eb, -⟩ := prbsGenerator_seq poly s₂ L hn h₂
  obtain ⟨sc, ec, -⟩ := prbsGenerator_seq poly (List.zipWith (· + ·) s₁ s₂) L hn h12
  refine ⟨_, _, _, sa, sb, sc, ea, eb, ec, ?_⟩
  rw [List.zipWith_map, List.zipWith_self]
  apply List.map_congr_left
  intro t _
  exact bitAt_add_seed poly s₁ s₂ h₁ h₂ _

example : List.zipWith (· + ·) ([1, 0, 1, 1] : List Int) [1, 1, 0, 0] = [2, 1, 1, 1] := by decide

end Verif
