import Verif.Model.Prbs
import Verif.Spec.Prbs
import Verif.Lemmas.Gf2
import Verif.Lemmas.ListAux
import Mathlib.NumberTheory.LucasLehmer
import Mathlib.Tactic.NormNum.Prime

/-! Bridge between the list model of the generator and coded registers. -/

namespace Verif
open Gf2

/-- register after one loop iteration -/
def regStep (poly s : List Int) : List Int := (dot poly s % 2) :: s.dropLast
/-- register after `t` iterations -/
def reg (poly seed : List Int) (t : Nat) : List Int := (regStep poly)^[t] seed
/-- bit produced in iteration `t` -/
def bitAt (poly seed : List Int) (t : Nat) : Int := dot poly (reg poly seed t) % 2

theorem reg_zero (poly seed : List Int) : reg poly seed 0 = seed := rfl

theorem reg_succ (poly seed : List Int) (t : Nat) :
    reg poly seed (t+1) = bitAt poly seed t :: (reg poly seed t).dropLast := by
  simp only [reg, bitAt, Function.iterate_succ_apply', regStep]

theorem reg_succ' (poly seed : List Int) (t : Nat) :
    reg poly seed (t+1) = reg poly (regStep poly seed) t := by
  simp only [reg, Function.iterate_succ_apply]

theorem reg_add (poly seed : List Int) (s t : Nat) :
    reg poly seed (s + t) = reg poly (reg poly seed s) t := by
  simp only [reg, ← Function.iterate_add_apply]; rw [Nat.add_comm]

theorem bitAt_add (poly seed : List Int) (s t : Nat) :
    bitAt poly seed (s + t) = bitAt poly (reg poly seed s) t := by
  simp only [bitAt, reg_add]

theorem prbsLoop_eq (poly seed : List Int) (k : Nat) :
    prbsLoop poly k seed = ((List.range k).map (bitAt poly seed), reg poly seed k) := by
  induction k generalizing seed with
  | zero => simp [prbsLoop, reg_zero]
  | succ k ih =>
    have h := ih (regStep poly seed)
    simp only [prbsLoop]
    unfold regStep at h
    rw [h]
    simp only [List.range_succ_eq_map, List.map_cons, List.map_map, Prod.mk.injEq, List.cons.injEq]
    refine ⟨⟨rfl, ?_⟩, ?_⟩
    · apply List.map_congr_left
      intro t _
      simp only [Function.comp, bitAt, reg_succ', regStep]
    · simp only [reg_succ', regStep]

theorem reg_length (poly seed : List Int) (t : Nat) (h : 0 < seed.length) :
    (reg poly seed t).length = seed.length := by
  induction t with
  | zero => rfl
  | succ t ih => rw [reg_succ]; simp [ih]; omega

/-- cell `i` of the register after `t` iterations -/
theorem reg_getD (poly seed : List Int) (t i : Nat) (hi : i < seed.length) :
    (reg poly seed t).getD i 0 = if i < t then bitAt poly seed (t - 1 - i) else seed.getD (i - t) 0 := by
  have hpos : 0 < seed.length := by omega
  induction t generalizing i with
  | zero => simp [reg_zero]
  | succ t ih =>
    rw [reg_succ]
    cases i with
    | zero => simp
    | succ i =>
      have := ih i (by omega)
      have hl := reg_length poly seed t hpos
      have hd : ((reg poly seed t).dropLast).getD i 0 = (reg poly seed t).getD i 0 := by
        simp only [List.getD_eq_getElem?_getD, List.getElem?_dropLast]
        rw [if_pos (by omega)]
      simp only [List.getD_cons_succ, hd, this, Nat.add_lt_add_iff_right]
      split
      · congr 1; omega
      · congr 1; omega

theorem lfsrStream_bitAt (poly seed : List Int) (h : poly.length = seed.length) :
    Spec.LfsrStream poly seed (bitAt poly seed) := by
  intro t
  have e : bitAt poly seed t = dot poly (reg poly seed t) % 2 := rfl
  rcases Nat.eq_zero_or_pos seed.length with h0 | h0
  · have : poly = [] := List.length_eq_zero_iff.1 (by omega)
    subst this
    simp [e, dot]
  · rw [e]
    congr 1
    rw [dot, sum_zipWith_eq (· * ·) 0 0 _ _ (by rw [reg_length _ _ _ h0, h])]
    apply Finset.sum_congr rfl
    intro i hi
    rw [reg_getD _ _ _ _ (by rw [← h]; simpa using hi)]

theorem lfsrStream_unique {poly seed : List Int} {b c : ℕ → Int}
    (hb : Spec.LfsrStream poly seed b) (hc : Spec.LfsrStream poly seed c) : b = c := by
  funext t
  induction t using Nat.strong_induction_on with
  | _ t ih =>
    rw [hb t, hc t]
    congr 1
    apply Finset.sum_congr rfl
    intro i _
    split
    · rw [ih _ (by omega)]
    · rfl

/-! ### coded registers -/

/-- parity code of a register: cell `i` modulo two becomes bit `i` -/
def code : List Int → Nat
  | [] => 0
  | x :: xs => (x % 2).toNat + 2 * code xs

theorem mod2_toNat_lt (x : Int) : (x % 2).toNat < 2 := by omega

theorem code_lt (l : List Int) : code l < 2 ^ l.length := by
  induction l with
  | nil => simp [code]
  | cons x xs ih => simp only [code, List.length_cons, Nat.pow_succ]; omega

theorem code_dropLast (l : List Int) : code l.dropLast = code l % 2 ^ (l.length - 1) := by
  induction l with
  | nil => rfl
  | cons x xs ih =>
    cases xs with
    | nil => simp [code, Nat.mod_one]
    | cons y ys =>
      simp only [List.dropLast_cons_cons, code, List.length_cons, Nat.add_sub_cancel] at ih ⊢
      rw [ih]
      have h1 : 2 ^ (ys.length + 1) = 2 * 2 ^ ys.length := by rw [Nat.pow_succ]; ring
      have hx := mod2_toNat_lt x
      rw [h1, Nat.mod_mul,
        show ((x % 2).toNat + 2 * ((y % 2).toNat + 2 * code ys)) / 2 = (y % 2).toNat + 2 * code ys by omega]
      omega

theorem dot_mod_two (p s : List Int) (h : p.length = s.length) :
    (dot p s % 2).toNat = parN s.length (code s &&& code p) := by
  induction p generalizing s with
  | nil =>
    cases s with
    | nil => simp [dot, parN]
    | cons _ _ => simp at h
  | cons x xs ih =>
    cases s with
    | nil => simp at h
    | cons y ys =>
      have h' : xs.length = ys.length := by simpa using h
      have e : dot (x :: xs) (y :: ys) = x * y + dot xs ys := by simp [dot]
      have i := ih ys h'
      simp only [List.length_cons, parN, code]
      have hd : (((y % 2).toNat + 2 * code ys) &&& ((x % 2).toNat + 2 * code xs)) / 2
          = code ys &&& code xs := by
        have := @Nat.and_div_two_pow ((y % 2).toNat + 2 * code ys) ((x % 2).toNat + 2 * code xs) 1
        have a1 : ((y % 2).toNat + 2 * code ys) / 2 = code ys := by omega
        have a2 : ((x % 2).toNat + 2 * code xs) / 2 = code xs := by omega
        simpa [a1, a2] using this
      have hm : (((y % 2).toNat + 2 * code ys) &&& ((x % 2).toNat + 2 * code xs)) % 2
          = ((x * y) % 2).toNat := by
        have := @Nat.and_mod_two_pow ((y % 2).toNat + 2 * code ys) ((x % 2).toNat + 2 * code xs) 1
        have a1 : ((y % 2).toNat + 2 * code ys) % 2 = (y % 2).toNat := by omega
        have a2 : ((x % 2).toNat + 2 * code xs) % 2 = (x % 2).toNat := by omega
        simp only [Nat.pow_one, a1, a2] at this
        rw [this]
        rcases Int.emod_two_eq_zero_or_one x with hx | hx <;>
        rcases Int.emod_two_eq_zero_or_one y with hy | hy <;>
        simp [hx, hy, Int.mul_emod]
      rw [hd, hm, ← i, e]
      rcases Int.emod_two_eq_zero_or_one (x * y) with hx | hx <;>
      rcases Int.emod_two_eq_zero_or_one (dot xs ys) with hy | hy <;>
      simp [Int.add_emod, hx, hy]

theorem two_xor (p m : Nat) (hp : p < 2) : p ^^^ (2 * m) = p + 2 * m := by
  have h0 : (p ^^^ (2*m)) % 2 = p := by
    have := @Nat.xor_mod_two_pow p (2*m) 1
    simp only [Nat.pow_one] at this
    rw [this]; simp; omega
  have h1 : (p ^^^ (2*m)) / 2 = m := by
    have := @Nat.xor_div_two_pow p (2*m) 1
    simp only [Nat.pow_one] at this
    rw [this, Nat.div_eq_of_lt hp]; simp
  omega

theorem code_regStep (p s : List Int) (h : p.length = s.length) :
    code (regStep p s) = step s.length (code p) (code s) := by
  simp only [regStep, code, code_dropLast, step]
  rw [← dot_mod_two p s h, two_xor _ _ (mod2_toNat_lt _)]
  have : (dot p s % 2 % 2) = dot p s % 2 := by omega
  rw [this]

theorem code_reg (p s : List Int) (h : p.length = s.length) (hs : 0 < s.length) (t : Nat) :
    code (reg p s t) = (step s.length (code p))^[t] (code s) := by
  induction t with
  | zero => rfl
  | succ t ih =>
    have hl := reg_length p s t hs
    have : reg p s (t+1) = regStep p (reg p s t) := by simp [reg, Function.iterate_succ_apply']
    rw [this, code_regStep _ _ (by omega), hl, ih, Function.iterate_succ_apply']

theorem bitAt_eq_code (p s : List Int) (h : p.length = s.length) (hs : 0 < s.length) (t : Nat) :
    bitAt p s t = ((step s.length (code p))^[t+1] (code s) % 2 : Nat) := by
  rw [← code_reg p s h hs, reg_succ]
  simp only [code]
  have : bitAt p s t = dot p (reg p s t) % 2 := rfl
  omega

/-! ### the supported polynomials -/

theorem poly_length (p : PrbsEnum) : (getPolynomial p).length = p.value := by
  cases p <;> decide

theorem value_pos (p : PrbsEnum) : 0 < p.value := by cases p <;> decide

private theorem prime_dvd_of {q a : Nat} (hq : q.Prime) (ha : a.Prime) (h : q ∣ a) : q = a :=
  (Nat.prime_dvd_prime_iff_eq hq ha).1 h

/-- exponents `(2^n-1)/q` as bit strings, most significant first -/
private def bitsOf (len m : Nat) : List Bool := ((List.range len).map (fun i => m.testBit i)).reverse

theorem supported_id (p : PrbsEnum) : ∀ s < 2 ^ p.value,
    (step p.value (code (getPolynomial p)))^[2 ^ p.value - 1] s = s := by
  intro s hs
  have key : ∀ n taps, 0 < n → n = p.value → taps = code (getPolynomial p) →
      isId n taps (List.replicate n true) = true → bitsVal (List.replicate n true) 0 = 2 ^ n - 1 →
      (step p.value (code (getPolynomial p)))^[2 ^ p.value - 1] s = s := by
    rintro n taps hn rfl rfl h1 h2
    have := iterate_eq_self_of_isId hn h1 hs
    rwa [h2] at this
  cases p
  · exact key 7 96 (by decide) rfl (by decide +kernel) (by decide +kernel) (by decide +kernel)
  · exact key 9 272 (by decide) rfl (by decide +kernel) (by decide +kernel) (by decide +kernel)
  · exact key 11 1280 (by decide) rfl (by decide +kernel) (by decide +kernel) (by decide +kernel)
  · exact key 13 6147 (by decide) rfl (by decide +kernel) (by decide +kernel) (by decide +kernel)
  · exact key 15 24576 (by decide) rfl (by decide +kernel) (by decide +kernel) (by decide +kernel)
  · exact key 31 1207959552 (by decide) rfl (by decide +kernel) (by decide +kernel) (by decide +kernel)

theorem supported_prime (p : PrbsEnum) : ∀ q : Nat, q.Prime → q ∣ 2 ^ p.value - 1 →
    (step p.value (code (getPolynomial p)))^[(2 ^ p.value - 1) / q] 1 ≠ 1 := by
  intro q hq hd
  have key : ∀ n taps m len, 0 < n → n = p.value → taps = code (getPolynomial p) →
      (2 ^ n - 1) / q = m → bitsVal (bitsOf len m) 0 = m →
      app (powMat n taps (bitsOf len m) (basis n)) 1 ≠ 1 →
      (step p.value (code (getPolynomial p)))^[(2 ^ p.value - 1) / q] 1 ≠ 1 := by
    rintro n taps m len hn rfl rfl rfl h1 h2
    rw [iterate_eq_app hn _ _ (Nat.one_lt_two_pow (by omega)), h1] at h2
    exact h2
  cases p
  · have : q = 127 := prime_dvd_of hq (by norm_num) (by simpa [PrbsEnum.value] using hd)
    subst this
    exact key 7 96 1 1 (by decide) rfl (by decide +kernel) (by decide +kernel) (by decide +kernel) (by decide +kernel)
  · have h : q ∣ 7 * 73 := by simpa [PrbsEnum.value] using hd
    rcases (Nat.Prime.dvd_mul hq).1 h with h | h
    · have := prime_dvd_of hq (by norm_num) h; subst this
      exact key 9 272 73 7 (by decide) rfl (by decide +kernel) (by decide +kernel) (by decide +kernel) (by decide +kernel)
    · have := prime_dvd_of hq (by norm_num) h; subst this
      exact key 9 272 7 3 (by decide) rfl (by decide +kernel) (by decide +kernel) (by decide +kernel) (by decide +kernel)
  · have h : q ∣ 23 * 89 := by simpa [PrbsEnum.value] using hd
    rcases (Nat.Prime.dvd_mul hq).1 h with h | h
    · have := prime_dvd_of hq (by norm_num) h; subst this
      exact key 11 1280 89 7 (by decide) rfl (by decide +kernel) (by decide +kernel) (by decide +kernel) (by decide +kernel)
    · have := prime_dvd_of hq (by norm_num) h; subst this
      exact key 11 1280 23 5 (by decide) rfl (by decide +kernel) (by decide +kernel) (by decide +kernel) (by decide +kernel)
  · have : q = 8191 := prime_dvd_of hq (by norm_num) (by simpa [PrbsEnum.value] using hd)
    subst this
    exact key 13 6147 1 1 (by decide) rfl (by decide +kernel) (by decide +kernel) (by decide +kernel) (by decide +kernel)
  · have h : q ∣ 7 * 31 * 151 := by simpa [PrbsEnum.value] using hd
    rcases (Nat.Prime.dvd_mul hq).1 h with h | h
    · rcases (Nat.Prime.dvd_mul hq).1 h with h | h
      · have := prime_dvd_of hq (by norm_num) h; subst this
        exact key 15 24576 4681 13 (by decide) rfl (by decide +kernel) (by decide +kernel) (by decide +kernel) (by decide +kernel)
      · have := prime_dvd_of hq (by norm_num) h; subst this
        exact key 15 24576 1057 11 (by decide) rfl (by decide +kernel) (by decide +kernel) (by decide +kernel) (by decide +kernel)
    · have := prime_dvd_of hq (by norm_num) h; subst this
      exact key 15 24576 217 8 (by decide) rfl (by decide +kernel) (by decide +kernel) (by decide +kernel) (by decide +kernel)
  · have hp : Nat.Prime 2147483647 := by
      have := lucas_lehmer_sufficiency 31 (by norm_num) (by norm_num)
      simpa [mersenne] using this
    have : q = 2147483647 := prime_dvd_of hq hp (by simpa [PrbsEnum.value] using hd)
    subst this
    exact key 31 1207959552 1 1 (by decide) rfl (by decide +kernel) (by decide +kernel) (by decide +kernel) (by decide +kernel)

theorem supported_maximal (p : PrbsEnum) {s : Nat} (hs : s < 2 ^ p.value) (h0 : s ≠ 0) :
    Function.minimalPeriod (step p.value (code (getPolynomial p))) s = 2 ^ p.value - 1 :=
  maximal (value_pos p) (supported_id p) (supported_prime p) hs h0

/-! ### closed form of the generator -/

theorem two_pow_sub_pos {n : Nat} (h : 0 < n) : 0 < 2 ^ n - 1 := by
  have := Nat.one_lt_two_pow (n := n) (by omega); omega

theorem bitAt_period (p : PrbsEnum) (seed : List Int) (h : seed.length = p.value) (t : Nat) :
    bitAt (getPolynomial p) seed (t + (2 ^ p.value - 1)) = bitAt (getPolynomial p) seed t := by
  have hl := poly_length p
  have hv := value_pos p
  rw [bitAt_eq_code _ _ (by omega) (by omega), bitAt_eq_code _ _ (by omega) (by omega), h]
  congr 2
  rw [show t + (2 ^ p.value - 1) + 1 = (t + 1) + (2 ^ p.value - 1) by omega,
    Function.iterate_add_apply, supported_id p _ (by rw [← h]; exact code_lt _)]

theorem bitAt_mod (p : PrbsEnum) (seed : List Int) (h : seed.length = p.value) (t : Nat) :
    bitAt (getPolynomial p) seed (t % (2 ^ p.value - 1)) = bitAt (getPolynomial p) seed t := by
  have : ∀ k r, bitAt (getPolynomial p) seed (r + k * (2 ^ p.value - 1))
      = bitAt (getPolynomial p) seed r := by
    intro k r
    induction k with
    | zero => simp
    | succ k ih => rw [Nat.succ_mul, ← Nat.add_assoc, bitAt_period p seed h, ih]
  conv_rhs => rw [← Nat.mod_add_div t (2 ^ p.value - 1), Nat.mul_comm]
  rw [this]

theorem lastN_map_range {α : Type*} (f : Nat → α) (n L : Nat) (h : n ≤ L) :
    lastN n ((List.range L).map f) = (List.range n).map (fun i => f (L - n + i)) := by
  apply List.ext_getElem?
  intro i
  simp only [lastN, List.length_map, List.length_range, List.getElem?_drop, map_range_getElem?]
  by_cases hi : i < n
  · rw [if_pos (by omega), if_pos hi]
  · rw [if_neg (by omega), if_neg hi]

/-- the register after `L ≥ n` steps holds the last `n` bits, newest first -/
theorem reg_eq_reverse_last (poly seed : List Int) (L : Nat) (h : 0 < seed.length)
    (hL : seed.length ≤ L) :
    reg poly seed L = (lastN seed.length ((List.range L).map (bitAt poly seed))).reverse := by
  rw [lastN_map_range _ _ _ hL]
  apply List.ext_getElem
  · simp [reg_length _ _ _ h]
  · intro i h1 h2
    have hi : i < seed.length := by rw [reg_length _ _ _ h] at h1; exact h1
    have := reg_getD poly seed L i hi
    rw [List.getD_eq_getElem?_getD, List.getElem?_eq_getElem h1] at this
    simp only [Option.getD_some] at this
    rw [this, if_pos (by omega)]
    simp only [List.getElem_reverse, List.length_map, List.length_range, List.getElem_map,
      List.getElem_range]
    congr 1; omega

/-- sequence returned by the generator for any polynomial -/
theorem prbsGenerator_seq (poly seed : List Int) (L : Nat) (hn : 0 < poly.length)
    (h : poly.length = seed.length) :
    ∃ sd, prbsGenerator poly seed L =
      .ok ((List.range L).map (fun t => bitAt poly seed (t % (2 ^ poly.length - 1))), sd) ∧
      sd = if seed.length ≤ L then
          (lastN poly.length ((List.range L).map
            (fun t => bitAt poly seed (t % (2 ^ poly.length - 1))))).reverse
        else reg poly seed L := by
  have hP : 0 < 2 ^ poly.length - 1 := two_pow_sub_pos hn
  obtain ⟨P, hPd⟩ : ∃ P, P = 2 ^ poly.length - 1 := ⟨_, rfl⟩
  have hPi : (2 : Int) ^ poly.length - 1 = (P : Int) := by
    rw [hPd]; have := Nat.one_le_two_pow (n := poly.length); push_cast [Nat.cast_sub this]; rfl
  rw [← hPd] at hP ⊢
  unfold prbsGenerator
  simp only [hPi]
  rw [if_neg (by omega), if_neg (by omega)]
  have hmin : (min (L : Int) (P : Int)).toNat = min L P := by omega
  simp only [hmin, prbsLoop_eq]
  have hseq : List.take (Int.toNat (L : Int))
      (if -(-(L : Int) / (P : Int)) > 1 then
        tile (List.map (bitAt poly seed) (List.range (min L P))) (-(-(L : Int) / (P : Int))).toNat
      else List.map (bitAt poly seed) (List.range (min L P)))
      = (List.range L).map (fun t => bitAt poly seed (t % P)) := by
    rw [Int.toNat_natCast]
    by_cases hLP : L ≤ P
    · have h1 : ¬ (-(-(L : Int) / (P : Int)) > 1) := by
        have : -1 ≤ -(L : Int) / (P : Int) := by
          rw [Int.le_ediv_iff_mul_le (by omega)]; omega
        omega
      rw [if_neg h1, Nat.min_eq_left hLP]
      rw [List.take_of_length_le (by simp)]
      apply List.map_congr_left
      intro t ht
      rw [List.mem_range] at ht
      rw [Nat.mod_eq_of_lt (by omega)]
    · have h1 : -(-(L : Int) / (P : Int)) > 1 := by
        have : -(L : Int) / (P : Int) < -1 := by
          rw [Int.ediv_lt_iff_lt_mul (by omega)]; omega
        omega
      rw [if_pos h1, Nat.min_eq_right (by omega)]
      have hk : L ≤ (-(-(L : Int) / (P : Int))).toNat * P := by
        have h2 : -(L : Int) / (P : Int) * P ≤ -(L : Int) := Int.ediv_mul_le _ (by omega)
        have h3 : (((-(-(L : Int) / (P : Int))).toNat : Nat) : Int) = -(-(L : Int) / (P : Int)) :=
          Int.toNat_of_nonneg (by omega)
        have : (L : Int) ≤ (((-(-(L : Int) / (P : Int))).toNat : Nat) : Int) * P := by
          rw [h3, Int.neg_mul]; omega
        exact_mod_cast this
      apply List.ext_getElem?
      intro i
      rw [List.getElem?_take, map_range_getElem?]
      split
      · rw [tile_getElem? _ _ _ (by simp; omega), map_range_getElem?]
        simp only [List.length_map, List.length_range]
        rw [if_pos (Nat.mod_lt _ hP)]
      · rfl
  rw [hseq]
  refine ⟨_, rfl, ?_⟩
  rw [reg_length _ _ _ (by omega)]
  by_cases hL : seed.length ≤ L
  · rw [if_pos (by omega), if_pos hL]
  · rw [if_neg (by omega), if_neg hL]
    have : L ≤ P := by
      have : L < poly.length := by omega
      have := Nat.lt_two_pow_self (n := poly.length)
      omega
    rw [Nat.min_eq_left this]

/-- for the supported polynomials both results are those of the plain register -/
theorem prbsGenerator_supported (p : PrbsEnum) (seed : List Int) (h : seed.length = p.value)
    (L : Nat) :
    prbsGenerator (getPolynomial p) seed L =
      .ok ((List.range L).map (bitAt (getPolynomial p) seed), reg (getPolynomial p) seed L) := by
  have hl := poly_length p
  have hv := value_pos p
  obtain ⟨sd, h1, h2⟩ := prbsGenerator_seq (getPolynomial p) seed L (by omega) (by omega)
  have e : (fun t => bitAt (getPolynomial p) seed (t % (2 ^ (getPolynomial p).length - 1)))
      = bitAt (getPolynomial p) seed := by
    funext t; rw [hl]; exact bitAt_mod p seed h t
  rw [e] at h1 h2
  rw [h1, h2]
  split
  · rw [reg_eq_reverse_last _ _ _ (by omega) (by assumption), hl, h]
  · rfl

end Verif
