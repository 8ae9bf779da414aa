import Mathlib.Dynamics.PeriodicPts.Defs
import Mathlib.Data.Nat.Bitwise
import Mathlib.Data.Nat.Prime.Basic
import Mathlib.Order.Interval.Finset.Nat
import Mathlib.Data.Finset.Card
import Mathlib.Data.Nat.Factorization.Basic
import Mathlib.Tactic.Ring

/-!
GF(2)-linear maps on registers coded as natural numbers (bit `i` of the number is cell `i` of the
register), evaluated by the kernel through matrix powers.
-/

namespace Verif.Gf2

/-- parity of the lowest `k` bits -/
def parN : Nat → Nat → Nat
  | 0, _ => 0
  | k + 1, m => (m % 2) ^^^ parN k (m / 2)

/-- one LFSR step on the coded register -/
def step (n taps s : Nat) : Nat := parN n (s &&& taps) ^^^ (2 * (s % 2 ^ (n - 1)))

/-- additive (XOR-linear) maps -/
structure XLin (f : Nat → Nat) : Prop where
  map_zero : f 0 = 0
  map_xor : ∀ a b, f (a ^^^ b) = f a ^^^ f b

theorem parN_zero (k : Nat) : parN k 0 = 0 := by
  induction k with
  | zero => rfl
  | succ k ih => simp [parN, ih]

theorem parN_xor (k a b : Nat) : parN k (a ^^^ b) = parN k a ^^^ parN k b := by
  induction k generalizing a b with
  | zero => simp [parN]
  | succ k ih =>
    have h1 : (a ^^^ b) % 2 = (a % 2) ^^^ (b % 2) := by
      have := @Nat.xor_mod_two_pow a b 1; simpa using this
    have h2 : (a ^^^ b) / 2 = (a / 2) ^^^ (b / 2) := by
      have := @Nat.xor_div_two_pow a b 1; simpa using this
    simp only [parN, h1, h2, ih]
    ac_rfl

theorem parN_lt (k m : Nat) : parN k m < 2 := by
  induction k generalizing m with
  | zero => simp [parN]
  | succ k ih =>
    have : parN k (m/2) < 2^1 := ih _
    have h1 : m % 2 < 2^1 := Nat.mod_lt _ (by decide)
    have := Nat.xor_lt_two_pow h1 this
    simpa [parN] using this

theorem xlin_step (n taps : Nat) : XLin (step n taps) := by
  constructor
  · simp [step, parN_zero]
  · intro a b
    have h3 : (a ^^^ b) &&& taps = (a &&& taps) ^^^ (b &&& taps) := Nat.and_xor_distrib_right ..
    have h4 : 2 * ((a ^^^ b) % 2 ^ (n-1)) = (2 * (a % 2^(n-1))) ^^^ (2 * (b % 2^(n-1))) := by
      rw [Nat.xor_mod_two_pow]
      have := @Nat.shiftLeft_xor_distrib 1 (a % 2^(n-1)) (b % 2^(n-1))
      simpa [Nat.shiftLeft_eq, Nat.mul_comm] using this
    simp only [step, h3, h4, parN_xor]
    ac_rfl

theorem XLin.comp {f g : Nat → Nat} (hf : XLin f) (hg : XLin g) : XLin (f ∘ g) :=
  ⟨by simp [hg.map_zero, hf.map_zero], fun a b => by simp [hg.map_xor, hf.map_xor]⟩

theorem XLin.iterate {f : Nat → Nat} (hf : XLin f) (k : Nat) : XLin (f^[k]) := by
  induction k with
  | zero => exact ⟨rfl, fun _ _ => rfl⟩
  | succ k ih => rw [Function.iterate_succ]; exact ih.comp hf

/-- matrix (list of the images of the unit vectors) times vector -/
def app : List Nat → Nat → Nat
  | [], _ => 0
  | c :: M, v => (if v % 2 = 1 then c else 0) ^^^ app M (v / 2)

/-- unit vectors -/
def basis : Nat → List Nat
  | 0 => []
  | n + 1 => 1 :: (basis n).map (2 * ·)

theorem xlin_double : XLin (2 * ·) := ⟨rfl, fun a b => by
  have := @Nat.shiftLeft_xor_distrib 1 a b
  simpa [Nat.shiftLeft_eq, Nat.mul_comm] using this⟩

theorem app_basis {f : Nat → Nat} (hf : XLin f) (n v : Nat) (hv : v < 2 ^ n) :
    app ((basis n).map f) v = f v := by
  induction n generalizing f v with
  | zero => simp at hv; subst hv; simp [basis, app, hf.map_zero]
  | succ n ih =>
    have hd : v / 2 < 2 ^ n := by rw [Nat.pow_succ] at hv; omega
    have := ih (hf.comp xlin_double) (v / 2) hd
    simp only [basis, List.map_cons, List.map_map, app]
    rw [this]
    have hv2 : v = (v % 2) ^^^ (2 * (v / 2)) := by
      have h1 : v % 2 ^^^ (2 * (v/2)) = v % 2 + 2 * (v / 2) := by
        rw [Nat.xor_comm, Nat.add_comm]
        have := Nat.two_pow_add_eq_or_of_lt (i := 1) (b := v % 2) (by simpa using Nat.mod_lt v (by decide : 2 > 0)) (v/2)
        have h0 : 2 * (v/2) &&& (v % 2) = 0 := by
          apply Nat.eq_of_testBit_eq; intro i
          rcases i with _ | i
          · simp
          · have : (v % 2).testBit (i+1) = false := by
              apply Nat.testBit_lt_two_pow
              have := Nat.mod_lt v (by decide : 2 > 0)
              calc v % 2 < 2 := this
                _ ≤ 2 ^ (i+1) := by rw [Nat.pow_succ]; have := Nat.one_le_two_pow (n := i); omega
            simp [this]
        have h1 := this
        simp only [Nat.pow_one] at h1
        rw [h1]
        apply Nat.eq_of_testBit_eq; intro i
        have h2 := congrArg (fun x => Nat.testBit x i) h0
        simp only [Nat.testBit_and, Nat.zero_testBit] at h2
        rw [Nat.testBit_xor, Nat.testBit_or]
        revert h2
        cases (2 * (v/2)).testBit i <;> cases (v%2).testBit i <;> simp
      omega
    conv_rhs => rw [hv2, hf.map_xor]
    congr 1
    rcases Nat.mod_two_eq_zero_or_one v with h | h <;> simp [h, hf.map_zero]

theorem step_lt {n : Nat} (hn : 0 < n) (taps s : Nat) : step n taps s < 2 ^ n := by
  have h1 : parN n (s &&& taps) < 2 ^ n :=
    lt_of_lt_of_le (parN_lt _ _) (by
      calc 2 = 2 ^ 1 := rfl
        _ ≤ 2 ^ n := Nat.pow_le_pow_right (by decide) hn)
  have h2 : 2 * (s % 2 ^ (n-1)) < 2 ^ n := by
    have := Nat.mod_lt s (Nat.two_pow_pos (n-1))
    have h : 2 ^ n = 2 * 2 ^ (n-1) := by
      rw [← Nat.pow_succ']; congr 1; omega
    omega
  exact Nat.xor_lt_two_pow h1 h2

theorem basis_lt (n : Nat) : ∀ x ∈ basis n, x < 2 ^ n := by
  induction n with
  | zero => simp [basis]
  | succ n ih =>
    intro x hx
    simp only [basis, List.mem_cons, List.mem_map] at hx
    rcases hx with rfl | ⟨y, hy, rfl⟩
    · exact Nat.one_lt_two_pow (by omega)
    · have := ih y hy; rw [Nat.pow_succ]; omega

/-- matrix of `step^[val bits]`, computed by repeated squaring (most significant bit first) -/
def powMat (n taps : Nat) : List Bool → List Nat → List Nat
  | [], M => M
  | b :: bs, M =>
    let S := M.map (app M)
    powMat n taps bs (if b then S.map (step n taps) else S)

/-- value of a most-significant-first bit string, continuing from `acc` -/
def bitsVal : List Bool → Nat → Nat
  | [], acc => acc
  | b :: bs, acc => bitsVal bs (2 * acc + (if b then 1 else 0))

theorem iterate_step_lt {n : Nat} (hn : 0 < n) (taps k s : Nat) (hs : s < 2 ^ n) :
    (step n taps)^[k] s < 2 ^ n := by
  cases k with
  | zero => exact hs
  | succ k => rw [Function.iterate_succ_apply']; exact step_lt hn _ _

theorem powMat_eq {n : Nat} (hn : 0 < n) (taps : Nat) (bs : List Bool) (acc : Nat) :
    powMat n taps bs ((basis n).map ((step n taps)^[acc])) =
      (basis n).map ((step n taps)^[bitsVal bs acc]) := by
  induction bs generalizing acc with
  | nil => rfl
  | cons b bs ih =>
    simp only [powMat, bitsVal]
    have hsq : ((basis n).map ((step n taps)^[acc])).map
        (app ((basis n).map ((step n taps)^[acc]))) = (basis n).map ((step n taps)^[2 * acc]) := by
      rw [List.map_map]
      apply List.map_congr_left
      intro x hx
      simp only [Function.comp]
      rw [app_basis ((xlin_step n taps).iterate acc) n _
        (iterate_step_lt hn taps acc x (basis_lt n x hx)), ← Function.iterate_add_apply, two_mul]
    rw [hsq]
    cases b with
    | false => simpa using ih (2 * acc)
    | true =>
      have : ((basis n).map ((step n taps)^[2 * acc])).map (step n taps)
          = (basis n).map ((step n taps)^[2 * acc + 1]) := by
        rw [List.map_map]
        apply List.map_congr_left
        intro x _
        simp only [Function.comp, Function.iterate_succ_apply']
      simpa [this] using ih (2 * acc + 1)

/-- certificate check: `step^[k]` is the identity on registers -/
def isId (n taps : Nat) (bs : List Bool) : Bool := powMat n taps bs (basis n) == basis n

theorem iterate_eq_self_of_isId {n : Nat} (hn : 0 < n) {taps : Nat} {bs : List Bool}
    (h : isId n taps bs = true) {s : Nat} (hs : s < 2 ^ n) :
    (step n taps)^[bitsVal bs 0] s = s := by
  have h1 := powMat_eq hn taps bs 0
  simp only [Function.iterate_zero, List.map_id] at h1
  simp only [isId, beq_iff_eq] at h
  rw [h] at h1
  have h2 := app_basis ((xlin_step n taps).iterate (bitsVal bs 0)) n s hs
  rw [← h1] at h2
  have h3 := app_basis (f := id) ⟨rfl, fun _ _ => rfl⟩ n s hs
  simp only [List.map_id, id] at h3
  rw [← h2, h3]

theorem iterate_eq_app {n : Nat} (hn : 0 < n) (taps : Nat) (bs : List Bool) {s : Nat}
    (hs : s < 2 ^ n) :
    app (powMat n taps bs (basis n)) s = (step n taps)^[bitsVal bs 0] s := by
  have h1 := powMat_eq hn taps bs 0
  simp only [Function.iterate_zero, List.map_id] at h1
  rw [h1, app_basis ((xlin_step n taps).iterate (bitsVal bs 0)) n s hs]

/-- an orbit of length `2^n - 1` of a non-zero register contains every non-zero register -/
theorem orbit_full {n : Nat} (hn : 0 < n) {taps : Nat} {s : Nat} (hs : s < 2 ^ n) (hs0 : s ≠ 0)
    (hper : Function.minimalPeriod (step n taps) s = 2 ^ n - 1) :
    (Finset.range (2 ^ n - 1)).image (fun t => (step n taps)^[t] s) = Finset.Ico 1 (2 ^ n) ∧
    Set.InjOn (fun t => (step n taps)^[t] s) (Finset.range (2 ^ n - 1) : Finset Nat) := by
  have hlin := xlin_step n taps
  have hinj : Set.InjOn (fun t => (step n taps)^[t] s) (Finset.range (2 ^ n - 1) : Finset Nat) := by
    intro a ha b hb hab
    simp only [Finset.coe_range, Set.mem_Iio] at ha hb
    exact (Function.iterate_injOn_Iio_minimalPeriod (f := step n taps) (x := s))
      (by rw [hper]; exact ha) (by rw [hper]; exact hb) hab
  refine ⟨?_, hinj⟩
  apply Finset.eq_of_subset_of_card_le
  · intro x hx
    simp only [Finset.mem_image, Finset.mem_range] at hx
    obtain ⟨t, ht, rfl⟩ := hx
    simp only [Finset.mem_Ico]
    refine ⟨?_, iterate_step_lt hn taps t s hs⟩
    rcases Nat.eq_zero_or_pos ((step n taps)^[t] s) with h0 | h0
    · exfalso
      have hz : (step n taps)^[(2 ^ n - 1) - t] ((step n taps)^[t] s) = s := by
        rw [← Function.iterate_add_apply, Nat.sub_add_cancel ht.le, ← hper]
        exact Function.iterate_minimalPeriod
      rw [h0, (hlin.iterate _).map_zero] at hz
      exact hs0 hz.symm
    · exact h0
  · rw [Finset.card_image_of_injOn hinj]; simp

theorem minimalPeriod_eq_of_primes {α : Type*} {f : α → α} {x : α} {N : Nat}
    (hx : f^[N] x = x) (hq : ∀ q : Nat, q.Prime → q ∣ N → f^[N / q] x ≠ x) :
    Function.minimalPeriod f x = N := by
  have hp : Function.IsPeriodicPt f N x := hx
  obtain ⟨m, hm⟩ := hp.minimalPeriod_dvd
  by_contra hne
  have hm1 : m ≠ 1 := by rintro rfl; rw [Nat.mul_one] at hm; exact hne hm.symm
  obtain ⟨q, hqp, hqm⟩ := Nat.exists_prime_and_dvd hm1
  obtain ⟨c, rfl⟩ := hqm
  have hdiv : N / q = Function.minimalPeriod f x * c := by
    rw [hm, show Function.minimalPeriod f x * (q * c) = q * (Function.minimalPeriod f x * c) by ring,
      Nat.mul_div_cancel_left _ hqp.pos]
  apply hq q hqp ⟨Function.minimalPeriod f x * c, by rw [hm]; ring⟩
  rw [hdiv]
  exact (Function.isPeriodicPt_minimalPeriod f x).mul_const c

/-- the certificate of maximal length used for every polynomial: `step^[2^n-1]` is the identity and
no maximal proper divisor of `2^n - 1` returns the register `1`. -/
theorem maximal {n : Nat} (hn : 0 < n) {taps : Nat}
    (hid : ∀ s < 2 ^ n, (step n taps)^[2 ^ n - 1] s = s)
    (hq : ∀ q : Nat, q.Prime → q ∣ 2 ^ n - 1 → (step n taps)^[(2 ^ n - 1) / q] 1 ≠ 1)
    {s : Nat} (hs : s < 2 ^ n) (hs0 : s ≠ 0) :
    Function.minimalPeriod (step n taps) s = 2 ^ n - 1 := by
  have h2 : 1 < 2 ^ n := Nat.one_lt_two_pow (by omega)
  have hper1 : Function.minimalPeriod (step n taps) 1 = 2 ^ n - 1 :=
    minimalPeriod_eq_of_primes (hid 1 h2) hq
  obtain ⟨himg, -⟩ := orbit_full hn h2 one_ne_zero hper1
  have : s ∈ (Finset.range (2 ^ n - 1)).image (fun t => (step n taps)^[t] 1) := by
    rw [himg]; simp; omega
  simp only [Finset.mem_image, Finset.mem_range] at this
  obtain ⟨t, -, rfl⟩ := this
  rw [Function.minimalPeriod_apply_iterate, hper1]
  exact Function.mk_mem_periodicPts (by omega : 0 < 2 ^ n - 1) (hid 1 h2)

/-- over a full orbit exactly `2^(n-1)` registers have lowest bit one -/
theorem orbit_balance {n : Nat} (hn : 0 < n) {taps : Nat} {s : Nat} (hs : s < 2 ^ n) (hs0 : s ≠ 0)
    (hper : Function.minimalPeriod (step n taps) s = 2 ^ n - 1) :
    ((Finset.range (2 ^ n - 1)).filter (fun t => (step n taps)^[t] s % 2 = 1)).card
      = 2 ^ (n - 1) := by
  obtain ⟨himg, hinj⟩ := orbit_full hn hs hs0 hper
  have h1 : ((Finset.Ico 1 (2 ^ n)).filter (fun x => x % 2 = 1)).card = 2 ^ (n - 1) := by
    have : (Finset.Ico 1 (2 ^ n)).filter (fun x => x % 2 = 1)
        = (Finset.range (2 ^ (n-1))).image (fun k => 2 * k + 1) := by
      ext x
      have h : 2 ^ n = 2 * 2 ^ (n-1) := by rw [← Nat.pow_succ']; congr 1; omega
      simp only [Finset.mem_filter, Finset.mem_Ico, Finset.mem_image, Finset.mem_range]
      constructor
      · rintro ⟨⟨_, hx⟩, hx2⟩
        exact ⟨x / 2, by omega, by omega⟩
      · rintro ⟨k, hk, rfl⟩
        omega
    rw [this, Finset.card_image_of_injective _ (fun a b h => by simpa using h)]
    simp
  rw [← h1, ← himg, Finset.filter_image, Finset.card_image_of_injOn]
  exact hinj.mono (by intro x hx; simp at hx; simpa using hx.1)

end Verif.Gf2
