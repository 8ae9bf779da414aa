import Verif.Model.FilterClass
import Verif.Spec.Filter
import Verif.Lemmas.Filter
import Mathlib.Tactic.FieldSimp
import Mathlib.Tactic.Push

/-! Lemmas: the filter classes and `lfilter` solve the difference equation. -/

open Finset

namespace Verif

variable {F : Type*} [Field F]

open Spec (withPast DiffEq)

theorem take_getD {α : Type*} (d : α) (l : List α) (n i : ℕ) (h : i < n) : (l.take n).getD i d = l.getD i d := by
  simp [List.getD_eq_getElem?_getD, h]

theorem map_div_getD (c : F) (l : List F) (i : ℕ) : (l.map (· / c)).getD i 0 = l.getD i 0 / c := by
  rcases Nat.lt_or_ge i l.length with h | h
  · rw [getD_map_lt _ 0 0 _ h]
  · rw [getD_of_le 0 _ (by simpa using h), getD_of_le 0 _ h, zero_div]

theorem replicate_getD (n i : ℕ) : (List.replicate n (0 : F)).getD i 0 = 0 := by
  rcases Nat.lt_or_ge i n with h | h
  · rw [getD_of_lt 0 _ (by simpa using h)]; simp
  · rw [getD_of_le 0 _ (by simpa using h)]

theorem withPast_nat (h l : List F) (n : ℕ) : withPast h l (n : ℤ) = l.getD n 0 := by
  simp [withPast]

theorem withPast_neg (h l : List F) (k : ℕ) : withPast h l (-(k : ℤ) - 1) = h.getD k 0 := by
  unfold withPast
  rw [if_neg (by omega)]
  congr 1
  omega

/-- time is either a position of the list or of the past -/
theorem time_cases (t : ℤ) : (∃ n : ℕ, t = n) ∨ ∃ k : ℕ, t = -(k : ℤ) - 1 := by
  rcases le_or_gt 0 t with h | h
  · exact Or.inl ⟨t.toNat, by omega⟩
  · exact Or.inr ⟨(-t - 1).toNat, by omega⟩

theorem withPast_zeros (m : ℕ) (l : List F) (t : ℤ) :
    withPast (List.replicate m 0) l t = withPast [] l t := by
  rcases time_cases t with ⟨n, rfl⟩ | ⟨k, rfl⟩
  · rw [withPast_nat, withPast_nat]
  · rw [withPast_neg, withPast_neg, replicate_getD]; simp

/-- moving the first sample into the past -/
theorem withPast_shift (m : ℕ) (h : List F) (x : F) (xs : List F) (t : ℤ) (ht : -(m : ℤ) ≤ t) :
    withPast ((x :: h).take m) xs t = withPast h (x :: xs) (t + 1) := by
  rcases time_cases t with ⟨n, rfl⟩ | ⟨k, rfl⟩
  · rw [withPast_nat, show ((n : ℤ) + 1) = ((n + 1 : ℕ) : ℤ) by push_cast; ring, withPast_nat]; simp
  · rw [withPast_neg, take_getD _ _ _ _ (by omega)]
    cases k with
    | zero => simp [withPast]
    | succ k =>
      rw [show (-((k + 1 : ℕ) : ℤ) - 1 + 1) = -(k : ℤ) - 1 by push_cast; ring, withPast_neg]; simp

theorem withPast_append (h x y : List F) (t : ℤ) (ht : t < x.length) :
    withPast h (x ++ y) t = withPast h x t := by
  rcases time_cases t with ⟨n, rfl⟩ | ⟨k, rfl⟩
  · rw [withPast_nat, withPast_nat]
    have : n < x.length := by omega
    simp [List.getD_eq_getElem?_getD, List.getElem?_append_left this]
  · rw [withPast_neg, withPast_neg]

theorem dotL_eq (u v : List F) (h : u.length = v.length) :
    dotL u v = ∑ i ∈ range u.length, u.getD i 0 * v.getD i 0 :=
  sum_zipWith_eq _ 0 0 u v h

/-! ### `Filter` -/

/-- the memories of a `Filter` object have the right lengths -/
def FilterOk (f : FilterObj F) : Prop := f.zFir.length = f.b.length ∧ f.zIir.length + 1 = f.a.length

theorem filterInit_ok (b a : List F) (zf zi : Option (List F)) (f : FilterObj F) (h : filterInit b a zf zi = .ok f) :
    FilterOk f ∧ f.b = b ∧ f.a = a ∧ f.zFir = zf.getD (List.replicate b.length 0) ∧
      f.zIir = zi.getD (List.replicate (a.length - 1) 0) := by
  unfold filterInit at h
  cases h1 : setZFir b zf with
  | error e => rw [h1] at h; cases h
  | ok z1 =>
    cases h2 : setZIir a zi with
    | error e => rw [h1, h2] at h; cases h
    | ok z2 =>
      rw [h1, h2] at h
      cases h
      refine ⟨⟨?_, ?_⟩, rfl, rfl, ?_, ?_⟩
      · cases zf with
        | none => simp only [setZFir] at h1; cases h1; simp
        | some z => simp only [setZFir] at h1; split at h1 <;> cases h1; assumption
      · cases zi with
        | none => simp only [setZIir] at h2; split at h2 <;> cases h2; simp; omega
        | some z => simp only [setZIir] at h2; split at h2 <;> cases h2; assumption
      · cases zf with
        | none => simp only [setZFir] at h1; cases h1; rfl
        | some z => simp only [setZFir] at h1; split at h1 <;> cases h1; rfl
      · cases zi with
        | none => simp only [setZIir] at h2; split at h2 <;> cases h2; rfl
        | some z => simp only [setZIir] at h2; split at h2 <;> cases h2; rfl

theorem filterProcess_ok (f : FilterObj F) (x : F) (h : FilterOk f) : FilterOk (filterProcess f x).2 := by
  obtain ⟨h1, h2⟩ := h
  constructor
  · simp [filterProcess, h1]
  · simp only [filterProcess, List.length_take, List.length_cons]; omega

theorem filterProcess_eq (f : FilterObj F) (x : F) (h : FilterOk f) (h0 : f.a.getD 0 0 ≠ 0) :
    f.a.getD 0 0 * (filterProcess f x).1 = ∑ i ∈ range f.b.length, f.b.getD i 0 * (x :: f.zFir).getD i 0
      - ∑ j ∈ Ico 1 f.a.length, f.a.getD j 0 * f.zIir.getD (j - 1) 0 := by
  obtain ⟨h1, h2⟩ := h
  have e : (filterProcess f x).1 = (dotL f.b ((x :: f.zFir).take f.b.length) - dotL (f.a.drop 1) f.zIir)
      / f.a.getD 0 0 := rfl
  rw [e, mul_div_cancel₀ _ h0, dotL_eq _ _ (by simp [h1]), dotL_eq _ _ (by rw [List.length_drop]; omega)]
  congr 1
  · refine sum_congr rfl fun i hi => ?_
    rw [take_getD _ _ _ _ (mem_range.1 hi)]
  · rw [sum_Ico_eq_sum_range, List.length_drop]
    refine sum_congr rfl fun i hi => ?_
    rw [drop_getD, Nat.add_sub_cancel_left]

theorem filterCall_length (store : F → F) (f : FilterObj F) (x : List F) :
    (filterCall store f x).1.length = x.length := by
  induction x generalizing f with
  | nil => rfl
  | cons x xs ih => simp [filterCall, ih]

theorem filterCall_ok (store : F → F) (f : FilterObj F) (x : List F) (h : FilterOk f) :
    FilterOk (filterCall store f x).2 := by
  induction x generalizing f with
  | nil => exact h
  | cons x xs ih => exact ih _ (filterProcess_ok f x h)

theorem filterCall_append (store : F → F) (f : FilterObj F) (x y : List F) :
    filterCall store f (x ++ y) = ((filterCall store f x).1 ++ (filterCall store (filterCall store f x).2 y).1,
      (filterCall store (filterCall store f x).2 y).2) := by
  induction x generalizing f with
  | nil => rfl
  | cons x xs ih =>
    simp only [List.cons_append, filterCall]
    rw [ih]

theorem filterCalls_flatten (store : F → F) (f : FilterObj F) (cs : List (List F)) :
    (filterCalls store f cs).1.flatten = (filterCall store f cs.flatten).1
      ∧ (filterCalls store f cs).2 = (filterCall store f cs.flatten).2 := by
  induction cs generalizing f with
  | nil => exact ⟨rfl, rfl⟩
  | cons c cs ih =>
    rw [List.flatten_cons, filterCall_append]
    obtain ⟨e1, e2⟩ := ih (filterCall store f c).2
    constructor
    · simp only [filterCalls, List.flatten_cons]; rw [e1]
    · simp only [filterCalls]; exact e2

theorem filterCalls_lengths (store : F → F) (f : FilterObj F) (cs : List (List F)) :
    (filterCalls store f cs).1.map List.length = cs.map List.length := by
  induction cs generalizing f with
  | nil => rfl
  | cons c cs ih => simp only [filterCalls, List.map_cons, ih, filterCall_length]

theorem filterCall_diffEq (f : FilterObj F) (x : List F) (h : FilterOk f) (h0 : f.a.getD 0 0 ≠ 0) (n : ℕ)
    (hn : n < x.length) :
    DiffEq f.b f.a (withPast f.zFir x) (withPast f.zIir (filterCall id f x).1) n := by
  induction x generalizing f n with
  | nil => simp at hn
  | cons x xs ih =>
    cases n with
    | zero =>
      unfold DiffEq
      rw [withPast_nat]
      show f.a.getD 0 0 * (filterProcess f x).1 = _
      rw [filterProcess_eq f x h h0]
      congr 1
      · refine sum_congr rfl fun i _ => ?_
        congr 1
        cases i with
        | zero => simp [withPast]
        | succ i =>
          rw [show ((0 : ℕ) : ℤ) - ((i + 1 : ℕ) : ℤ) = -(i : ℤ) - 1 by push_cast; ring, withPast_neg]; simp
      · refine sum_congr rfl fun j hj => ?_
        rw [mem_Ico] at hj
        congr 1
        rw [show ((0 : ℕ) : ℤ) - (j : ℤ) = -((j - 1 : ℕ) : ℤ) - 1 by omega, withPast_neg]
    | succ n =>
      have := ih (filterProcess f x).2 (filterProcess_ok f x h) h0 n (by simpa using hn)
      unfold DiffEq at this ⊢
      rw [withPast_nat] at this ⊢
      show f.a.getD 0 0 * (filterCall id (filterProcess f x).2 xs).1.getD n 0 = _
      refine Eq.trans this ?_
      show ∑ i ∈ range f.b.length, f.b.getD i 0 * withPast ((x :: f.zFir).take f.b.length) xs (n - i)
        - ∑ j ∈ Ico 1 f.a.length, f.a.getD j 0 * withPast
          (((filterProcess f x).1 :: f.zIir).take (f.a.length - 1)) (filterCall id (filterProcess f x).2 xs).1 (n - j)
        = _
      congr 1
      · refine sum_congr rfl fun i hi => ?_
        rw [mem_range] at hi
        rw [withPast_shift _ _ _ _ _ (by omega)]
        congr 2
        push_cast; ring
      · refine sum_congr rfl fun j hj => ?_
        rw [mem_Ico] at hj
        rw [withPast_shift _ _ _ _ _ (by omega)]
        congr 2
        push_cast; ring

/-- the difference equation determines the output -/
theorem diffEq_unique (b a : List F) (h0 : a.getD 0 0 ≠ 0) (hx hy x y y' : List F) (hl : y.length = y'.length)
    (h : ∀ n : ℕ, n < y.length → DiffEq b a (withPast hx x) (withPast hy y) n)
    (h' : ∀ n : ℕ, n < y.length → DiffEq b a (withPast hx x) (withPast hy y') n) : y = y' := by
  have key : ∀ n : ℕ, n < y.length → y.getD n 0 = y'.getD n 0 := by
    intro n
    induction n using Nat.strong_induction_on with
    | _ n ih =>
      intro hn
      have e := h n hn
      have e' := h' n hn
      unfold DiffEq at e e'
      rw [withPast_nat] at e e'
      have : ∑ j ∈ Ico 1 a.length, a.getD j 0 * withPast hy y (n - j)
          = ∑ j ∈ Ico 1 a.length, a.getD j 0 * withPast hy y' (n - j) := by
        refine sum_congr rfl fun j hj => ?_
        rw [mem_Ico] at hj
        congr 1
        rcases Nat.lt_or_ge n j with hlt | hge
        · rw [show (n : ℤ) - j = -((j - n - 1 : ℕ) : ℤ) - 1 by omega, withPast_neg, withPast_neg]
        · rw [show (n : ℤ) - j = ((n - j : ℕ) : ℤ) by omega, withPast_nat, withPast_nat]
          exact ih _ (by omega) (by omega)
      rw [this, ← e'] at e
      exact mul_left_cancel₀ h0 e
  exact ext_getD 0 hl key

/-! ### zero past -/

/-- a sum over the taps reads only the samples since time 0 when the past is empty -/
theorem sum_taps (c : List F) (x : List F) (n : ℕ) :
    ∑ i ∈ range c.length, c.getD i 0 * withPast [] x (n - i)
      = ∑ j ∈ range (n + 1), c.getD j 0 * x.getD (n - j) 0 := by
  have e1 : ∑ i ∈ range c.length, c.getD i 0 * withPast [] x (n - i)
      = ∑ i ∈ range (c.length + (n + 1)), c.getD i 0 * withPast [] x (n - i) := by
    rw [sum_range_add, sum_eq_zero (s := range (n + 1)), add_zero]
    intro i _
    rw [getD_of_le 0 _ (by omega), zero_mul]
  rw [e1, Nat.add_comm, sum_range_add, sum_eq_zero (s := range c.length), add_zero]
  · refine sum_congr rfl fun i hi => ?_
    rw [mem_range] at hi
    rw [show (n : ℤ) - (i : ℤ) = ((n - i : ℕ) : ℤ) by omega, withPast_nat]
  · intro i _
    rw [show (n : ℤ) - ((n + 1 + i : ℕ) : ℤ) = -(i : ℤ) - 1 by push_cast; ring, withPast_neg]
    simp

theorem sum_fb (a : List F) (y : List F) (n : ℕ) :
    ∑ j ∈ Ico 1 a.length, a.getD j 0 * withPast [] y (n - j)
      = ∑ j ∈ range n, a.getD (j + 1) 0 * y.getD (n - 1 - j) 0 := by
  rw [sum_Ico_eq_sum_range]
  rcases n with _ | n
  · rw [range_zero, sum_empty]
    refine sum_eq_zero fun j _ => ?_
    rw [show ((0 : ℕ) : ℤ) - ((1 + j : ℕ) : ℤ) = -(j : ℤ) - 1 by push_cast; ring, withPast_neg]
    simp
  · have := sum_taps (a.drop 1) y n
    rw [List.length_drop] at this
    simp only [drop_getD] at this
    refine Eq.trans (sum_congr rfl fun j _ => ?_) (this.trans (sum_congr rfl fun j _ => ?_))
    · congr 2; push_cast; ring
    · rw [Nat.add_comm 1 j, Nat.add_sub_cancel]

/-- `lfilter`'s recursion satisfies the difference equation up to the response of the memory -/
theorem lfRun_diff (b a z x : List F) (h0 : a.getD 0 0 ≠ 0) (hb : b.length ≤ z.length + 1)
    (ha : a.length ≤ z.length + 1) (n : ℕ) (hn : n < x.length) :
    a.getD 0 0 * (lfRun id (b.map (· / a.getD 0 0)) (a.map (· / a.getD 0 0)) z x).1.getD n 0
      = ∑ i ∈ range b.length, b.getD i 0 * withPast [] x (n - i)
        - ∑ j ∈ Ico 1 a.length, a.getD j 0
          * withPast [] (lfRun id (b.map (· / a.getD 0 0)) (a.map (· / a.getD 0 0)) z x).1 (n - j)
        + a.getD 0 0 * z.getD n 0 := by
  obtain ⟨c, hc⟩ : ∃ c, c = a.getD 0 0 := ⟨_, rfl⟩
  rw [← hc] at h0 ⊢
  obtain ⟨y, hy⟩ : ∃ y, y = (lfRun id (b.map (· / c)) (a.map (· / c)) z x).1 := ⟨_, rfl⟩
  have := lfRun_spec (b.map (· / c)) (a.map (· / c)) z x (by simpa using hb) (by simpa using ha) n hn
  rw [← hy] at this ⊢
  rw [sum_taps, sum_fb, this, mul_add, mul_sub, mul_sum, mul_sum]
  congr 2
  · refine sum_congr rfl fun j _ => ?_
    rw [map_div_getD]; field_simp
  · refine sum_congr rfl fun j _ => ?_
    rw [map_div_getD]; field_simp

/-! ### `FilterTII` -/

/-- a `FilterTII` object as built by its constructor -/
def TiiOk (t : TiiObj F) : Prop :=
  t.z.length + 1 = max t.b.length t.a.length ∧ t.bVec = padTail t.z.length t.b ∧ t.aVec = padTail t.z.length t.a

theorem tiiInit_ok (b a : List F) (hab : 0 < max b.length a.length) (z : Option (List F)) (t : TiiObj F)
    (h : tiiInit b a z = .ok t) :
    TiiOk t ∧ t.b = b ∧ t.a = a ∧ t.z = z.getD (List.replicate (max b.length a.length - 1) 0) := by
  unfold tiiInit at h
  cases h1 : setZ b a z with
  | error e => rw [h1] at h; cases h
  | ok z1 =>
    rw [h1] at h
    cases h
    cases z with
    | none =>
      simp only [setZ] at h1; cases h1
      exact ⟨⟨by simp only [List.length_replicate]; omega, rfl, rfl⟩, rfl, rfl, rfl⟩
    | some z =>
      simp only [setZ] at h1; split at h1 <;> cases h1
      exact ⟨⟨by assumption, rfl, rfl⟩, rfl, rfl, rfl⟩

theorem padTail_length (n : ℕ) (v : List F) (hv : 0 < v.length) (h : v.length ≤ n + 1) :
    (padTail n v).length = n := by
  simp only [padTail, List.length_append, List.length_drop, List.length_replicate]; omega

theorem append_zeros_getD (l : List F) (r q : ℕ) : (l ++ List.replicate r 0).getD q 0 = l.getD q 0 := by
  rcases Nat.lt_or_ge q l.length with h | h
  · simp [List.getD_eq_getElem?_getD, List.getElem?_append_left h]
  · rw [getD_of_le 0 l h]
    rcases Nat.lt_or_ge q (l.length + r) with h' | h'
    · simp only [List.getD_eq_getElem?_getD, List.getElem?_append_right h, List.getElem?_replicate]
      split <;> rfl
    · rw [getD_of_le 0 _ (by simpa using h')]

theorem padTail_getD (n : ℕ) (v : List F) (i : ℕ) : (padTail n v).getD i 0 = v.getD (i + 1) 0 := by
  rw [padTail, append_zeros_getD, drop_getD, Nat.add_comm]

theorem TiiOk.advance {t : TiiObj F} (h : TiiOk t) (hb : 0 < t.b.length) (ha : 0 < t.a.length)
    (hz : 0 < t.z.length) (x y : F) : (tiiAdvance t x y).length = t.z.length ∧
      ∀ i, (tiiAdvance t x y).getD i 0 = x * t.b.getD (i + 1) 0 + t.z.getD (i + 1) 0 - y * t.a.getD (i + 1) 0 := by
  obtain ⟨h1, h2, h3⟩ := h
  have lb : t.bVec.length = t.z.length := by rw [h2, padTail_length _ _ hb (by omega)]
  have la : t.aVec.length = t.z.length := by rw [h3, padTail_length _ _ ha (by omega)]
  have hl : (tiiAdvance t x y).length = t.z.length := by
    simp only [tiiAdvance, addL, List.length_zipWith, List.length_map, List.length_append, List.length_drop,
      List.length_singleton, la, lb]
    omega
  refine ⟨hl, fun i => ?_⟩
  rcases Nat.lt_or_ge i t.z.length with hi | hi
  · simp only [tiiAdvance, addL]
    have lz : (t.z.drop 1 ++ [0]).length = t.z.length := by
      simp only [List.length_append, List.length_drop, List.length_singleton]; omega
    rw [zipWith_getD _ 0 0 0 _ _ (by simp only [List.length_zipWith, List.length_map, lz, lb]; omega)
      (by rw [List.length_map, la]; exact hi),
      zipWith_getD _ 0 0 0 _ _ (by rw [List.length_map, lb]; exact hi) (by rw [lz]; exact hi),
      getD_map_lt _ 0 0 _ (by rw [lb]; exact hi), getD_map_lt _ 0 0 _ (by rw [la]; exact hi), h2, h3,
      padTail_getD, padTail_getD]
    have := append_zeros_getD (t.z.drop 1) 1 i
    rw [show List.replicate 1 (0 : F) = [0] from rfl] at this
    rw [this, drop_getD, Nat.add_comm 1 i]
  · rw [getD_of_le 0 _ (by omega), getD_of_le 0 t.z (by omega), getD_of_le 0 t.b (by omega),
      getD_of_le 0 t.a (by omega)]
    simp

/-- one step of the transposed form with the fed back value `φ y` -/
def tiiStep (φ : F → F) (t : TiiObj F) (x : F) : F × TiiObj F :=
  let y := (t.b.getD 0 0 * x + t.z.getD 0 0) / t.a.getD 0 0
  (y, { t with z := tiiAdvance t x (φ y) })

/-- all steps -/
def tiiRun (φ : F → F) : TiiObj F → List F → List F × TiiObj F
  | t, [] => ([], t)
  | t, x :: xs => ((tiiStep φ t x).1 :: (tiiRun φ (tiiStep φ t x).2 xs).1, (tiiRun φ (tiiStep φ t x).2 xs).2)

/-- all lists involved are non-empty -/
def TiiPos (t : TiiObj F) : Prop := 0 < t.b.length ∧ 0 < t.a.length ∧ 0 < t.z.length

theorem tiiStep_ok (φ : F → F) (t : TiiObj F) (x : F) (h : TiiOk t) (hp : TiiPos t) :
    TiiOk (tiiStep φ t x).2 ∧ TiiPos (tiiStep φ t x).2 := by
  have hl : (tiiStep φ t x).2.z.length = t.z.length := (h.advance hp.1 hp.2.1 hp.2.2 x (φ (tiiStep φ t x).1)).1
  obtain ⟨h1, h2, h3⟩ := h
  refine ⟨⟨?_, ?_, ?_⟩, hp.1, hp.2.1, ?_⟩
  · show (tiiStep φ t x).2.z.length + 1 = _
    rw [hl]; exact h1
  · show t.bVec = padTail (tiiStep φ t x).2.z.length t.b
    rw [hl]; exact h2
  · show t.aVec = padTail (tiiStep φ t x).2.z.length t.a
    rw [hl]; exact h3
  · show 0 < (tiiStep φ t x).2.z.length
    rw [hl]; exact hp.2.2

theorem tiiRun_ok (φ : F → F) (t : TiiObj F) (x : List F) (h : TiiOk t) (hp : TiiPos t) :
    TiiOk (tiiRun φ t x).2 ∧ TiiPos (tiiRun φ t x).2 := by
  induction x generalizing t with
  | nil => exact ⟨h, hp⟩
  | cons x xs ih => exact ih _ (tiiStep_ok φ t x h hp).1 (tiiStep_ok φ t x h hp).2

theorem tiiRun_length (φ : F → F) (t : TiiObj F) (x : List F) : (tiiRun φ t x).1.length = x.length := by
  induction x generalizing t with
  | nil => rfl
  | cons x xs ih => simp [tiiRun, ih]

theorem tiiRun_append (φ : F → F) (t : TiiObj F) (x y : List F) :
    tiiRun φ t (x ++ y) = ((tiiRun φ t x).1 ++ (tiiRun φ (tiiRun φ t x).2 y).1, (tiiRun φ (tiiRun φ t x).2 y).2) := by
  induction x generalizing t with
  | nil => rfl
  | cons x xs ih =>
    simp only [List.cons_append, tiiRun]
    rw [ih]

/-- the outputs of the transposed form, with feedback through `φ` -/
theorem tiiRun_spec (φ : F → F) (t : TiiObj F) (x : List F) (h : TiiOk t) (hp : TiiPos t)
    (h0 : t.a.getD 0 0 ≠ 0) (n : ℕ) (hn : n < x.length) :
    t.a.getD 0 0 * (tiiRun φ t x).1.getD n 0
      = ∑ j ∈ range (n + 1), t.b.getD j 0 * x.getD (n - j) 0
        - ∑ j ∈ range n, t.a.getD (j + 1) 0 * φ ((tiiRun φ t x).1.getD (n - 1 - j) 0) + t.z.getD n 0 := by
  induction x generalizing t n with
  | nil => simp at hn
  | cons x xs ih =>
    have hy : t.a.getD 0 0 * (tiiStep φ t x).1 = t.b.getD 0 0 * x + t.z.getD 0 0 := by
      show _ * ((t.b.getD 0 0 * x + t.z.getD 0 0) / t.a.getD 0 0) = _
      rw [mul_div_cancel₀ _ h0]
    cases n with
    | zero =>
      show t.a.getD 0 0 * (tiiStep φ t x).1 = _
      rw [hy]
      simp
    | succ n =>
      have s := tiiStep_ok φ t x h hp
      have e := ih (tiiStep φ t x).2 s.1 s.2 h0 n (by simpa using hn)
      have ez := (h.advance hp.1 hp.2.1 hp.2.2 x (φ (tiiStep φ t x).1)).2 n
      show t.a.getD 0 0 * (tiiRun φ (tiiStep φ t x).2 xs).1.getD n 0 = _
      refine Eq.trans e ?_
      show ∑ j ∈ range (n + 1), t.b.getD j 0 * xs.getD (n - j) 0
        - ∑ j ∈ range n, t.a.getD (j + 1) 0 * φ ((tiiRun φ (tiiStep φ t x).2 xs).1.getD (n - 1 - j) 0)
        + (tiiAdvance t x (φ (tiiStep φ t x).1)).getD n 0 = _
      rw [ez, sum_range_succ (n := n + 1), sum_range_succ (n := n)
        (f := fun j => t.a.getD (j + 1) 0 * φ ((tiiRun φ t (x :: xs)).1.getD (n + 1 - 1 - j) 0))]
      have s1 : ∑ j ∈ range (n + 1), t.b.getD j 0 * (x :: xs).getD (n + 1 - j) 0
          = ∑ j ∈ range (n + 1), t.b.getD j 0 * xs.getD (n - j) 0 := by
        refine sum_congr rfl fun j hj => ?_
        rw [mem_range] at hj
        rw [show n + 1 - j = (n - j) + 1 by omega, List.getD_cons_succ]
      have s2 : ∑ j ∈ range n, t.a.getD (j + 1) 0 * φ ((tiiRun φ t (x :: xs)).1.getD (n + 1 - 1 - j) 0)
          = ∑ j ∈ range n, t.a.getD (j + 1) 0 * φ ((tiiRun φ (tiiStep φ t x).2 xs).1.getD (n - 1 - j) 0) := by
        refine sum_congr rfl fun j hj => ?_
        rw [mem_range] at hj
        rw [show n + 1 - 1 - j = (n - 1 - j) + 1 by omega]
        rfl
      have s3 : (tiiRun φ t (x :: xs)).1.getD (n + 1 - 1 - n) 0 = (tiiStep φ t x).1 := by
        rw [show n + 1 - 1 - n = 0 by omega]; rfl
      have s4 : (x :: xs).getD (n + 1 - (n + 1)) 0 = x := by simp
      rw [s1, s2, s3, s4]
      ring

theorem tiiProcess_eq (t : TiiObj F) (x : F) (hp : TiiPos t) : tiiProcess t x = .ok (tiiStep id t x) := by
  unfold tiiProcess
  rw [if_neg (by obtain ⟨h1, h2, h3⟩ := hp; omega)]
  rfl

theorem tiiCall_eq (process : TiiObj F → F → Py (F × TiiObj F)) (φ : F → F)
    (hpr : ∀ t x, TiiPos t → process t x = .ok (tiiStep φ t x)) (t : TiiObj F) (x : List F)
    (h : TiiOk t) (hp : TiiPos t) (store : F → F) :
    tiiCall process store t x = .ok ((tiiRun φ t x).1.map store, (tiiRun φ t x).2) := by
  induction x generalizing t with
  | nil => rfl
  | cons x xs ih =>
    have s := tiiStep_ok φ t x h hp
    simp only [tiiCall, hpr t x hp]
    show ((tiiCall process store (tiiStep φ t x).2 xs).bind _) = _
    rw [ih _ s.1 s.2]
    rfl

theorem tiiCalls_eq (process : TiiObj F → F → Py (F × TiiObj F)) (φ : F → F)
    (hpr : ∀ t x, TiiPos t → process t x = .ok (tiiStep φ t x)) (t : TiiObj F) (cs : List (List F))
    (h : TiiOk t) (hp : TiiPos t) (store : F → F) :
    ∃ ys, tiiCalls process store t cs = .ok (ys, (tiiRun φ t cs.flatten).2) ∧
      ys.map List.length = cs.map List.length ∧ ys.flatten = (tiiRun φ t cs.flatten).1.map store := by
  induction cs generalizing t with
  | nil => exact ⟨[], rfl, rfl, rfl⟩
  | cons c cs ih =>
    have s := tiiRun_ok φ t c h hp
    obtain ⟨ys, e1, e2, e3⟩ := ih _ s.1 s.2
    refine ⟨(tiiRun φ t c).1.map store :: ys, ?_, ?_, ?_⟩
    · simp only [tiiCalls, tiiCall_eq process φ hpr t c h hp store]
      show ((tiiCalls process store (tiiRun φ t c).2 cs).bind _) = _
      rw [e1, List.flatten_cons, tiiRun_append]
      rfl
    · simp [e2, tiiRun_length]
    · rw [List.flatten_cons, List.flatten_cons, tiiRun_append, e3, List.map_append]

/-! ### `awgn_channel` -/

/-- the memory used when none is given -/
def restMemory (b a : List F) : List F := List.replicate (max b.length a.length - 1) 0

theorem awgnChannel_eq [DecidableEq F] (x b : List F) (a : Denom F) (zi : Option (List F)) (hb : 0 < b.length)
    (ha : 0 < a.coeffs.length) (h0 : a.coeffs.getD 0 0 ≠ 0)
    (hz : ∀ z, zi = some z → z.length = max b.length a.coeffs.length - 1)
    (hx : a.coeffs.length ≠ 1 ∨ 0 < x.length) :
    awgnChannel x b a zi = .ok (lfRun id (b.map (· / a.coeffs.getD 0 0)) (a.coeffs.map (· / a.coeffs.getD 0 0))
      (zi.getD (restMemory b a.coeffs)) x) := by
  have hr : channelRest b a = restMemory b a.coeffs := by
    cases a with
    | vec a => simp only [Denom.coeffs, Nat.max_comm, restMemory, channelRest]
    | num a => simp [Denom.coeffs, Nat.max_comm, restMemory, channelRest]
  have hl : (zi.getD (restMemory b a.coeffs)).length = max b.length a.coeffs.length - 1 := by
    cases zi with
    | some z => exact hz z rfl
    | none => simp [restMemory]
  unfold awgnChannel lfilter
  rw [hr, if_neg (by rintro (h | h | h) <;> first | exact h0 h | omega), if_neg (by rw [hl]; simp),
    if_neg (by omega)]

/-- `p u + q v`, element by element -/
def linComb (p q : F) (u v : List F) : List F := List.zipWith (fun s t => p * s + q * t) u v

theorem linComb_getD (p q : F) (u v : List F) (h : u.length = v.length) (i : ℕ) :
    (linComb p q u v).getD i 0 = p * u.getD i 0 + q * v.getD i 0 := by
  unfold linComb
  rcases Nat.lt_or_ge i u.length with hi | hi
  · rw [zipWith_getD _ 0 0 0 _ _ hi (by omega)]
  · rw [getD_of_le 0 _ (by simp; omega), getD_of_le 0 _ hi, getD_of_le 0 v (by omega)]; ring

theorem linComb_length (p q : F) (u v : List F) (h : u.length = v.length) :
    (linComb p q u v).length = u.length := by
  simp [linComb, h]

theorem lfStep_linear (b a : List F) (p q : F) (z w : List F) (h : z.length = w.length) (x y : F) :
    lfStep id b a (linComb p q z w) (p * x + q * y)
      = (p * (lfStep id b a z x).1 + q * (lfStep id b a w y).1,
        linComb p q (lfStep id b a z x).2 (lfStep id b a w y).2) := by
  have e1 : (lfStep id b a (linComb p q z w) (p * x + q * y)).1
      = p * (lfStep id b a z x).1 + q * (lfStep id b a w y).1 := by
    show (linComb p q z w).getD 0 0 + b.getD 0 0 * (p * x + q * y)
      = p * (z.getD 0 0 + b.getD 0 0 * x) + q * (w.getD 0 0 + b.getD 0 0 * y)
    rw [linComb_getD _ _ _ _ h]; ring
  refine Prod.ext e1 (ext_getD 0 ?_ ?_)
  · show _ = (linComb p q (lfStep id b a z x).2 (lfStep id b a w y).2).length
    rw [lfStep_state_length, linComb_length p q _ _ h, linComb_length p q _ _ (by simp [lfStep_state_length, h]),
      lfStep_state_length]
  · intro i hi
    show _ = (linComb p q (lfStep id b a z x).2 (lfStep id b a w y).2).getD i 0
    rw [lfStep_state_length, linComb_length _ _ _ _ h] at hi
    have st : ∀ (z : List F) (x : F), i < z.length → (lfStep id b a z x).2.getD i 0
        = z.getD (i + 1) 0 + x * b.getD (i + 1) 0 - (lfStep id b a z x).1 * a.getD (i + 1) 0 := by
      intro z x hi
      unfold lfStep
      simp only [id]
      rw [getD_map_lt _ 0 0 _ (by simpa using hi), getD_of_lt 0 (List.range _) (by simpa using hi),
        List.getElem_range]
    rw [st _ _ (by rw [linComb_length _ _ _ _ h]; exact hi),
      linComb_getD p q (lfStep id b a z x).2 (lfStep id b a w y).2 (by simp [lfStep_state_length, h]), st z x hi,
      st w y (by omega), e1, linComb_getD _ _ _ _ h]
    ring

theorem lfRun_linear (b a : List F) (p q : F) (z w : List F) (h : z.length = w.length) (x y : List F)
    (hl : x.length = y.length) :
    lfRun id b a (linComb p q z w) (linComb p q x y)
      = (linComb p q (lfRun id b a z x).1 (lfRun id b a w y).1,
        linComb p q (lfRun id b a z x).2 (lfRun id b a w y).2) := by
  induction x generalizing z w y with
  | nil => cases y with
    | nil => rfl
    | cons => simp at hl
  | cons x xs ih => cases y with
    | nil => simp at hl
    | cons y ys =>
      have := ih (lfStep id b a z x).2 (lfStep id b a w y).2 (by simp [lfStep_state_length, h]) ys
        (by simpa using hl)
      show ((lfStep id b a (linComb p q z w) (p * x + q * y)).1 ::
        (lfRun id b a (lfStep id b a (linComb p q z w) (p * x + q * y)).2 (linComb p q xs ys)).1,
        (lfRun id b a (lfStep id b a (linComb p q z w) (p * x + q * y)).2 (linComb p q xs ys)).2) = _
      rw [lfStep_linear _ _ _ _ _ _ h, this]
      rfl

theorem awgnChannelChunks_eq [DecidableEq F] (b : List F) (a : Denom F) (hb : 0 < b.length)
    (ha : 0 < a.coeffs.length) (h0 : a.coeffs.getD 0 0 ≠ 0) (cs : List (List F)) (zi : Option (List F))
    (hz : ∀ z, zi = some z → z.length = max b.length a.coeffs.length - 1)
    (hx : a.coeffs.length ≠ 1 ∨ ∀ c ∈ cs, 0 < c.length) :
    ∃ ys zo, awgnChannelChunks b a zi cs = .ok (ys, zo) ∧ ys.map List.length = cs.map List.length ∧
      ys.flatten = (lfRun id (b.map (· / a.coeffs.getD 0 0)) (a.coeffs.map (· / a.coeffs.getD 0 0))
        (zi.getD (restMemory b a.coeffs)) cs.flatten).1 ∧
      zo.getD (restMemory b a.coeffs) = (lfRun id (b.map (· / a.coeffs.getD 0 0))
        (a.coeffs.map (· / a.coeffs.getD 0 0)) (zi.getD (restMemory b a.coeffs)) cs.flatten).2 ∧
      (cs ≠ [] → zo ≠ none) := by
  induction cs generalizing zi with
  | nil => exact ⟨[], zi, rfl, rfl, rfl, rfl, fun h => absurd rfl h⟩
  | cons c cs ih =>
    have e := awgnChannel_eq c b a zi hb ha h0 hz (hx.imp id fun h => h c (by simp))
    obtain ⟨r, hr⟩ : ∃ r, r = lfRun id (b.map (· / a.coeffs.getD 0 0)) (a.coeffs.map (· / a.coeffs.getD 0 0))
      (zi.getD (restMemory b a.coeffs)) c := ⟨_, rfl⟩
    rw [← hr] at e
    have hlen : r.2.length = max b.length a.coeffs.length - 1 := by
      rw [hr, lfRun_state_length]
      cases zi with
      | none => simp [restMemory]
      | some z => exact hz z rfl
    obtain ⟨ys, zo, e1, e2, e3, e4, e5⟩ := ih (some r.2) (by intro z hz; cases hz; exact hlen)
      (hx.imp id fun h c' hc' => h c' (by simp [hc']))
    refine ⟨r.1 :: ys, zo, ?_, ?_, ?_, ?_, ?_⟩
    · simp only [awgnChannelChunks, e]
      show ((awgnChannelChunks b a (some r.2) cs).bind _) = _
      rw [e1]; rfl
    · simp [e2, hr, lfRun_length]
    · rw [List.flatten_cons, List.flatten_cons, lfRun_append, e3, ← hr]; rfl
    · rw [List.flatten_cons, lfRun_append, e4, ← hr]; rfl
    · intro _
      cases cs with
      | nil => simp only [awgnChannelChunks] at e1; cases e1; simp
      | cons => exact e5 (by simp)

end Verif
