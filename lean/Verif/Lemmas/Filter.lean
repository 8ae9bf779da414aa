import Verif.Model.Filter
import Verif.Lemmas.ListAux
import Verif.Lemmas.Coding
import Mathlib.Algebra.BigOperators.Group.Finset.Basic
import Mathlib.Algebra.BigOperators.Intervals
import Mathlib.Algebra.BigOperators.Ring.Finset
import Mathlib.Tactic.Ring
import Mathlib.Tactic.LinearCombination

/-! Lemmas: the direct form II recursion solves the difference equation. -/

namespace Verif

variable {K : Type*}

theorem lfRun_length [Ring K] (rnd : K → K) (b a z x : List K) : (lfRun rnd b a z x).1.length = x.length := by
  induction x generalizing z with
  | nil => rfl
  | cons x xs ih => simp [lfRun, ih]

theorem lfStep_state_length [Ring K] (rnd : K → K) (b a z : List K) (x : K) :
    (lfStep rnd b a z x).2.length = z.length := by simp [lfStep]

theorem lfRun_state_length [Ring K] (rnd : K → K) (b a z x : List K) : (lfRun rnd b a z x).2.length = z.length := by
  induction x generalizing z with
  | nil => rfl
  | cons x xs ih =>
    show (lfRun rnd b a (lfStep rnd b a z x).2 xs).2.length = _
    rw [ih, lfStep_state_length]

/-- streaming: filtering in two pieces with the delay line carried over -/
theorem lfRun_append [Ring K] (rnd : K → K) (b a z x y : List K) :
    lfRun rnd b a z (x ++ y) = ((lfRun rnd b a z x).1 ++ (lfRun rnd b a (lfRun rnd b a z x).2 y).1,
      (lfRun rnd b a (lfRun rnd b a z x).2 y).2) := by
  induction x generalizing z with
  | nil => rfl
  | cons x xs ih =>
    simp only [List.cons_append, lfRun]
    rw [ih]

theorem lfStep_id_state [CommRing K] (b a z : List K) (x : K) (hb : b.length ≤ z.length + 1)
    (ha : a.length ≤ z.length + 1) (n : ℕ) :
    (lfStep id b a z x).2.getD n 0
      = z.getD (n + 1) 0 + x * b.getD (n + 1) 0 - (lfStep id b a z x).1 * a.getD (n + 1) 0 := by
  rcases Nat.lt_or_ge n z.length with h | h
  · unfold lfStep
    simp only [id]
    rw [getD_map_lt _ 0 0 _ (by simpa using h), getD_of_lt 0 (List.range _) (by simpa using h)]
    simp
  · rw [getD_of_le 0 (lfStep id b a z x).2 (by rw [lfStep_state_length]; exact h),
      getD_of_le 0 z (by omega), getD_of_le 0 b (by omega), getD_of_le 0 a (by omega)]
    ring

/-- difference equation of the exact recursion -/
theorem lfRun_spec [CommRing K] (b a z x : List K) (hb : b.length ≤ z.length + 1)
    (ha : a.length ≤ z.length + 1) (n : ℕ) (hn : n < x.length) :
    (lfRun id b a z x).1.getD n 0
      = ∑ j ∈ Finset.range (n + 1), b.getD j 0 * x.getD (n - j) 0
        - ∑ j ∈ Finset.range n, a.getD (j + 1) 0 * (lfRun id b a z x).1.getD (n - 1 - j) 0 + z.getD n 0 := by
  induction x generalizing z n with
  | nil => simp at hn
  | cons x xs ih =>
    cases n with
    | zero => simp [lfRun, lfStep, add_comm]
    | succ n =>
      have hz := lfStep_id_state b a z x hb ha n
      set s := lfStep id b a z x with hs
      have hl : s.2.length = z.length := lfStep_state_length _ _ _ _ _
      have h := ih s.2 (by omega) (by omega) n (by simpa using hn)
      have e1 : (lfRun id b a z (x :: xs)).1 = s.1 :: (lfRun id b a s.2 xs).1 := rfl
      rw [e1, List.getD_cons_succ, h, hz, Finset.sum_range_succ (fun j => b.getD j 0 * (x :: xs).getD (n + 1 - j) 0) (n + 1),
        Finset.sum_range_succ (fun j => a.getD (j + 1) 0 * (s.1 :: (lfRun id b a s.2 xs).1).getD (n + 1 - 1 - j) 0) n]
      have e2 : ∑ j ∈ Finset.range (n + 1), b.getD j 0 * (x :: xs).getD (n + 1 - j) 0
          = ∑ j ∈ Finset.range (n + 1), b.getD j 0 * xs.getD (n - j) 0 := by
        refine Finset.sum_congr rfl (fun j hj => ?_)
        rw [Finset.mem_range] at hj
        rw [show n + 1 - j = n - j + 1 by omega, List.getD_cons_succ]
      have e3 : ∑ j ∈ Finset.range n, a.getD (j + 1) 0 * (s.1 :: (lfRun id b a s.2 xs).1).getD (n + 1 - 1 - j) 0
          = ∑ j ∈ Finset.range n, a.getD (j + 1) 0 * (lfRun id b a s.2 xs).1.getD (n - 1 - j) 0 := by
        refine Finset.sum_congr rfl (fun j hj => ?_)
        rw [Finset.mem_range] at hj
        rw [show n + 1 - 1 - j = n - 1 - j + 1 by omega, List.getD_cons_succ]
      rw [e2, e3]
      simp only [Nat.sub_self, List.getD_cons_zero, Nat.add_sub_cancel]
      ring

/-- uniqueness: any solution of the difference equation is the output -/
theorem lfRun_unique [CommRing K] (b a z x : List K) (hb : b.length ≤ z.length + 1)
    (ha : a.length ≤ z.length + 1) (y : ℕ → K)
    (hy : ∀ n < x.length, y n = ∑ j ∈ Finset.range (n + 1), b.getD j 0 * x.getD (n - j) 0
        - ∑ j ∈ Finset.range n, a.getD (j + 1) 0 * y (n - 1 - j) + z.getD n 0) (n : ℕ) (hn : n < x.length) :
    (lfRun id b a z x).1.getD n 0 = y n := by
  induction n using Nat.strong_induction_on with
  | _ n ih =>
    rw [lfRun_spec b a z x hb ha n hn, hy n hn]
    congr 2
    refine Finset.sum_congr rfl (fun j hj => ?_)
    rw [Finset.mem_range] at hj
    rw [ih (n - 1 - j) (by omega) (by omega)]

end Verif
