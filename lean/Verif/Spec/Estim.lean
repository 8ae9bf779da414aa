import Mathlib.Algebra.BigOperators.Group.Finset.Basic
import Mathlib.Algebra.Order.Field.Basic

/-! Independent specification for equalizer and channel estimation. -/

open Finset

namespace Verif.Spec

variable {K : Type} [Field K] [LinearOrder K]

/-- Equalizer output for symbol `n` with ideal decisions: the newest of the samples seen by the FFE is sample
`n + len(ffe) - 1`, the oldest sample `n`; the DFE subtracts the `len(dfe) ≤ n` previous symbols `a`. -/
def eqOutput (ffe dfe : List K) (s a : ℕ → K) (n : ℕ) : K :=
  ∑ k ∈ range ffe.length, ffe.getD k 0 * s (n + (ffe.length - 1) - k)
    - ∑ k ∈ range dfe.length, dfe.getD k 0 * a (n - 1 - k)

/-- a finite signal continued by its own reflection at the last sample -/
def mirrored (s : List K) (t : ℕ) : K := if t < s.length then s.getD t 0 else s.getD (2 * s.length - 2 - t) 0

/-- a solver of `A x = b` in the least squares sense: `x` has the right length and no vector of that length gives a
smaller sum of squares -/
def IsLs (solve : List (List K) → List K → Option (List K)) (cols : ℕ) : Prop :=
  ∀ (A : List (List K)) (b : List K), A.length = b.length → (∀ r ∈ A, r.length = cols) →
    ∃ x, solve A b = some x ∧ x.length = cols ∧ ∀ y : List K, y.length = cols →
      ∑ i ∈ range b.length, (∑ j ∈ range cols, (A.getD i []).getD j 0 * x.getD j 0 - b.getD i 0) ^ 2
        ≤ ∑ i ∈ range b.length, (∑ j ∈ range cols, (A.getD i []).getD j 0 * y.getD j 0 - b.getD i 0) ^ 2

end Verif.Spec
