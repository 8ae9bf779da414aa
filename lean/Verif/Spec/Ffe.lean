import Verif.Spec.Filter
import Verif.Spec.Slicer
import Mathlib.Algebra.BigOperators.Group.Finset.Basic

/-! Independent specification of a feed-forward / decision-feedback equalizer. -/

open Finset

namespace Verif.Spec

variable {K : Type} [Field K] [LinearOrder K]

/-- With `osr` samples per symbol, symbol `k` is decided from sample `k*osr + φ` and the decision is fed
back from `osr/2` samples later on. Number of decisions that are fed back at sample `n`. -/
def decisionsBefore (osr φ n : ℕ) : ℕ := #{k ∈ range n | k * osr + φ + osr / 2 < n}

/-- The `j`-th most recent fed back decision at sample `n`: `d` are the decisions of all samples, `zi` the
decisions of the symbols before the first one (most recent first). -/
def fedBack (osr φ : ℕ) (zi d : List K) (n j : ℕ) : K :=
  if j < decisionsBefore osr φ n then d.getD ((decisionsBefore osr φ n - 1 - j) * osr + φ) 0
  else zi.getD (j - decisionsBefore osr φ n) 0

/-- `y` are the slicer inputs and `d` the decisions of the equalizer with feed-forward taps `ffe` and
feedback taps `dfe` for input `x`, preceded by the samples `h` (most recent first). -/
structure IsEqualizer (ffe dfe levels : List K) (osr φ : ℕ) (h zi x y d : List K) : Prop where
  length_y : y.length = x.length
  length_d : d.length = x.length
  slicer_in : ∀ n : ℕ, n < x.length → y.getD n 0 = ∑ i ∈ range ffe.length, ffe.getD i 0 * withPast h x (n - i)
    - ∑ j ∈ range dfe.length, dfe.getD j 0 * fedBack osr φ zi d n j
  decision : ∀ n : ℕ, n < x.length → NearestFirst levels (y.getD n 0) (d.getD n 0)

end Verif.Spec
