import Verif.Spec.Float
import Mathlib.Algebra.BigOperators.Group.Finset.Basic

/-! Correlation and convolution routines that round, and the response of a channel with its equalizer. -/

open Finset

namespace Verif.Spec

/-- `cor` is `scipy.signal.correlate(a, v, mode='valid')`, `len(a) >= len(v)`, by direct summation in any order in
an arithmetic that rounds by `r`. -/
def IsCorrelate (r : ℝ → ℝ) (cor : List ℝ → List ℝ → List ℝ) : Prop :=
  ∀ a v : List ℝ, 0 < v.length → v.length ≤ a.length → (cor a v).length = a.length - v.length + 1 ∧
    ∀ k ≤ a.length - v.length,
      RoundedDot r ((List.range v.length).map fun l => (a.getD (k + l) 0, v.getD l 0)) ((cor a v).getD k 0)

/-- `conv` is `scipy.signal.convolve(b, y, mode='valid')`, `len(y) >= len(b)`, by direct summation in any order in
an arithmetic that rounds by `r`. -/
def IsConvValid (r : ℝ → ℝ) (conv : List ℝ → List ℝ → List ℝ) : Prop :=
  ∀ b y : List ℝ, 0 < b.length → b.length ≤ y.length → (conv b y).length = y.length - b.length + 1 ∧
    ∀ n ≤ y.length - b.length,
      RoundedDot r ((List.range b.length).map fun i => (b.getD i 0, y.getD (n + b.length - 1 - i) 0)) ((conv b y).getD n 0)

/-- `dot` is `ndarray.dot` of vectors of equal length by summation in any order in an arithmetic that rounds by `r` -/
def IsDot (r : ℝ → ℝ) (dot : List ℝ → List ℝ → ℝ) : Prop :=
  ∀ a b : List ℝ, a.length = b.length → RoundedDot r (a.zip b) (dot a b)

/-- tap `m` of the channel `b` followed by the equalizer `f` -/
def cascadeTap (f b : List ℝ) (m : ℕ) : ℝ :=
  ∑ i ∈ range f.length, if i ≤ m then f.getD i 0 * b.getD (m - i) 0 else 0

/-- what the channel `b` with the equalizer `f` leaves besides a delay by `k` symbols: sum of the magnitudes of
the deviations of the taps -/
def residualIsi (f b : List ℝ) (k : ℕ) : ℝ :=
  ∑ m ∈ range (f.length + b.length - 1), |cascadeTap f b m - if m = k then 1 else 0|

end Verif.Spec
