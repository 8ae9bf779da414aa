import Mathlib.Analysis.SpecialFunctions.Log.Basic
import Mathlib.Analysis.SpecialFunctions.Sqrt
import Mathlib.Analysis.SpecialFunctions.Trigonometric.Basic
import Verif.Spec.Slicer

/-! Independent specification of the equalizer losses as functions of the taps, and of the timing error. -/

open Finset

namespace Verif.Spec

/-- the samples `n` of a block of `N` for which a tap of delay `i` sees data: `n` and `n - i` are in the block -/
noncomputable def tapSamples (N : ℕ) (i : ℤ) : Finset ℤ := (Ico 0 (N : ℤ)).filter (fun n => 0 ≤ n - i ∧ n - i < N)

/-- output of the equalizer with FFE taps `b` (delays `I`) and DFE taps `a` (delays `J`) for the input `y` and
the decisions `d` -/
noncomputable def equalized (I J : Finset ℤ) (b a y d : ℤ → ℝ) (n : ℤ) : ℝ :=
  ∑ i ∈ I, b i * y (n - i) - ∑ j ∈ J, a j * d (n - j)

/-- mean of a loss per sample over a set of samples -/
noncomputable def meanLoss (S : Finset ℤ) (l : ℤ → ℝ) : ℝ := (∑ n ∈ S, l n) / S.card

/-- density of the equiprobable mixture of Gaussians around the levels -/
noncomputable def mixture (levels : List ℝ) (σ x : ℝ) : ℝ :=
  (levels.map fun μ => Real.exp (-(x - μ) ^ 2 / (2 * σ ^ 2)) / Real.sqrt (2 * Real.pi * σ ^ 2)).sum / levels.length

/-- `d` is the reference of the outputs `o`: the one supplied, otherwise the nearest levels -/
def IsReference {K : Type} [Field K] [LinearOrder K] (levels o : List K) (ref : Option (List K)) (d : List K) : Prop :=
  d.length = o.length ∧
    (ref = some d ∨ ref = none ∧ ∀ n, n < o.length → NearestFirst levels (o.getD n 0) (d.getD n 0))

/-- the block `l` is the part `0 .. N-1` of the signal `x` -/
def IsBlock (x : ℤ → ℝ) (l : List ℝ) : Prop := ∀ n : ℕ, n < l.length → x n = l.getD n 0

/-- Mueller-Muller timing error of `N` symbols `r` received as `s` -/
def timingError {K : Type} [Field K] (N : ℕ) (s r : ℕ → K) (preW postW : K) : K :=
  postW * ((∑ k ∈ range (N - 1), r k * s (k + 1)) / ((N : K) - 1))
    - preW * ((∑ k ∈ range (N - 1), r (k + 1) * s k) / ((N : K) - 1))

end Verif.Spec
