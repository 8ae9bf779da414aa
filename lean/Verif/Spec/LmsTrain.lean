import Verif.Spec.Lms

/-! Independent specification of training by the mean squared error. -/

open Finset

namespace Verif.Spec

/-- mean squared error over `N` symbols of the equalizer with taps `b`, `a` -/
noncomputable def tapMse (I J : Finset ℤ) (Y D : ℤ → ℝ) (N : ℕ) (b a : ℤ → ℝ) : ℝ :=
  meanLoss (Ico 0 (N : ℤ)) (fun n => (equalized I J b a Y D n - D n) ^ 2)

/-- mean power of the samples of `x` that a tap of delay `i` sees in a block of `N` -/
noncomputable def tapPower (x : ℤ → ℝ) (N : ℕ) (i : ℤ) : ℝ := meanLoss (tapSamples N i) (fun n => x (n - i) ^ 2)

/-- the signal is confined to the block of `N` samples -/
def Confined (x : ℤ → ℝ) (N : ℕ) : Prop := ∀ n, n < 0 ∨ (N : ℤ) ≤ n → x n = 0

/-- squared distance of two settings of the trained taps `F`, `G` -/
noncomputable def tapDist (F G : Finset ℤ) (b a b' a' : ℤ → ℝ) : ℝ :=
  ∑ i ∈ F, (b i - b' i) ^ 2 + ∑ j ∈ G, (a j - a' j) ^ 2

/-- mean squared error of the FFE with taps `t` on the record `y`, at rest before it, against the symbols `d` -/
noncomputable def ffeMse (y d t : List ℝ) : ℝ :=
  (∑ n ∈ range y.length, (∑ i ∈ range t.length, t.getD i 0 * (if i ≤ n then y.getD (n - i) 0 else 0) - d.getD n 0) ^ 2)
    / y.length

end Verif.Spec
