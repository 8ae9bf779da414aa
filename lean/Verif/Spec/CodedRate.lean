import Verif.Spec.BlockRate
import Verif.Spec.Survivor

/-! Independent specification of blocks of a convolutional code sent over a channel which inverts every bit independently. -/

namespace Verif.Spec

open Classical in
/-- probability that the decoder `dec` returns `u` when the `N` bits of `c` are sent and every bit is inverted with
probability `p` -/
noncomputable def returnedProb (N : ℕ) (dec : List Int → List Int) (p : ℝ) (c : ℕ → Int) (u : List Int) : ℝ :=
  ∑ S : Finset (Fin N), if dec (flipped N c S) = u then flipProb N p S else 0

open Classical in
/-- the words of `n` steps (given by the positions of their ones) that the encoder writes, from any register contents, for data
other than `u` -/
noncomputable def rivals (nO n : ℕ) (G : List (List (List Int))) (fb : Fb) (u : List Int) : Finset (Finset (Fin (n * nO))) :=
  Finset.univ.filter fun B => ∃ v c, Word (G.length * n) v ∧ v ≠ u ∧ IsCode nO n G fb v c ∧
    ∀ j < n * nO, c j = seq (wordOf (n * nO) B) j

end Verif.Spec
