import Verif.Spec.Linear
import Mathlib.Data.Fintype.Powerset
import Mathlib.Data.Real.Basic

/-! Independent specification of a block sent over a channel which inverts every bit independently with probability `p`. -/

namespace Verif.Spec

/-- probability that exactly the positions in `S` are inverted -/
noncomputable def flipProb (n : ℕ) (p : ℝ) (S : Finset (Fin n)) : ℝ := p ^ S.card * (1 - p) ^ (n - S.card)

/-- the word `c` with the positions in `S` inverted -/
def flipped (n : ℕ) (c : ℕ → Int) (S : Finset (Fin n)) : List Int :=
  List.ofFn fun j : Fin n => if j ∈ S then 1 - c j else c j

/-- the word with ones at the positions in `S` -/
def wordOf (n : ℕ) (S : Finset (Fin n)) : List Int := List.ofFn fun j : Fin n => if j ∈ S then 1 else 0

/-- smallest number of positions in which a word differs from a codeword -/
def codeDist (n : ℕ) (G : List (List Int)) (b : List Int) : ℕ :=
  (Finset.univ : Finset (Finset (Fin G.length))).inf' ⟨∅, Finset.mem_univ _⟩
    fun U => dist n (codeBit G (seq (wordOf G.length U))) (seq b)

/-- any two codewords of different data differ in at least `d` positions -/
def MinDist (n : ℕ) (G : List (List Int)) (d : ℕ) : Prop :=
  ∀ u v, Word G.length u → Word G.length v → u ≠ v → d ≤ dist n (codeBit G (seq u)) (codeBit G (seq v))

open Classical in
/-- probability that the decoder `dec` returns the data word `u` when the codeword of `u` is sent -/
noncomputable def decodedProb (n : ℕ) (G : List (List Int)) (dec : List Int → List Int) (p : ℝ) (u : List Int) : ℝ :=
  ∑ S : Finset (Fin n), if dec (flipped n (codeBit G (seq u)) S) = u then flipProb n p S else 0

end Verif.Spec
