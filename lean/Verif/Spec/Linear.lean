import Mathlib.Algebra.BigOperators.Group.Finset.Basic
import Mathlib.Algebra.BigOperators.Intervals
import Mathlib.Data.Int.ModEq
import Verif.Spec.Symbol

/-! Independent specifications for block codes and enumeration helpers. -/

namespace Verif.Spec

/-- `G` is a binary matrix with `n` columns -/
def BinaryMatrix (n : ℕ) (G : List (List Int)) : Prop := ∀ r ∈ G, r.length = n ∧ IsBinary r

/-- bit `j` of the codeword of `u`: the GF(2) sum of `u_i G_ij` -/
def codeBit (G : List (List Int)) (u : ℕ → Int) (j : ℕ) : Int :=
  (∑ i ∈ Finset.range G.length, u i * (G.getD i []).getD j 0) % 2

/-- number of positions below `n` where two sequences differ -/
def dist (n : ℕ) (a b : ℕ → Int) : ℕ := ((Finset.range n).filter (fun j => a j ≠ b j)).card

/-- the list read as a sequence that is zero outside -/
def seq (l : List Int) : ℕ → Int := fun i => l.getD i 0

/-- block `r` of width `w` of a list, as a sequence -/
def block (l : List Int) (w r : ℕ) : ℕ → Int := fun i => l.getD (r * w + i) 0

/-- binary word of length `k` -/
def Word (k : ℕ) (u : List Int) : Prop := u.length = k ∧ IsBinary u

/-- the rows of `G` are linearly independent over GF(2) -/
def RowsIndependent (n : ℕ) (G : List (List Int)) : Prop :=
  ∀ u, Word G.length u → (∀ j < n, codeBit G (seq u) j = 0) → ∀ x ∈ u, x = 0

end Verif.Spec
