import Verif.Spec.Conv

/-! The random draws of the convolutional code tests, test/test_pattern_coding.py. -/

namespace Verif.Spec

/-- a pattern of 100 bits, one to three inputs, `extra` to `extra + 2` more outputs than inputs, per input
transfer functions of the same number of coefficients, between `lo` and 4 -/
structure TestDraw (lo extra nO : ℕ) (G : List (List (List Int))) (p : List Int) : Prop where
  pattern : p.length = 100 ∧ IsBinary p
  inputs : 1 ≤ G.length ∧ G.length ≤ 3
  outputs : G.length + extra ≤ nO ∧ nO ≤ G.length + extra + 2
  good : GoodG nO G
  size : ∀ i j, i < G.length → j < nO → lo ≤ (tf G i j).length ∧ (tf G i j).length ≤ 4

/-- feedback polynomials for some of the inputs with more than one coefficient, flags set wherever the
transfer function is not 1, 0, ..., 0 (there the flag is free) -/
structure FeedbackDraw (nO : ℕ) (G : List (List (List Int))) (l : List (Option (List Int))) (u : List (List Int)) :
    Prop where
  shape : u.length = G.length ∧ ∀ r ∈ u, r.length = nO
  poly : ∀ f, some f ∈ l → IsBinary f ∧ f.getD 0 0 = 1
  size : ∀ i j f, i < G.length → j < nO → l.getD i none = some f → 1 < f.length ∧ f.length = (tf G i j).length
  absent : ∀ i j, i < G.length → j < nO → l.getD i none = none → flag u i j = 0
  flags : ∀ i j, i < G.length → j < nO → l.getD i none ≠ none →
    (flag u i j = 0 ∨ flag u i j = 1) ∧ (1 < (tf G i j).sum ∨ (tf G i j).getD 0 0 = 0 → flag u i j = 1)

/-- the only step with zero output is the step from cleared registers with zero inputs -/
def ZeroStep (nO : ℕ) (G : List (List (List Int))) (fb : Fb) : Prop :=
  ∀ (x w : ℕ → ℤ → Int) (t : ℤ), 0 ≤ t →
    (∀ i < G.length, IsRegister (poly fb i) (x i) (w i) ∧ (∀ t < 0, w i t = 0 ∨ w i t = 1) ∧ ∀ t, x i t = 0 ∨ x i t = 1) →
    (∀ j < nO, encBit G.length (tf G) (fun i j => isDirect fb i j = true) x w j t = 0) →
    ∀ i < G.length, x i t = 0 ∧ ∀ k : ℕ, k + 1 < (tf G i 0).length → w i (t - 1 - k) = 0

end Verif.Spec
