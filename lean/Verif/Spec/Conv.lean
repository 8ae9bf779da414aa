import Mathlib.Algebra.BigOperators.Group.Finset.Basic
import Mathlib.Algebra.BigOperators.Intervals
import Verif.Spec.Linear

/-! Independent specification of convolutional encoders: shift registers over GF(2). Time is an integer,
negative times are the initial register contents. -/

namespace Verif.Spec

/-- bit of input `i` (of `nIn`) at time `t` of a serial pattern, zero before the start and after the end -/
def inBit (p : List Int) (nIn i : ℕ) (t : ℤ) : Int := if 0 ≤ t then p.getD (t.toNat * nIn + i) 0 else 0

/-- integer sum of the taps `g` over the history of `w` at time `t` -/
def tapSum (g : List Int) (w : ℤ → Int) (t : ℤ) : Int :=
  ∑ d ∈ Finset.range g.length, g.getD d 0 * w (t - d)

/-- `w` is the content of the first register cell driven by `x` with feedback polynomial `f` (bits,
`f_0` is not used): `w(t) = x(t) + sum_{d >= 1} f_d w(t-d)` over GF(2) from time 0 on. The polynomial
`[1]` means no feedback. -/
def IsRegister (f : List Int) (x w : ℤ → Int) : Prop :=
  ∀ t : ℤ, 0 ≤ t → w t = (x t + ∑ d ∈ Finset.range (f.length - 1), f.getD (d + 1) 0 * w (t - (d + 1))) % 2

/-- bit `j` at time `t` of an encoder with taps `g i j`, register contents `w i`, inputs `x i`;
`direct i j` marks pairs whose output takes the input itself (systematic) instead of the register. -/
def encBit (nIn : ℕ) (g : ℕ → ℕ → List Int) (direct : ℕ → ℕ → Prop) [∀ i j, Decidable (direct i j)]
    (x w : ℕ → ℤ → Int) (j : ℕ) (t : ℤ) : Int :=
  (∑ i ∈ Finset.range nIn, if direct i j then (g i j).getD 0 0 * x i t else tapSum (g i j) (w i) t) % 2

/-- generator matrices of a code with at least one input and `nO` outputs: binary taps, all transfer
functions of one input written with the same number (at least one) of coefficients -/
def GoodG (nO : ℕ) (G : List (List (List Int))) : Prop :=
  G ≠ [] ∧ ∀ g ∈ G, g.length = nO ∧ ∃ L, 0 < L ∧ ∀ r ∈ g, r.length = L ∧ IsBinary r

/-- the transfer function from input `i` to output `j` -/
def tf (G : List (List (List Int))) (i j : ℕ) : List Int := (G.getD i []).getD j []

/-- the flag of input `i` and output `j` -/
def flag (u : List (List Int)) (i j : ℕ) : Int := (u.getD i []).getD j 0

/-- feedback description (polynomials `l`, flags `u`) that fits `G` -/
structure GoodFb (nO : ℕ) (G : List (List (List Int))) (l : List (Option (List Int))) (u : List (List Int)) :
    Prop where
  shape : u.length = G.length ∧ ∀ r ∈ u, r.length = nO
  flags : ∀ i j, i < G.length → j < nO → flag u i j = 0 ∨ flag u i j = 1
  poly : ∀ f, some f ∈ l → IsBinary f ∧ f.getD 0 0 = 1
  used : ∀ i j, i < G.length → j < nO → flag u i j = 1 → l.getD i none ≠ none
  unused : ∀ i j, i < G.length → j < nO → flag u i j = 0 → l.getD i none ≠ none →
    ∀ d, 1 ≤ d → (tf G i j).getD d 0 = 0

/-- the feedback polynomial of input `i`, `[1]` if it has none -/
def polyOf (l : List (Option (List Int))) (i : ℕ) : List Int := (l.getD i none).getD [1]

/-- optional feedback description: polynomials and flags -/
abbrev Fb := Option (List (Option (List Int)) × List (List Int))

/-- a code description that passes validation and whose polynomials have constant term 1 -/
def GoodCode (nO : ℕ) (G : List (List (List Int))) (fb : Fb) : Prop :=
  GoodG nO G ∧ ∀ l u, fb = some (l, u) → GoodFb nO G l u

/-- feedback polynomial of input `i`; `[1]` without feedback -/
def poly (fb : Fb) (i : ℕ) : List Int := match fb with | none => [1] | some (l, _) => polyOf l i

/-- input `i` has a feedback polynomial but output `j` does not use it (systematic path) -/
def isDirect (fb : Fb) (i j : ℕ) : Bool :=
  match fb with
  | none => false
  | some (l, u) => (l.getD i none).isSome && decide (flag u i j = 0)

/-- every systematic path is written with at least two coefficients -/
def DirectLong (nO : ℕ) (G : List (List (List Int))) (fb : Fb) : Prop :=
  ∀ i j, i < G.length → j < nO → isDirect fb i j = true → 2 ≤ (tf G i j).length

/-- the trellis construction fits the code: each feedback polynomial has as many coefficients as the
transfer functions of its input, and if a feedback dictionary is given at all, inputs without
polynomial have no memory -/
def Fits (nO : ℕ) (G : List (List (List Int))) (fb : Fb) : Prop :=
  ∀ l u, fb = some (l, u) → ∀ i j, i < G.length → j < nO →
    (∀ f, l.getD i none = some f → f.length = (tf G i j).length) ∧
    (l.getD i none = none → ∀ d, 1 ≤ d → (tf G i j).getD d 0 = 0)

/-- `c` starts with an output of `n` encoder steps for `data` (serial, `nIn` bits per step) from some
initial register contents, and is zero afterwards -/
def IsCode (nO n : ℕ) (G : List (List (List Int))) (fb : Fb) (data : List Int) (c : ℕ → Int) : Prop :=
  ∃ w : ℕ → ℤ → Int,
    (∀ i < G.length, IsRegister (poly fb i) (inBit data G.length i) (w i) ∧ ∀ t < 0, w i t = 0 ∨ w i t = 1) ∧
    (∀ t j, t < n → j < nO → c (t * nO + j)
      = encBit G.length (tf G) (fun i j => isDirect fb i j = true) (inBit data G.length) w j t) ∧
    ∀ q, n * nO ≤ q → c q = 0

/-- every transfer function is written with at least two coefficients, so every input has memory -/
def HasMemory (nO : ℕ) (G : List (List (List Int))) : Prop :=
  ∀ i j, i < G.length → j < nO → 2 ≤ (tf G i j).length

/-- transitions are identified by their output and end state: if one step from register contents `w` with
input bits `u` and one from `w'` with `u'` give the same outputs and the same new contents of all
register cells, then the old contents and the inputs were the same -/
def Identified (nO : ℕ) (G : List (List (List Int))) (fb : Fb) : Prop :=
  ∀ (u u' : List Int) (w w' : ℕ → ℤ → Int), Word G.length u → Word G.length u' →
    (∀ i < G.length, IsRegister (poly fb i) (inBit u G.length i) (w i) ∧ ∀ t < 0, w i t = 0 ∨ w i t = 1) →
    (∀ i < G.length, IsRegister (poly fb i) (inBit u' G.length i) (w' i) ∧ ∀ t < 0, w' i t = 0 ∨ w' i t = 1) →
    (∀ j < nO, encBit G.length (tf G) (fun i j => isDirect fb i j = true) (inBit u G.length) w j 0
      = encBit G.length (tf G) (fun i j => isDirect fb i j = true) (inBit u' G.length) w' j 0) →
    (∀ i < G.length, ∀ k : ℕ, k + 1 < (tf G i 0).length → w i (-k) = w' i (-k)) →
    (∀ i < G.length, ∀ k : ℕ, k + 1 < (tf G i 0).length → w i (-1 - k) = w' i (-1 - k)) ∧ u = u'

end Verif.Spec
