import Verif.Spec.Coding
import Verif.Spec.Matrix2
import Mathlib.Algebra.BigOperators.Group.Finset.Basic

/-! Closed-form descriptions of the coded sequences, used to say what the project's tests of the coders verify. -/

namespace Verif.Spec

/-- the number of ones before position `i` -/
def onesBefore (p : List Int) (i : ℕ) : ℕ := (p.take i).count 1

/-- binary reflected Gray code: a symbol combined with its half by exclusive or -/
def GrayCoded (p q : List Int) : Prop :=
  q.length = p.length ∧ ∀ i < p.length, q.getD i 0 = (((p.getD i 0).toNat ^^^ ((p.getD i 0).toNat / 2) : ℕ) : Int)

/-- every bit followed by its complement -/
def ManchesterCoded (p q : List Int) : Prop :=
  q.length = 2 * p.length ∧ ∀ i < p.length, q.getD (2 * i) 0 = p.getD i 0 ∧ q.getD (2 * i + 1) 0 = 1 - p.getD i 0

/-- a zero is sent as 1, the ones alternately as 0 and 2 -/
def BipolarCoded (p q : List Int) : Prop :=
  q.length = p.length ∧ ∀ i < p.length, q.getD i 0 = if p.getD i 0 = 0 then 1 else if onesBefore p i % 2 = 0 then 0 else 2

/-- the level cycle advances with every one -/
def Mlt3Coded (p q : List Int) : Prop :=
  q.length = p.length ∧ ∀ i < p.length, q.getD i 0 = mlt3Cycle (onesBefore p (i + 1))

/-- a cell starts at the parity of the ones before it and changes in the middle for a zero -/
def DiffManchesterCoded (p q : List Int) : Prop :=
  q.length = 2 * p.length ∧ ∀ i < p.length, q.getD (2 * i) 0 = ((onesBefore p i % 2 : ℕ) : Int) ∧
    q.getD (2 * i + 1) 0 = if p.getD i 0 = 0 then 1 - q.getD (2 * i) 0 else q.getD (2 * i) 0

/-- blocks of `k` bits (the last one filled with zeros), each followed by its parity -/
def ParityCoded (k : ℕ) (p q : List Int) : Prop :=
  q.length = (k + 1) * ((p.length + k - 1) / k) ∧ ∀ i < (p.length + k - 1) / k,
    (∀ j < k, q.getD ((k + 1) * i + j) 0 = p.getD (k * i + j) 0) ∧
    q.getD ((k + 1) * i + k) 0 = (∑ j ∈ Finset.range k, p.getD (k * i + j) 0) % 2

/-- `c` is an array of width `w` with as many rows as `m` that holds, read row by row, the code `P` of the elements of `m` -/
def ArrayCoded (P : List Int → List Int → Prop) (w : ℕ) (m c : List (List Int)) : Prop :=
  c.length = m.length ∧ Mat w c ∧ P m.flatten c.flatten

/-- bit `j` of symbol `i`: bits are taken in groups of `b`, the first one being the least significant (the most significant with
`mirror`), and inverted once for every inversion that applies (all bits, the top bit, the bottom bit) -/
def sentBit (bits : List Int) (b : ℕ) (mirror invTop invBottom invAll : Bool) (i j : ℕ) : Int :=
  let x := bits.getD (b * i + if mirror then b - 1 - j else j) 0
  if (invAll ^^ (invTop && decide (j + 1 = b)) ^^ (invBottom && decide (j = 0))) then 1 - x else x

/-- the symbols for a list of bits; single bits only know the inversion of all bits -/
def SymbolCoded (bits : List Int) (b : ℕ) (mirror invTop invBottom invAll : Bool) (s : List Int) : Prop :=
  s.length = bits.length / b ∧ ∀ i < s.length, s.getD i 0 =
    if b = 1 then (if invAll then 1 - bits.getD i 0 else bits.getD i 0)
    else ∑ j ∈ Finset.range b, sentBit bits b mirror invTop invBottom invAll i j * 2 ^ j

/-- position `k` is the first one with the largest value -/
def FirstMax (x : List Int) (k : ℕ) : Prop :=
  k < x.length ∧ (∀ j < x.length, x.getD j 0 ≤ x.getD k 0) ∧ ∀ j < k, x.getD j 0 < x.getD k 0

end Verif.Spec
