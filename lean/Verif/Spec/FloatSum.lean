import Mathlib.Data.Real.Basic

/-! Sums in an arithmetic that rounds. -/

namespace Verif.Spec

/-- `s` is a possible result of the sum of the list in an arithmetic that rounds by `r`: any order of the terms, any order of the
additions. -/
inductive RoundedSum (r : ℝ → ℝ) : List ℝ → ℝ → Prop
  | nil : RoundedSum r [] 0
  | single (a : ℝ) : RoundedSum r [a] a
  | add (l m : List ℝ) (s t : ℝ) (hl : l ≠ []) (hm : m ≠ []) (h1 : RoundedSum r l s) (h2 : RoundedSum r m t) :
      RoundedSum r (l ++ m) (r (s + t))
  | perm (l m : List ℝ) (s : ℝ) (hp : l.Perm m) (h : RoundedSum r l s) : RoundedSum r m s

/-- sum of the absolute values -/
def absSum (l : List ℝ) : ℝ := (l.map (fun v => |v|)).sum

/-- sum of the squares -/
def sqSum (l : List ℝ) : ℝ := (l.map (fun v => v ^ 2)).sum

/-- the signal power as `awgn` estimates it: unbiased variance plus squared mean -/
noncomputable def signalPower (l : List ℝ) : ℝ :=
  (l.map (fun v => (v - l.sum / l.length) ^ 2)).sum / ((l.length : ℝ) - 1) + (l.sum / l.length) ^ 2

end Verif.Spec
