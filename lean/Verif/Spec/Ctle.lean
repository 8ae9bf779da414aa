import Mathlib.Analysis.Complex.Basic

/-! Independent specification of the continuous-time linear equalizer and of discrete transfer functions. -/

open Finset

namespace Verif.Spec

/-- `Σ c[k] z^(-k)` -/
noncomputable def zPoly (c : List ℝ) (z : ℂ) : ℂ := ∑ k ∈ range c.length, (c.getD k 0 : ℂ) * z⁻¹ ^ k

/-- `Σ c[k] z^(n-k)`, whose roots are the roots of the discrete transfer function in the variable `z` -/
noncomputable def zRoots (c : List ℝ) (z : ℂ) : ℂ := ∑ k ∈ range c.length, (c.getD k 0 : ℂ) * z ^ (c.length - 1 - k)

/-- analog transfer function with DC gain `g`, real zeros at `-|z|` and real poles at `-|p|` -/
noncomputable def analog (g : ℝ) (zeros poles : List ℝ) (s : ℂ) : ℂ :=
  g * (zeros.map fun z => 1 + s / (|z| : ℝ)).prod / (poles.map fun p => 1 + s / (|p| : ℝ)).prod

/-- value of the analog transfer function on the positive real axis -/
noncomputable def analogReal (g : ℝ) (zeros poles : List ℝ) (s : ℝ) : ℝ :=
  g * (zeros.map fun z => 1 + s / |z|).prod / (poles.map fun p => 1 + s / |p|).prod

end Verif.Spec
