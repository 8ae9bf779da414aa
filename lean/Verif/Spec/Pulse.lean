import Mathlib.Analysis.SpecialFunctions.Trigonometric.Sinc
import Mathlib.Topology.Algebra.Ring.Real

/-! Independent specification of the pulses: functions of the time in symbols. -/

namespace Verif.Spec

/-- The rectangular pulse of one symbol. -/
noncomputable def rectFn (t : ℝ) : ℝ := Set.indicator (Set.Ico (-1 / 2) (1 / 2)) 1 t

/-- The raised cosine of roll-off `β`: the continuous function with
`(1 - (2βt)²) g(t) = sinc(πt) cos(πβt)`. -/
structure IsRaisedCosine (β : ℝ) (g : ℝ → ℝ) : Prop where
  continuous : Continuous g
  equation : ∀ t, (1 - (2 * β * t) ^ 2) * g t = Real.sinc (Real.pi * t) * Real.cos (Real.pi * β * t)

/-- The root raised cosine of roll-off `β`: the continuous function with
`πt (1 - (4βt)²) g(t) = sin((1-β)πt) + 4βt cos((1+β)πt)`. -/
structure IsRootRaisedCosine (β : ℝ) (g : ℝ → ℝ) : Prop where
  continuous : Continuous g
  equation : ∀ t, Real.pi * t * (1 - (4 * β * t) ^ 2) * g t
    = Real.sin ((1 - β) * Real.pi * t) + 4 * β * t * Real.cos ((1 + β) * Real.pi * t)

/-- The documented pulse names and the functions they stand for. For 'rrc' the time grid must not come closer
than the tolerance of `np.isclose` to a singular time without meeting it. -/
def IsPulse (name : String) (β : ℝ) (osr : ℕ) (g : ℝ → ℝ) : Prop :=
  (name = "rect" ∧ g = rectFn) ∨
  (name = "sinc" ∧ g = fun t => Real.sinc (Real.pi * t)) ∨
  (name = "rcos" ∧ β ≠ 0 ∧ IsRaisedCosine β g) ∨
  (name = "rrc" ∧ 0 < β ∧ IsRootRaisedCosine β g ∧ osr < 10 ^ 8 ∧
    ∀ k : ℤ, |(|(k : ℝ) / osr| - 1 / (4 * β))| ≤ 1 / 10 ^ 8 → |(k : ℝ) / osr| = 1 / (4 * β))

/-- The pulse restricted to `span` symbols on both sides (as the code does): `-span ≤ t < span`. -/
noncomputable def truncated (span : ℕ) (g : ℝ → ℝ) (t : ℝ) : ℝ := Set.indicator (Set.Ico (-(span : ℝ)) span) g t

end Verif.Spec
