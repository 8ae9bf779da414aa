import Mathlib.Analysis.SpecialFunctions.Trigonometric.Basic

/-! Model of the default window of CommDspy/psa.py. -/

namespace Verif

/-- CommDspy/psa.py 6 (`window='blackmanharris'`), 79 (`get_window(window, window_n)`): the periodic Blackman-Harris
window of SciPy, `general_cosine(n, [0.35875, 0.48829, 0.14128, 0.01168], sym=False)`, at the angles
`-pi + 2 * pi * j / n`; at most one sample is 1. Simplified: exact arithmetic. -/
noncomputable def blackmanHarris (n : ℕ) : List ℝ :=
  if n ≤ 1 then List.replicate n 1
  else (List.range n).map fun j : ℕ =>
    let t : ℝ := -Real.pi + 2 * Real.pi * j / n
    0.35875 + 0.48829 * Real.cos (1 * t) + 0.14128 * Real.cos (2 * t) + 0.01168 * Real.cos (3 * t)

end Verif
