import Verif.Lemmas.Linear
import Verif.Lemmas.Bipolar

/-! Lemmas: the argument of the minimum after the minimum was set to zero. -/

namespace Verif
open Spec

/-- the data index chosen with `error_prob=True` is the same as without -/
theorem argmin_set_zero (h : List Int) (hne : h ≠ []) (hpos : 0 < h.getD (argmin h) 0) :
    argmin (h.set (argmin h) 0) = argmin h := by
  obtain ⟨h1, h2, _⟩ := argmin_getD_spec 0 h hne
  apply argmin_eq 0 _ _ (by simpa using h1)
  · intro j hj
    rw [getD_set_eq 0 _ _ h1]
    rw [List.length_set] at hj
    by_cases e : argmin h = j
    · subst e; rw [getD_set_eq 0 _ _ h1]
    · rw [getD_set_ne 0 _ _ e]
      have := h2 j hj
      omega
  · intro j hj
    rw [getD_set_eq 0 _ _ h1, getD_set_ne 0 _ _ (by omega)]
    have := h2 j (by omega)
    omega

end Verif
