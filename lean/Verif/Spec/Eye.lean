import Mathlib.Algebra.Order.Field.Basic
import Mathlib.Data.Finset.Card
import Mathlib.Algebra.BigOperators.Group.Finset.Basic

/-! Independent specification of histograms and eye diagrams. -/

namespace Verif.Spec

variable {K : Type} [Field K] [LinearOrder K]

/-- `v` lies in bin `k` of `n`: bins contain their left edge, the last bin both edges. `e` gives the edges. -/
def InBin (e : ℕ → K) (n k : ℕ) (v : K) : Prop :=
  k < n ∧ e k ≤ v ∧ (v < e (k + 1) ∨ k + 1 = n ∧ v ≤ e n)

instance (e : ℕ → K) (n k : ℕ) (v : K) : Decidable (InBin e n k v) := by unfold InBin; infer_instance

/-- edges of `q` equal bins of the range from `-fs` to `fs` -/
def eyeEdge (fs : K) (q k : ℕ) : K := -fs + k * (2 * fs / q)

/-- number of unit intervals (of `U`, `osr` samples each) whose sample of phase `ii` lies in bin `k` -/
def phaseCount (sig : List K) (osr U : ℕ) (e : ℕ → K) (q ii k : ℕ) : ℕ :=
  ((Finset.range U).filter (fun m => InBin e q k (sig.getD (m * osr + ii) 0))).card

end Verif.Spec
