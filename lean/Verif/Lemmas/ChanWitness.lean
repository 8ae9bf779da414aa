import Verif.Lemmas.PrbsData

/-! The numbers of a draw for which the test of the channel estimation fails. -/

namespace Verif

/-- the symbols of PRBS7 with levels ±1 -/
def wit7 (t : ℕ) : ℤ := if csvPrbs7.testBit (t % 127) then 1 else -1

/-- twice the taps of the channel of the counterexample -/
def witTaps : List ℤ :=
    [-1, 1, 1, 1, 1, 1, 1, -1, 2, 1, -1, 1, 1, 1, 1, -1, -1, -1, -1, -1, -1, 1, -1, 1, -1, 1, 1, 1, -1, 1, 1, 1,
    -1, -1, -1, 1, -1, 1, 1, 1, -1]

/-- twice the 188 samples given to the estimator -/
def witOut : List ℤ :=
    [-6, 4, -8, 4, -12, 2, 4, 2, 8, 4, -4, 2, 2, 14, -2, 8, -8, -6, -12, 0, -4, 14, 4, 6, -6, 4, -12, -6, -14, 2,
    -4, -2, 4, 6, -4, 0, 2, 2, 2, 10, -2, 0, 2, -4, 4, 12, 0, 10, 6, 2, 8, -8, -4, -6, -4, 8, 2, 4, -8, -2, -2,
    -8, 2, -2, -4, 14, 0, -2, 10, 8, -2, 2, 6, 14, -4, -6, -6, 12, -4, -16, 2, 2, 8, -2, 4, 4, 10, 0, 2, 6, 10,
    -4, 2, -6, -2, 4, -12, -14, -14, 0, -12, -10, -4, 2, -4, 2, 4, 6, -6, 6, -2, 10, -6, 2, 0, -8, -4, 4, 4, -4,
    2, 0, -4, 8, 4, -12, -2, -6, 4, -8, 4, -12, 2, 4, 2, 8, 4, -4, 2, 2, 14, -2, 8, -8, -6, -12, 0, -4, 14, 4, 6,
    -6, 4, -12, -6, -14, 2, -4, -2, 4, 6, -4, 0, 2, 2, 2, 10, -2, 0, 2, -4, 4, 12, 0, 10, 6, 2, 8, -8, -4, -6, -4,
    8, 2, 4, -8, -2, -2]

theorem witOut_eq : ∀ i < 188, ((List.range 41).map fun k => witTaps.getD k 0 * wit7 (i + 42 - k)).sum = witOut.getD i 0 := by
  decide +kernel

theorem wit_best : ∀ r < 127, r ≠ 5 → ((List.range 188).map fun i => wit7 (i + r) * witOut.getD i 0).sum
    < ((List.range 188).map fun i => wit7 (i + 5) * witOut.getD i 0).sum := by
  decide +kernel

end Verif
