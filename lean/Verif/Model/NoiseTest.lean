import Verif.Model.Noise
import Verif.Model.PrbsData
import Verif.Model.Mapping

/-! Model of the project's test of the noise generator as a function of what it draws. -/

namespace Verif

/-- test/test_noise.py 40: `np.reshape(v, [-1, 2]).dot(np.array([1, 2]))` for an even number of entries -/
def pairDot (l : List Int) : List Int := (List.range (l.length / 2)).map fun t => l.getD (2 * t) 0 * 1 + l.getD (2 * t + 1) 0 * 2

/-- `np.var(l, ddof=1)`: NaN for fewer than two entries -/
noncomputable def npVar1 (l : List ℝ) : Option ℝ :=
  if l.length < 2 then none
  else some ((l.map fun x => (x - l.sum / l.length) ^ 2).sum / ((l.length : ℝ) - 1))

open Classical in
/-- test/test_noise.py 10-56 `awgn_test(prbs_type, constellation, snr_db)`: `bits` is the content of the reference file,
`noise` the standard normal samples behind `np.random.normal`, `snr` the drawn or given SNR. The result is `false` when the
assertion fails (also when a value is NaN). -/
noncomputable def awgnTest (p : PrbsEnum) (bits : List Int) (c : Constellation) (noise : List ℝ) (snr : ℝ) : Py Bool := do
  let sym := if c = .pam4 then pairDot (tile bits 2) else bits
  let pattern ← mapping sym c false none false
  match awgn noise pattern snr with
  | none => return false
  | some noisy =>
    match npVar1 (List.zipWith (· - ·) noisy pattern) with
    | none => return false
    | some hat =>
      let levels := getLevels c false
      let refPower : ℝ := (levels.map fun l => l ^ 2).sum / levels.length
      let noiseRef : ℝ := refPower / (10 : ℝ) ^ (snr / 10)
      let hatVar := 2 * noiseRef ^ 2 / (((2 ^ p.value - 1 : ℕ) : ℝ) - 1)
      return decide (|hat - noiseRef| < 3 * Real.sqrt hatVar)

end Verif
