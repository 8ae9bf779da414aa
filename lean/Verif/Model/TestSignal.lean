import Verif.Model.EstimPrbs
import Verif.Model.FilterClass
import Verif.Model.Slicer

/-!
Bits sent over a channel and decided without equalization, composed of the modelled functions as in
test/example_scripts/example_runs.py (without jitter, noise and oversampling).
-/

namespace Verif

/-- test/example_scripts/example_runs.py 37-38 (the same in equalization_estimation.py 71-72): the bits as symbols of the
constellation, optional Gray coding, mapping to levels -/
noncomputable def transmitBits (c : Constellation) (fullScale bitOrderInv pnPre gray pnPost : Bool) (bits : List Int) :
    Py (List ℝ) := do
  let sym ← bin2symbol bits (intLevels c).length { bitOrderInv := bitOrderInv, pnInv := pnPre }
  mapSymbols c fullScale gray pnPost sym

/-- test/example_scripts/example_runs.py 37-38, 146, 360: levels sent, channel with coefficients `h`, decisions. Simplified:
no pulse shaping, noise, CTLE and equalizer in between (with them the combined response takes the place of `h`). -/
noncomputable def decidedBits (c : Constellation) (fullScale bitOrderInv pnPre gray pnPost : Bool) (h : List ℝ)
    (bits : List Int) : Py (List ℝ × List ℝ) := do
  let x ← transmitBits c fullScale bitOrderInv pnPre gray pnPost bits
  let y ← awgnChannel x h (.vec [1]) none
  match ← slicer (.vec y.1) (some (getLevels c fullScale)) with
  | .vec out => return (x, out)
  | _ => throw .valueError

end Verif
