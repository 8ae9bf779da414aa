import Verif.Model.Delay
import Verif.Model.Eye
import Verif.Model.Pulse

/-!
test/example_scripts/channel_reconstruction.py and `channel_example` of test/example_scripts/example_runs.py: the arrays
that are subtracted and handed to Matplotlib. What Matplotlib draws is not modelled, only the shapes it accepts.
-/

namespace Verif

/-- NumPy `a - b` for one-dimensional arrays: elementwise, an array with one entry is repeated, other differing lengths
raise ValueError -/
def npSub {K : Type*} [Sub K] (a b : List K) : Py (List K) :=
  if a.length = b.length then .ok (List.zipWith (· - ·) a b)
  else match a, b with
    | [x], b => .ok (b.map (x - ·))
    | a, [y] => .ok (a.map (· - y))
    | _, _ => .error .valueError

/-- `plt.plot(x, y)` for one-dimensional `y`: ValueError when the lengths differ -/
def pltPlot {K L : Type*} (x : List K) (y : List L) : Py Unit := if x.length = y.length then .ok () else .error .valueError

/-- `plt.plot(x, (y, z))` for a pair of arrays: arrays of differing lengths do not form a matrix (ValueError); a matrix
with two rows needs two abscissas -/
def pltPlotPair {K L : Type*} (x : List K) (y z : List L) : Py Unit :=
  if y.length ≠ z.length then .error .valueError else if x.length = 2 then .ok () else .error .valueError

/-- `plt.contourf(x, y, z)`: `z` needs a row per entry of `y` and a column per entry of `x` (`z` given by its columns) -/
def pltContourf {K L M : Type*} (x : List K) (y : List L) (cols : List (List M)) : Py Unit :=
  if x.length = cols.length ∧ ∀ c ∈ cols, c.length = y.length then .ok () else .error .valueError

/-- test/example_scripts/channel_reconstruction.py 24: `channel[order // 2 * osr: -1*(((order // 2)-1) * osr - 1)]` (the stop
index is negative for `order >= 4`, `osr >= 1`, apart from `order // 2 = 2`, `osr = 1`) -/
def reconstructionSegment {K : Type*} (channel : List K) (order osr : Nat) : List K :=
  (channel.drop (order / 2 * osr)).take (channel.length - order / 2 * osr - ((order / 2 - 1) * osr - 1))

/-- CommDspy/digital_delay.py 142-143: the coefficients of the method 'rcos'. Simplified: a coefficient that is not finite
(`rcosCoeffs`) is read as 0; with the arguments of the script there is none (`C110_rcos_finite`). -/
noncomputable def rcosFilled (n : Nat) (beta alpha : ℝ) : Py (List ℝ) := .ok ((rcosCoeffs n alpha true beta).map (·.getD 0))

/-- mean square, `cdsp.power` of a real signal (NaN for an empty one) -/
noncomputable def meanSquareOf (l : List ℝ) : Option ℝ :=
  if l.length = 0 then none else some ((l.map (· ^ 2)).sum / l.length)

/-- test/example_scripts/channel_reconstruction.py 46-48: the two powers of one printed line (the script prints
`10*log10` of their quotient) -/
noncomputable def errorPowers (segment interpolated : List ℝ) : Py (Option ℝ × Option ℝ) := do
  let e ← npSub segment interpolated
  return (meanSquareOf e, meanSquareOf segment)

/-- test/example_scripts/channel_reconstruction.py 7-49 as a function of the data in the file, for `order` and `beta` as
arguments: the powers printed for sinc, Lagrange and raised cosine interpolation. Plots are calls with the lengths of
their arguments. -/
noncomputable def channelReconstruction (order : Nat) (beta : ℝ) (channel channelUi channelSampled : List ℝ) (osr : Nat) :
    Py (List (Option ℝ × Option ℝ)) := do
  let seg := reconstructionSegment channel order osr
  let lag ← digitalOversample (fun a => getDdCoeffs "lagrange" order a true) channelSampled osr order
  let sinc ← digitalOversample (fun a => getDdCoeffs "sinc" order a true) channelSampled osr order
  let rcos ← digitalOversample (rcosFilled order beta) channelSampled osr order
  pltPlot (channelUi.map (fun u => u - ((order / 2 : Nat) : ℝ))) channel
  pltPlot lag.2.1 sinc.1
  pltPlot lag.2.1 lag.1
  pltPlot lag.2.1 rcos.1
  pltPlot lag.2.2 ((channelSampled.drop (order / 2)).take (channelSampled.length - order / 2 - (order / 2 - 1)))
  let s ← errorPowers seg sinc.1
  let l ← errorPowers seg lag.1
  let r ← errorPowers seg rcos.1
  return [s, l, r]

/-- test/example_scripts/example_runs.py 49-60: the branch `pulse_show` of `channel_example`. `pulse_shape` returns the
signal and the memory; the script keeps the pair and plots it against the time axis of the signal. -/
noncomputable def pulseShow (pattern : List ℝ) (osr span : Nat) (beta : ℝ) : Py Unit := do
  let rect ← pulseShape pattern osr span "rect" (1 / 2) none
  let sinc ← pulseShape pattern osr span "sinc" (1 / 2) none
  let rcos ← pulseShape pattern osr span "rcos" beta none
  let rrc ← pulseShape pattern osr span "rrc" beta none
  let time := (List.range rect.1.length).map (fun k : Nat => (k : ℝ) / osr)
  pltPlotPair time rect.1 rect.2
  pltPlotPair time sinc.1 sinc.2
  pltPlotPair time rcos.1 rcos.2
  pltPlotPair time rrc.1 rrc.2

/-- test/example_scripts/example_runs.py 78-82 (the same in lines 90-93 and 103-106): an eye diagram and its plot over
`np.linspace(0, 2, 2*osr_diag)` -/
noncomputable def eyePlot (signal : List ℝ) (osr osrDiag : Nat) (fs : ℝ) (q : Nat) : Py Unit := do
  let eye ← eyeDiagram signal osr osrDiag fs q false
  pltContourf (linspace (0 : ℝ) 2 256) eye.2 eye.1

end Verif
