import Verif.Model.Pulse

/-! Random jitter of `pulse_shape` (CommDspy/channel/pulse_shaping.py 43-56). -/

namespace Verif

/-- `scipy.interpolate.interp1d(t, y, kind='cubic', fill_value='extrapolate')` as a function of the
nodes, the values and the argument. SciPy's spline is not modelled; properties take it as a
parameter with the contract `Spec.IsCubicInterp`. -/
abbrev Interp := List ℝ → List ℝ → ℝ → ℝ

/-- CommDspy/channel/pulse_shaping.py 6-56 `pulse_shape` with `rj_sigma`; `randn` holds the numbers
drawn by `np.random.randn` in line 47 (as many as needed are used). `t.reshape(-1, osr)` plus
`rj[:, None]` gives sample `n` the jitter of symbol `n // osr`. `interp1d` of kind 'cubic' raises
ValueError for fewer than four samples. -/
noncomputable def pulseShapeJitter (interp : Interp) (randn : List ℝ) (signal : List ℝ)
    (osr span : ℕ) (pulse : String) (beta rjSigma : ℝ) (zi : Option (List ℝ)) :
    Py (List ℝ × List ℝ) := do
  let s ← pulseShape signal osr span pulse beta zi
  if closeToZero rjSigma then return s
  else if s.1.length < 4 then throw .valueError
  else
    let rj := (randn.take (s.1.length / osr)).map (· * rjSigma)
    let t : List ℝ := (List.range s.1.length).map (fun n : ℕ => (n : ℝ) / (osr : ℝ))
    let tRj := (List.range s.1.length).map (fun n => t.getD n 0 + rj.getD (n / osr) 0)
    return (tRj.map (interp t s.1), s.2)

end Verif
