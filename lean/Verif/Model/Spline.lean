import Verif.Model.Jitter
import Verif.Spec.Spline

/-! The interpolation used by the jitter branch of `pulse_shape` (CommDspy/channel/pulse_shaping.py 55). -/

namespace Verif
open Classical in
/-- CommDspy/channel/pulse_shaping.py 55: `scipy.interpolate.interp1d(t, y, kind='cubic', fill_value='extrapolate')`, read from
SciPy's documentation as the interpolating cubic spline with the default (not-a-knot) boundary condition, in exact arithmetic.
It is defined by its characterisation; existence and uniqueness are `C77_spline_unique`. -/
noncomputable def scipyCubic : Interp := fun t y =>
  if h : ∃ f, Spec.IsNotAKnot t y f then h.choose else fun _ => 0

end Verif
