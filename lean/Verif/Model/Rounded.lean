import Verif.Model.Ffe
import Mathlib.Data.Real.Basic

/-! The decision feedback equalizer with the arithmetic operations as parameters, so that statements can
cover rounded arithmetic. -/

namespace Verif

/-- The real operations executed by `ffe_dfe`: a scalar product (`ndarray.dot`) and a subtraction. -/
structure Arith where
  dot : List ℝ → List ℝ → ℝ
  sub : ℝ → ℝ → ℝ

/-- exact operations -/
noncomputable def Arith.exact : Arith := ⟨dotL, fun x y => x - y⟩

/-- CommDspy/rx/slicer.py 30-34 for one sample, see `sliceOne`; the absolute value is exact in floating
point. -/
noncomputable def sliceOneA (A : Arith) (levels : List ℝ) (x : ℝ) : ℝ :=
  levels.getD (argmin (levels.map (fun l => |A.sub x l|))) 0

/-- CommDspy/rx/slicer.py 3-37 on a single value, see `sliceScalar`. -/
noncomputable def sliceScalarA (A : Arith) (levels : Option (List ℝ)) (x : ℝ) : Py ℝ :=
  let lv := levels.getD [-3, -1, 1, 3]
  if lv.length = 0 then .error .valueError else .ok (sliceOneA A lv x)

/-- CommDspy/rx/ffe_dfe_model.py 89-106: the loop over the buffered signal, see `dfeLoop`. -/
noncomputable def dfeLoopA (A : Arith) (ffe dfe : List ℝ) (levels : Option (List ℝ)) (osr : Nat) (phase : Int) :
    Nat → List ℝ → List ℝ → List (List ℝ) → Py (List ℝ × List ℝ)
  | _, _, mem, [] => .ok ([], mem)
  | ii, sOut, mem, fr :: frs =>
    if fr.length ≠ ffe.length ∨ mem.length ≠ dfe.length then .error .valueError
    else do
      let s := A.sub (A.dot fr ffe.reverse) (A.dot mem dfe)
      let d ← sliceScalarA A levels s
      if osr = 0 then .error .zeroDivision
      else
        let r ← dfeLoopA A ffe dfe levels osr phase (ii + 1) (sOut ++ [d])
          (dfeMemory dfe.length osr phase ii (sOut ++ [d]) mem) frs
        return (s :: r.1, r.2)

/-- CommDspy/rx/ffe_dfe_model.py 7-110 `ffe_dfe` with feedback taps, see `ffeDfe`. -/
noncomputable def ffeDfeA (A : Arith) (x ffe dfe : List ℝ) (levels : Option (List ℝ)) (osr : Nat) (phase : Int)
    (ziFfe ziDfe : Option (List ℝ)) : Py (EqOut ℝ) := do
  let mem ← initDfe dfe ziDfe
  let z ← initFfe ffe ziFfe
  let frames ← buffer (z ++ x) ffe.length ((ffe.length : Int) - 1) 0
  let r ← dfeLoopA A ffe dfe levels osr phase 0 [] mem frames
  if ffe.length = 1 then return .dfe r.1 r.2
  else match frames.getLast? with
    | none => .error .indexError
    | some fr => return .both r.1 fr r.2

end Verif
