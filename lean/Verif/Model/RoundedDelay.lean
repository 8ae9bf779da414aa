import Verif.Model.Delay
import Verif.Model.RoundedFilter

/-! CommDspy/digital_delay.py with every arithmetic operation on floats followed by a rounding `r`. Integers stay exact. -/

namespace Verif

/-- CommDspy/digital_delay.py 4-53 `dig_delay_lagrange_coeffs(n, alpha, forward)` in rounded arithmetic, see `lagrangeCoeffs`:
`alpha - ii_vec` is rounded, `prodR` is `np.prod` of floats (its order of multiplication is not specified), the integer
denominators are rounded when they are converted for the division, and the quotient is rounded. -/
noncomputable def lagrangeCoeffsR (r : ℝ → ℝ) (prodR : List ℝ → ℝ) (w : Int → Int) (n : Nat) (alpha : ℝ) (forward : Bool) :
    Py (List ℝ) :=
  let ii := getIndices n forward
  if ii.length = 1 then .error .valueError
  else
    let nomRow := ii.map (fun i : Int => r (alpha - (i : ℝ)))
    let nomVec := (List.range ii.length).map (fun k => prodR (offDiag nomRow k))
    let denVec := (List.range ii.length).map (fun k => w (offDiag (ii.map (fun i => ii.getD k 0 - i)) k).prod)
    .ok (List.zipWith (fun (a : ℝ) (b : Int) => r (a / r (b : ℝ))) nomVec denVec)

/-- `np.arange(1, osr) / osr` (line 114) in rounded arithmetic -/
noncomputable def alphasR (r : ℝ → ℝ) (osr : Nat) : List ℝ :=
  (List.range (osr - 1)).map (fun k : Nat => r (((k : ℝ) + 1) / (osr : ℝ)))

/-- CommDspy/digital_delay.py 125-127 in rounded arithmetic, see `delayColumns` and `lfilterR` -/
noncomputable def delayColumnsR (r : ℝ → ℝ) (conv : List ℝ → List ℝ → List ℝ) (coeffs : ℝ → Py (List ℝ)) (signal : List ℝ)
    (order : Nat) : List ℝ → Py (List (List ℝ))
  | [] => .ok []
  | a :: as => do
    let c ← coeffs a
    let y ← lfilterR r conv c.reverse [1] signal (List.replicate (c.reverse.length - 1) 0)
    let rest ← delayColumnsR r conv coeffs signal order as
    return y.1.drop order :: rest

/-- CommDspy/digital_delay.py 86-135 `digital_oversample(signal_vec, osr, order, method)` in rounded arithmetic, see
`digitalOversample`: samples, new time axis, old time axis. -/
noncomputable def digitalOversampleR (r : ℝ → ℝ) (conv : List ℝ → List ℝ → List ℝ) (coeffs : ℝ → Py (List ℝ)) (signal : List ℝ)
    (osr order : Nat) : Py (List ℝ × List ℝ × List ℝ) :=
  let trimPre := order / 2
  let trimPost := order / 2 + order % 2
  if signal.length < trimPre + trimPost then .error .valueError
  else if osr = 0 then .error .indexError
  else do
    let cols ← delayColumnsR r conv coeffs signal order (alphasR r osr)
    let rows := signal.length - trimPre - trimPost
    let mat := trimmed signal trimPre trimPost :: cols
    let temp := ((List.range rows).map (fun k => mat.map (fun c => c.getD k 0))).flatten
    return (temp, (List.range temp.length).map (fun k : Nat => r ((k : ℝ) / (osr : ℝ))),
      (List.range (rows + 1)).map (fun k : Nat => (k : ℝ)))

end Verif
