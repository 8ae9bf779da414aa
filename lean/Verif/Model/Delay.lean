import Verif.Model.Pulse

/-!
CommDspy/digital_delay.py (interpolation filters and oversampling). Arithmetic on signals and delays is exact;
the integer denominators of the Lagrange coefficients are int64 in the code, so their products are passed through
a function `w`: `id` for unbounded integers, `wrap64` for NumPy's int64.
-/

namespace Verif

/-- two's complement wrap-around of a 64 bit integer -/
def wrap64 (z : Int) : Int := (z + 2 ^ 63) % 2 ^ 64 - 2 ^ 63

/-- CommDspy/digital_delay.py 147-154 `_get_indices(n, forward)` for `n >= 0` -/
def getIndices (n : Nat) (forward : Bool) : List Int :=
  if n % 2 = 0 then arangeZ (-((n / 2 : Nat) : Int)) ((n / 2 : Nat) + 1)
  else if forward then arangeZ (-((n / 2 : Nat) : Int)) ((n / 2 : Nat) + 2)
  else arangeZ (-((n / 2 : Nat) : Int) - 1) ((n / 2 : Nat) + 1)

/-- row `r` of `mat[indexing_mat]` reshaped to rows of `len - 1` entries: all entries but the one on the
diagonal (lines 49-51) -/
def offDiag {α : Type*} (row : List α) (r : Nat) : List α := row.eraseIdx r

/-- CommDspy/digital_delay.py 4-53 `dig_delay_lagrange_coeffs(n, alpha, forward)` for a float `alpha`. For `n = 0`
the reshape to rows of length 0 raises ValueError. A denominator that wraps to 0 is divided by all the same
(NumPy returns inf or nan; here the quotient is 0). -/
def lagrangeCoeffs {K : Type*} [Field K] (w : Int → Int) (n : Nat) (alpha : K) (forward : Bool) : Py (List K) :=
  let ii := getIndices n forward
  if ii.length = 1 then .error .valueError
  else
    let nomRow := ii.map (fun i : Int => alpha - (i : K))
    let nomVec := (List.range ii.length).map (fun r => (offDiag nomRow r).prod)
    let denVec := (List.range ii.length).map (fun r => w (offDiag (ii.map (fun i => ii.getD r 0 - i)) r).prod)
    .ok (List.zipWith (fun (a : K) (b : Int) => a / (b : K)) nomVec denVec)

/-- CommDspy/digital_delay.py 55-74 `dig_delay_sinc_coeffs` -/
noncomputable def sincCoeffs (n : Nat) (alpha : ℝ) (forward : Bool) : List ℝ :=
  (getIndices n forward).map (fun i : Int => npSinc (i - alpha))

/-- CommDspy/digital_delay.py 76-84 `dig_delay_rcos_coeffs`; `none` stands for a division by zero (inf or nan in
NumPy) -/
noncomputable def rcosCoeffs (n : Nat) (alpha : ℝ) (forward : Bool) (beta : ℝ) : List (Option ℝ) :=
  (getIndices n forward).map (fun i : Int =>
    let den := 1 - (2 * beta * (i - alpha)) ^ 2
    if den = 0 then none
    else some (npSinc (i - alpha) * Real.cos (Real.pi * beta * (i - alpha)) / den))

/-- `np.arange(1, osr) / osr` (line 114) -/
def alphas {K : Type*} [Field K] (osr : Nat) : List K :=
  (List.range (osr - 1)).map (fun k : Nat => ((k : K) + 1) / (osr : K))

/-- CommDspy/digital_delay.py 117-121: column 0. `signal_vec[trim_pre:-trim_post]` is empty for `trim_post = 0`;
the failing assignment is caught and `signal_vec[trim_pre:]` used. -/
def trimmed {α : Type*} (signal : List α) (trimPre trimPost : Nat) : List α :=
  if trimPost = 0 then signal.drop trimPre else (signal.drop trimPre).take (signal.length - trimPre - trimPost)

/-- `lfilter(b, 1, x)` without memory (line 127) -/
def firFilter {K : Type*} [Field K] [DecidableEq K] (b x : List K) : Py (List K) :=
  (lfilter b [1] x (List.replicate (b.length - 1) 0)).map Prod.fst

/-- CommDspy/digital_delay.py 125-127: the other columns -/
def delayColumns {K : Type*} [Field K] [DecidableEq K] (coeffs : K → Py (List K)) (signal : List K) (order : Nat) :
    List K → Py (List (List K))
  | [] => .ok []
  | a :: as => do
    let c ← coeffs a
    let y ← firFilter c.reverse signal
    let rest ← delayColumns coeffs signal order as
    return y.drop order :: rest

/-- CommDspy/digital_delay.py 86-135 `digital_oversample(signal_vec, osr, order, method)` for the coefficient
function `coeffs` of the method: samples, new time axis, old time axis. A signal shorter than `order` makes
`np.zeros` raise ValueError; `osr = 0` makes `output_mat[:, 0]` raise IndexError. -/
def digitalOversample {K : Type*} [Field K] [DecidableEq K] (coeffs : K → Py (List K)) (signal : List K)
    (osr order : Nat) : Py (List K × List K × List K) :=
  let trimPre := order / 2
  let trimPost := order / 2 + order % 2
  if signal.length < trimPre + trimPost then .error .valueError
  else if osr = 0 then .error .indexError
  else do
    let cols ← delayColumns coeffs signal order (alphas osr)
    let rows := signal.length - trimPre - trimPost
    let mat := trimmed signal trimPre trimPost :: cols
    let temp := ((List.range rows).map (fun r => mat.map (fun c => c.getD r 0))).flatten
    return (temp, (List.range temp.length).map (fun k : Nat => (k : K) / (osr : K)),
      (List.range (rows + 1)).map (fun k : Nat => (k : K)))

/-- CommDspy/digital_delay.py 137-145 `_get_dd_coeffs` for the methods 'sinc' and 'lagrange' ('rcos' may contain
non-finite values and is kept separate as `rcosCoeffs`) -/
noncomputable def getDdCoeffs (method : String) (n : Nat) (alpha : ℝ) (forward : Bool) : Py (List ℝ) :=
  if method = "sinc" then .ok (sincCoeffs n alpha forward)
  else if method = "lagrange" then lagrangeCoeffs wrap64 n alpha forward
  else .error .attributeError

end Verif
