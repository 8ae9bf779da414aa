import Verif.Model.Mapping
import Verif.Model.Framing
import Verif.Model.Delay

/-!
Model of the tests with literal data in test/test_main.py: 25-33 `test_dig_delay_fir_coeffs`, 50-76 `test_buffer`, 282-332
`test_demapping_plus_decoding_gray` and 465-515 `test_coding_gray_plus_mapping`. A test is a proposition: no call raises and every
assertion holds. `np.all(a == b)` on arrays of the same shape and `np.allclose` (over exact numbers) are modelled by equality.
-/

namespace Verif

/-- test/test_main.py 25-33 `test_dig_delay_fir_coeffs` for the function `coeffs(n, alpha, forward)` -/
def digDelayTest {K : Type*} [Field K] (coeffs : ℕ → K → Bool → Py (List K)) : Prop :=
  coeffs 1 0 true = .ok [1, 0] ∧ coeffs 1 1 true = .ok [0, 1] ∧ coeffs 2 0 true = .ok [0, 1, 0] ∧
  coeffs 2 1 true = .ok [0, 0, 1] ∧ coeffs 3 0 true = .ok [0, 1, 0, 0] ∧ coeffs 3 0 false = .ok [0, 0, 1, 0]

/-- test/test_main.py 50-76 `test_buffer` for the function `buf(signal, length, overlap, delay, clip)` -/
def bufferTest (buf : List ℤ → ℕ → ℤ → ℕ → Bool → Py (List (List ℤ))) : Prop :=
  let a := [1, 2, 3, 4, 5, 6, 7]
  buf a 2 0 2 false = .ok [[0, 0], [1, 2], [3, 4], [5, 6], [7, 0]] ∧
  buf a 2 0 2 true = .ok [[0, 0], [1, 2], [3, 4], [5, 6]] ∧
  buf a 2 1 0 true = .ok [[1, 2], [2, 3], [3, 4], [4, 5], [5, 6], [6, 7]] ∧
  buf a 2 1 0 false = .ok [[1, 2], [2, 3], [3, 4], [4, 5], [5, 6], [6, 7]] ∧
  buf a 2 (-1) 0 false = .ok [[1, 2], [4, 5], [7, 0]] ∧
  buf a 2 (-1) 0 true = .ok [[1, 2], [4, 5]] ∧
  buf a 2 (-2) 0 false = .ok [[1, 2], [5, 6]] ∧
  buf a 2 (-2) 0 true = .ok [[1, 2], [5, 6]]

/-- test/test_main.py 287, 470: `pattern_2bit` -/
def pattern2 : List ℤ := [0, 1, 2, 3, 0, 0, 1, 1, 2, 2, 3, 3, 0, 0, 0, 1, 1, 1, 2, 2, 2, 3, 3, 3]

/-- test/test_main.py 288, 471: `pattern_1bit` -/
def pattern1 : List ℤ := [0, 1, 0, 1, 0, 0, 1, 1, 0, 1, 0, 0, 0, 1, 1, 1]

/-- test/test_main.py 292, 475: `coded_2bit_pam4` -/
def coded2 : List ℝ := [-3, -1, 1, 3, -3, -3, -1, -1, 1, 1, 3, 3, -3, -3, -3, -1, -1, -1, 1, 1, 1, 3, 3, 3]

/-- test/test_main.py 293, 476: `coded_2bit_pam4_gray` -/
def coded2Gray : List ℝ := [-3, -1, 3, 1, -3, -3, -1, -1, 3, 3, 1, 1, -3, -3, -3, -1, -1, -1, 3, 3, 3, 1, 1, 1]

/-- test/test_main.py 303, 486: `coded_1bit_pam4` and `coded_1bit_pam4_gray` -/
def coded1 : List ℝ := [-3, -1, -3, -1, -3, -3, -1, -1, -3, -1, -3, -3, -3, -1, -1, -1]

/-- `-1 * array` -/
def neg (x : List ℝ) : List ℝ := x.map fun v => -1 * v

/-- test/test_main.py 314, 497: `coded_1bit_nrz` -/
noncomputable def coded1Nrz : List ℝ := coded1.map fun v => v + 2

/-- test/test_main.py 325, 508: `coded_1bit_ook` -/
noncomputable def coded1Ook : List ℝ := coded1Nrz.map fun v => (v + 1) / 2

/-- one constellation in test/test_main.py 465-515: the four assertions for the patterns `p` with the expected values `u` and `g` -/
def mappingAsserts (mp : List ℤ → Constellation → Bool → Bool → Py (List ℝ)) (c : Constellation) (p : List ℤ) (u g : List ℝ) : Prop :=
  mp p c false false = .ok u ∧ (do mp (← codingGray p c) c false false) = .ok g ∧
  mp p c false true = .ok (neg u) ∧ (do mp (← codingGray p c) c false true) = .ok (neg g)

/-- test/test_main.py 465-515 `test_coding_gray_plus_mapping` for the function `mp(signal, constellation, full_scale, pn_inv)` -/
def grayMappingTest (mp : List ℤ → Constellation → Bool → Bool → Py (List ℝ)) : Prop :=
  mappingAsserts mp .pam4 pattern2 coded2 coded2Gray ∧ mappingAsserts mp .pam4 pattern1 coded1 coded1 ∧
  mappingAsserts mp .nrz pattern1 coded1Nrz coded1Nrz ∧ mappingAsserts mp .ook pattern1 coded1Ook coded1Ook

/-- one constellation in test/test_main.py 282-321: the four assertions, the inverted ones with `pn_inv=True`. (The arrays that
`demapping` negates in place are not used again.) -/
def demappingAsserts (dm : List ℝ → Constellation → Bool → Bool → Py (List ℤ)) (c : Constellation) (p : List ℤ) (u g : List ℝ) : Prop :=
  dm u c false false = .ok p ∧ (do decodingGray (← dm g c false false) c) = .ok p ∧
  dm (neg u) c false true = .ok p ∧ (do decodingGray (← dm (neg g) c false true) c) = .ok p

/-- test/test_main.py 325-332: the assertions for OOK. The third positional argument is `full_scale`, so that the last two calls
run with `full_scale=True` and `pn_inv=False`. -/
def demappingAssertsOok (dm : List ℝ → Constellation → Bool → Bool → Py (List ℤ)) : Prop :=
  dm coded1Ook .ook false false = .ok pattern1 ∧ (do decodingGray (← dm coded1Ook .ook false false) .ook) = .ok pattern1 ∧
  dm (neg coded1Ook) .ook true false = .ok pattern1 ∧ (do decodingGray (← dm (neg coded1Ook) .ook true false) .ook) = .ok pattern1

/-- test/test_main.py 282-332 `test_demapping_plus_decoding_gray` for the function `dm(signal, constellation, full_scale, pn_inv)` -/
def grayDemappingTest (dm : List ℝ → Constellation → Bool → Bool → Py (List ℤ)) : Prop :=
  demappingAsserts dm .pam4 pattern2 coded2 coded2Gray ∧ demappingAsserts dm .pam4 pattern1 coded1 coded1 ∧
  demappingAsserts dm .nrz pattern1 coded1Nrz coded1Nrz ∧ demappingAssertsOok dm

end Verif
