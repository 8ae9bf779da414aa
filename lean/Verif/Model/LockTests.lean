import Verif.Model.PrbsTests

/-! Model of the project's tests of the pattern lock as functions of what they draw. The result is `false` when an
assertion fails. -/

namespace Verif

/-- test/test_pattern_lock.py 23, 48: `np.concatenate((pattern[-1*shift_idx:], pattern[:-1*shift_idx]))`; for shift 0
the slices are `pattern[0:]` and `pattern[:0]`. -/
def lockRef (pattern : List Int) (shift : ℕ) : List Int :=
  if shift = 0 then pattern else lastN shift pattern ++ pattern.take (pattern.length - shift)

/-- test/test_pattern_lock.py 5-28 `lock_pattern_to_signal_binary_test` for a lock function `lk`. -/
def lockBinaryTestOf (lk : List Int → List Int → Py (List Int × List Int)) (pattern signal : List Int) (shift : ℕ) : Py Bool := do
  let (aligned, xcorr) ← lk pattern signal
  return lockRef pattern shift == aligned &&
    ((pattern.length : Int) - shift) % pattern.length == (argmax xcorr : Int)

/-- test/test_pattern_lock.py 5-28 `lock_pattern_to_signal_binary_test`. -/
def lockBinaryTest (pattern signal : List Int) (shift : ℕ) : Py Bool := lockBinaryTestOf lockPatternBinary pattern signal shift

/-- test/test_pattern_lock.py 30-53 `lock_pattern_to_signal_test` for a lock function `lk`: here the position is compared
without the remainder. -/
def lockTestOf (lk : List Int → List Int → Py (List Int × List Int)) (pattern signal : List Int) (shift : ℕ) : Py Bool := do
  let (aligned, xcorr) ← lk pattern signal
  return lockRef pattern shift == aligned && (pattern.length : Int) - shift == (argmax xcorr : Int)

/-- test/test_pattern_lock.py 30-53 `lock_pattern_to_signal_test`. -/
def lockTest (pattern signal : List Int) (shift : ℕ) : Py Bool := lockTestOf lockPattern pattern signal shift

/-- test/test_main.py 105-133, 196-221 after the sequence is known: two periods with errors at the drawn positions
(`errs`, two periods long), pattern rotated by the drawn shift. -/
def lockRun1 (test : List Int → List Int → ℕ → Py Bool) (seq : List Int) (errs : List Bool) (shift : ℕ) : Py Bool :=
  test (seq.drop shift ++ seq.take shift) (flipBits errs (tile seq 2)) shift

/-- test/test_main.py 135-163, 223-248: one period. The assignment `signal = prbs_seq` does not copy the array, so that
the errors are injected into the sequence from which the pattern is taken as well. -/
def lockRun2 (test : List Int → List Int → ℕ → Py Bool) (seq : List Int) (errs : List Bool) (shift : ℕ) : Py Bool :=
  let seq := flipBits errs seq
  test (seq.drop shift ++ seq.take shift) seq shift

/-- test/test_main.py 165-194, 250-276: the first `errs.length` bits of the period (drawn between a quarter and three
quarters). The slice is a view of the array, so that the errors are injected into the sequence as well. -/
def lockRun3 (test : List Int → List Int → ℕ → Py Bool) (seq : List Int) (errs : List Bool) (shift : ℕ) : Py Bool :=
  let seq := flipBits errs (seq.take errs.length) ++ seq.drop errs.length
  test (seq.drop shift ++ seq.take shift) (seq.take errs.length) shift

/-- The sequence of test/test_main.py 119-121, 149-151, 179-181: one generated period from the all-ones seed. -/
def lockSeq (p : PrbsEnum) : Py (List Int) := do
  let (s, _) ← prbsGenerator (getPolynomial p) (List.replicate p.value 1) ((2 ^ p.value - 1 : ℕ) : Int)
  return s

end Verif
