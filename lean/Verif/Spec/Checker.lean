import Mathlib.Algebra.BigOperators.Group.Finset.Basic
import Mathlib.Data.Int.ModEq

/-! Independent specification of what a bit-error checker has to report. -/

namespace Verif.Spec

/-- number of positions below `n` where two streams differ -/
def mismatches {α : Type*} [DecidableEq α] (n : ℕ) (f g : ℕ → α) : ℕ :=
  ((Finset.range n).filter (fun i => f i ≠ g i)).card

/-- the data as a stream -/
def stream {α : Type*} [Zero α] (data : List α) (i : ℕ) : α := data.getD i 0

/-- `(lost, count, err)` is the exact report for `data` against the reference stream `ref`:
`err` flags exactly the differing positions, `count` is the number of correct bits, and lock is lost
exactly when the number of errors reaches the threshold. -/
structure ExactReport (data : List Int) (ref : ℕ → Int) (th : Int)
    (lost : Bool) (count : Int) (err : List Bool) : Prop where
  length : err.length = data.length
  flags : ∀ i < data.length, err[i]? = some (decide (stream data i ≠ ref i))
  count : count = ((Finset.range data.length).filter (fun i => stream data i = ref i)).card
  lost : lost = true ↔ th ≤ (mismatches data.length (stream data) ref : ℕ)

end Verif.Spec
