/-
Python / NumPy primitives shared by all model files.

Nothing in here is CommDspy code; it records how the Python and NumPy built-ins used by CommDspy
are read (this reading is part of the trusted base, see DESIGN.md).
-/

namespace Verif

/-- The Python exceptions that the modelled code can raise. -/
inductive PyErr where
  | valueError | indexError | typeError | attributeError | zeroDivision | unboundLocal | keyError
  | overflow
deriving DecidableEq, Repr

/-- Result of a Python call: a value or an exception. -/
abbrev Py (α : Type u) := Except PyErr α

instance instDecidableEqExcept {ε α : Type _} [DecidableEq ε] [DecidableEq α] :
    DecidableEq (Except ε α)
  | .ok a, .ok b => if h : a = b then isTrue (by rw [h]) else isFalse (by intro e; cases e; exact h rfl)
  | .error a, .error b =>
      if h : a = b then isTrue (by rw [h]) else isFalse (by intro e; cases e; exact h rfl)
  | .ok _, .error _ => isFalse (by intro e; cases e)
  | .error _, .ok _ => isFalse (by intro e; cases e)

/-- NumPy / Python sequence indexing `l[i]`: negative indices count from the end,
anything else out of range raises IndexError. -/
def npGet {α : Type u} (l : List α) (i : Int) : Py α :=
  if 0 ≤ i then
    match l[i.toNat]? with
    | some a => .ok a
    | none => .error .indexError
  else if -(l.length : Int) ≤ i then
    match l[((l.length : Int) + i).toNat]? with
    | some a => .ok a
    | none => .error .indexError
  else .error .indexError

/-- `l[idx]` with an integer index array (NumPy fancy indexing): element-wise `npGet`. -/
def npTake {α : Type u} (l : List α) (idx : List Int) : Py (List α) :=
  idx.mapM (npGet l)

/-- `np.argmin`: index of the first smallest element (0 for the empty list, where NumPy raises;
callers guard that case). -/
def argmin {α : Type u} [LE α] [DecidableLE α] (l : List α) : Nat :=
  l.findIdx (fun x => l.all (fun y => decide (x ≤ y)))

/-- `np.argmax`: index of the first largest element. -/
def argmax {α : Type u} [LE α] [DecidableLE α] (l : List α) : Nat :=
  l.findIdx (fun x => l.all (fun y => decide (y ≤ x)))

/-- `np.tile(l, k)` for a 1-D array. -/
def tile {α : Type u} (l : List α) (k : Nat) : List α :=
  (List.replicate k l).flatten

/-- `np.reshape(l, [-1, w])` on data whose length is a multiple of `w` (rows of width `w`). An
incomplete last row would raise in NumPy; here it is dropped, callers guard that case. -/
def rows {α : Type u} (w : Nat) (l : List α) : List (List α) :=
  (List.range (l.length / w)).map (fun r => (l.drop (r * w)).take w)

/-- The last `n` elements, `l[-n:]` for `n > 0`. -/
def lastN {α : Type u} (n : Nat) (l : List α) : List α := l.drop (l.length - n)

/-- `np.arange(lo, hi, 1)` on integers -/
def arangeZ (lo hi : Int) : List Int := (List.range (hi - lo).toNat).map (fun k : Nat => lo + k)

end Verif
