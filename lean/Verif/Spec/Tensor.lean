import Verif.Model.Tensor

/-! Entries of an array of any rank by multi-index. -/

namespace Verif.Spec

/-- `idx` is a multi-index of an array of shape `shape`. -/
def InRange (idx shape : List ℕ) : Prop := List.Forall₂ (· < ·) idx shape

/-- Position of a multi-index in C order: the last index runs fastest. -/
def flatIndex : List ℕ → List ℕ → ℕ
  | _ :: ds, i :: is => i * ds.prod + flatIndex ds is
  | _, _ => 0

/-- The shape and the number of entries agree. -/
def WellFormed {α : Type} (a : Arr α) : Prop := a.data.length = a.shape.prod

/-- `a[idx]`, with a default that is never used for a multi-index of a well-formed array. -/
def arrAt {α : Type} (d : α) (a : Arr α) (idx : List ℕ) : α := a.data.getD (flatIndex a.shape idx) d

/-- Two arrays of the same shape, entry by entry in relation `R`. -/
def Elementwise {α β : Type} (d : α) (e : β) (R : α → β → Prop) (a : Arr α) (b : Arr β) : Prop :=
  b.shape = a.shape ∧ WellFormed b ∧ ∀ idx, InRange idx a.shape → R (arrAt d a idx) (arrAt e b idx)

end Verif.Spec
