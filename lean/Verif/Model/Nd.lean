import Mathlib.Data.List.Basic
import Mathlib.Data.List.Forall2
import Mathlib.Data.List.Range

/-!
# Arrays

Aesara tensors are NumPy arrays: a shape and an entry for every coordinate tuple below it.  The functions here stand for the external
array operations used by aeppl (`at.diff`, `at.take`, `at.concatenate`, `at.split`, `dimshuffle`), on non-negative axes.
-/

namespace Verif

/-- An array; only the entries at coordinates in range of the shape matter. -/
structure Arr (α : Type*) where
  shape : List ℕ
  get : List ℕ → α

/-- `c` is a coordinate tuple of an array of the given shape. -/
def InRange (c shape : List ℕ) : Prop := List.Forall₂ (· < ·) c shape

namespace Arr
variable {α β : Type*}

/-- Same shape and same entries. -/
def Same (a b : Arr α) : Prop := a.shape = b.shape ∧ ∀ c, InRange c a.shape → a.get c = b.get c

/-- `ndim`. -/
def ndim (a : Arr α) : ℕ := a.shape.length

/-- `shape[axis]`. -/
def size (a : Arr α) (axis : ℕ) : ℕ := a.shape.getD axis 0

/-- Elementwise function. -/
def map (f : α → β) (a : Arr α) : Arr β := ⟨a.shape, fun c => f (a.get c)⟩

/-- `at.diff(a, axis=axis)`: `a[1:] - a[:-1]` along the axis. -/
def diff [Sub α] (axis : ℕ) (a : Arr α) : Arr α where
  shape := a.shape.set axis (a.size axis - 1)
  get c := a.get (c.set axis (c.getD axis 0 + 1)) - a.get c

/-- `at.take(a, 0, axis=axis)` (not for an axis of length zero). -/
def take0 (axis : ℕ) (a : Arr α) : Arr α where
  shape := a.shape.eraseIdx axis
  get c := a.get (c.insertIdx axis 0)

/-- `at.shape_padaxis(a, axis=axis)`. -/
def padAxis (axis : ℕ) (a : Arr α) : Arr α where
  shape := a.shape.insertIdx axis 1
  get c := a.get (c.eraseIdx axis)

/-- `at.concatenate([a, b], axis=axis)`; the other dimensions agree. -/
def concat2 (axis : ℕ) (a b : Arr α) : Arr α where
  shape := a.shape.set axis (a.size axis + b.size axis)
  get c := if c.getD axis 0 < a.size axis then a.get c else b.get (c.set axis (c.getD axis 0 - a.size axis))

end Arr
end Verif
