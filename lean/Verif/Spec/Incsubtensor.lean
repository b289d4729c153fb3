import Verif.Model.Incsubtensor

/-!
# Index expressions as written, and replacement of selected elements
-/

namespace Verif

/-- An entry of a basic index expression as written: an integer or a slice. -/
inductive Written
  | int (z : ℤ)
  | slice (start stop step : Option ℤ)

/-- An integer variable. -/
def intIdx (z : ℤ) : Index := .adv ⟨[], fun _ => z⟩

namespace Written

/-- The index. -/
def index : Written → Index
  | .int z => intIdx z
  | .slice a b c => .slice a b c

/-- The integers in it, in order. -/
def ints : Written → List ℤ
  | .int z => [z]
  | .slice a b c => a.toList ++ b.toList ++ c.toList

/-- A bound in `idx_list`. -/
def part : Option ℤ → Part
  | none => .none
  | some _ => .type

/-- The entry of `idx_list`. -/
def entry : Written → Entry
  | .int _ => .scalar
  | .slice a b c => .slice (part a) (part b) (part c)

end Written

/-- The node Aesara builds for `x[ixs] = data`: all integers become inputs, in order. -/
def basicNode (ixs : List Written) (set_instead_of_inc : Bool) (data : Arr FVal) : IncNode :=
  ⟨some (ixs.map Written.entry), set_instead_of_inc, data, (ixs.flatMap Written.ints).map intIdx⟩

/-- The node Aesara builds for `x[idx] = data` with integer arrays in `idx`. -/
def advancedNode (idx : List Index) (set_instead_of_inc : Bool) (data : Arr FVal) : IncNode := ⟨none, set_instead_of_inc, data, idx⟩

/-- `z` is `y` with the elements selected by `idx` replaced by `data` (broadcast; the last value counts). -/
def Replaced {α : Type} (y : Arr α) (idx : List Index) (data z : Arr α) : Prop :=
  ∃ R, npSelect idx y.shape = .ok R ∧ z.shape = y.shape ∧
    (∀ p, (∀ c, InRange c R.shape → R.get c ≠ p) → z.get p = y.get p) ∧
    (∀ c, InRange c R.shape → (∀ c', InRange c' R.shape → c < c' → R.get c' ≠ R.get c) → z.get (R.get c) = data.get (project c data.shape))

end Verif
