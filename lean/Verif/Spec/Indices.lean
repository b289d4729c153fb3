import Verif.Model.Indices

/-!
# NumPy indexing

`npSelect idx shape` is the array of the coordinates selected by `x[idx]` from an array `x` of the given shape, so that `x[idx]` has the
entry of `x` at these coordinates at every position.  Rules: every entry but `newaxis` uses up one axis; missing entries are full slices;
integer arrays are broadcast against each other; their dimensions stand where the integer arrays stand if these are all adjacent, and
in front otherwise.
-/

namespace Verif

/-- An index entry together with its axis. -/
inductive Item
  | new
  | sl (positions : List ℕ)
  | adv (a : Arr ℕ)

namespace Item

/-- Slices and `newaxis`. -/
def basic : Item → Bool
  | .adv _ => false
  | _ => true

/-- The length of the output dimension of a basic entry. -/
def len : Item → ℕ
  | .new => 1
  | .sl L => L.length
  | .adv _ => 0

/-- The shape of an integer array. -/
def advShape : Item → Option (List ℕ)
  | .adv a => some a.shape
  | _ => none

end Item

/-- A negative position counts from the end. -/
def wrap (n : ℕ) (z : ℤ) : ℕ := if z < 0 then (z + n).toNat else z.toNat

/-- A position counted from the end if it is negative. -/
def fromEnd (n : ℕ) (z : ℤ) : ℤ := if z < 0 then z + n else z

/-- `z` is among the positions of `start:stop:step` on an axis of length `n`: it is on the axis, not before the start and before the stop in the direction of the step, and a whole number of steps
from the first position. -/
def SliceMember (start stop : Option ℤ) (step : ℤ) (n : ℕ) (z : ℤ) : Prop :=
  (0 ≤ z ∧ z < n) ∧
  (0 < step → (∀ b ∈ start, fromEnd n b ≤ z) ∧ (∀ e ∈ stop, z < fromEnd n e) ∧ ∃ k : ℕ, z = start.elim 0 (fun b => max (fromEnd n b) 0) + k * step) ∧
  (step < 0 → (∀ b ∈ start, z ≤ fromEnd n b) ∧ (∀ e ∈ stop, fromEnd n e < z) ∧ ∃ k : ℕ, z = start.elim ((n : ℤ) - 1) (fun b => min (fromEnd n b) (n - 1)) + k * step)

open Classical in
/-- Entries and axes side by side. -/
noncomputable def items : List Index → List ℕ → Except Err (List Item)
  | [], [] => .ok []
  | [], n :: shape => do
    let rest ← items [] shape
    return .sl (List.range n) :: rest
  | .newaxis :: idx, shape => do
    let rest ← items idx shape
    return .new :: rest
  | _ :: _, [] => .error .indexError
  | .slice start stop step :: idx, n :: shape =>
    if step = some 0 then .error .valueError
    else do
      let rest ← items idx shape
      return .sl ((slicePositions start stop (step.getD 1) n).map Int.toNat) :: rest
  | .adv a :: idx, n :: shape =>
    if ∀ c, InRange c a.shape → -(n : ℤ) ≤ a.get c ∧ a.get c < n then do
      let rest ← items idx shape
      return .adv (a.map (wrap n)) :: rest
    else .error .indexError

/-- The integer arrays are all adjacent. -/
def adjacent (its : List Item) : Bool := ((its.dropWhile Item.basic).dropWhile fun i => ! i.basic).all Item.basic

/-- The number of output dimensions in front of those of the integer arrays. -/
def blockAt (its : List Item) : ℕ := if adjacent its then (its.takeWhile Item.basic).length else 0

/-- The selected coordinates: `bs` are the output coordinates of the basic entries, `bc` those of the integer arrays. -/
def pick (bc : List ℕ) : List Item → List ℕ → List ℕ
  | [], _ => []
  | .new :: its, bs => pick bc its bs.tail
  | .sl L :: its, bs => L.getD (bs.headD 0) 0 :: pick bc its bs.tail
  | .adv a :: its, bs => a.get (project bc a.shape) :: pick bc its bs

/-- NumPy indexing. -/
noncomputable def npSelect (idx : List Index) (shape : List ℕ) : Except Err (Arr (List ℕ)) := do
  let its ← items idx shape
  match bshape (its.filterMap Item.advShape) with
  | none => .error .indexError
  | some block =>
    let k := blockAt its
    let basics := (its.filter Item.basic).map Item.len
    return ⟨basics.take k ++ block ++ basics.drop k,
      fun c => pick ((c.drop k).take block.length) its (c.take k ++ c.drop (k + block.length))⟩

/-- Advanced indexing: there is an integer array with at least one dimension. -/
def Advanced (idx : List Index) : Prop := ∃ a, Index.adv a ∈ idx ∧ a.shape ≠ []

end Verif
