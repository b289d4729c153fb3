import Verif.Model.Nd
import Mathlib.Algebra.BigOperators.Group.Finset.Basic
import Mathlib.Data.Finite.Prod
import Mathlib.Data.Fintype.Defs
import Mathlib.Data.Set.Finite.Range

/-! # Arrays of a given shape as vectors of real numbers -/

namespace Verif

/-- The coordinates of an array of shape `s`. -/
def Ix (s : List ℕ) : Type := {c : List ℕ // InRange c s}

theorem inRange_finite : ∀ s : List ℕ, {c : List ℕ | InRange c s}.Finite
  | [] => (Set.finite_singleton []).subset fun c hc => by cases hc; rfl
  | n :: s => by
    refine (((Set.finite_lt_nat n).prod (inRange_finite s)).image fun p => p.1 :: p.2).subset fun c hc => ?_
    cases hc with
    | cons h1 h2 => exact ⟨(_, _), ⟨h1, h2⟩, rfl⟩

instance (s : List ℕ) : Finite (Ix s) := (inRange_finite s).to_subtype
noncomputable instance (s : List ℕ) : Fintype (Ix s) := Fintype.ofFinite _
instance (s : List ℕ) : DecidableEq (Ix s) := inferInstanceAs (DecidableEq {c : List ℕ // InRange c s})

open Classical in
/-- An array from its entries. -/
noncomputable def toArr {α : Type*} [Zero α] (s : List ℕ) (x : Ix s → α) : Arr α := ⟨s, fun c => if h : InRange c s then x ⟨c, h⟩ else 0⟩

/-- The entries of an array. -/
def ofArr {α : Type*} (s : List ℕ) (a : Arr α) : Ix s → α := fun c => a.get c.1

/-- `at.cumsum(a, axis=axis)`: at every position the sum of the entries up to it along the axis. -/
def Arr.cumsum {α : Type*} [AddCommMonoid α] (axis : ℕ) (a : Arr α) : Arr α where
  shape := a.shape
  get c := ∑ k ∈ Finset.range (c.getD axis 0 + 1), a.get (c.set axis k)

end Verif
