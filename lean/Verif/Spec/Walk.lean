import Verif.Model.Walk
import Mathlib.Logic.Relation

/-! # Reachability in graphs -/

namespace Verif.Walk

variable {V : Type}

/-- `b` is an input of `a`. -/
def Edge (G : VGraph V) (a b : V) : Prop := ∃ l, (G a).inputs = some l ∧ b ∈ l

/-- `b` is reached from `a` by following inputs, passing beyond a variable only if `ok` allows it (or via `extra` successors). -/
inductive Reach (G : VGraph V) (ok : V → Prop) (extra : V → List V) : V → V → Prop
  | refl (a) : Reach G ok extra a a
  | edge {a b c} : ok a → Edge G a b → Reach G ok extra b c → Reach G ok extra a c
  | extra {a b c} : b ∈ extra a → Reach G ok extra b c → Reach G ok extra a c

/-- The signed integer types. -/
def SignedInt (d : DType) : Prop := d = .int8 ∨ d = .int16 ∨ d = .int32 ∨ d = .int64

/-- The types with discretely many values. -/
def Discrete (d : DType) : Prop := SignedInt d ∨ d = .uint8 ∨ d = .uint16 ∨ d = .uint32 ∨ d = .uint64 ∨ d = .bool

/-- An unvalued measurable variable: a random quantity whose value is not given. -/
def Random (G : VGraph V) (v : V) : Prop := (∃ l, (G v).inputs = some l) ∧ (G v).isMeasurable = true ∧ (G v).isValued = false

/-- `v` depends on the random quantity `r`: there is a path from `v` to `r` on which no value is given before `r`. -/
def DependsOn (G : VGraph V) (v r : V) : Prop := Random G r ∧ Reach G (fun u => (G u).isValued = false) (fun _ => []) v r

end Verif.Walk
