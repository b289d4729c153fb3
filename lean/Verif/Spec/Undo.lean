import Verif.Model.Undo

/-! # What undoing conversions has to achieve

The meaning of a graph is an assignment of a value to every variable that agrees with all its nodes. -/

namespace Verif.Undo
variable {α : Type}

/-- `D` gives every variable the value its node computes from the values of the inputs. -/
def Meaning (h : Heap α) (D : ℕ → α) : Prop := ∀ v n, h v = some n → D v = n.fn (n.inputs.map D)

/-- Every node of `h` is still there in `h'`, with the same `Op`, and its inputs have the same values. -/
def SameNodes (D : ℕ → α) (h h' : Heap α) : Prop :=
  ∀ v n, h v = some n → ∃ n', h' v = some n' ∧ n'.kind = n.kind ∧ n'.fn = n.fn ∧ n'.runs = n.runs ∧
    n'.inputs.map D = n.inputs.map D

/-- The rewrites make new nodes with the intended meaning and replace variables by others with the same
meaning. -/
def SoundRewrites (D : ℕ → α) : FGraph α → List (Action α) → Prop
  | _, [] => True
  | g, .make v n :: l => g.owner v = none ∧ D v = n.fn (n.inputs.map D) ∧ SoundRewrites D (g.act (.make v n)) l
  | g, .convert r new :: l => D r = D new ∧ SoundRewrites D (g.act (.convert r new)) l

/-- The transforms use new variables and parameters from the graph; transforming back gives the value. -/
def SoundMoves (D : ℕ → α) : FGraph α → List (Moved α) → Prop
  | _, [] => True
  | g, t :: l => g.owner t.back = none ∧ ¬ g.Has t.back ∧ g.owner t.trans = none ∧ t.trans ≠ t.back ∧ (∀ p ∈ t.params, g.Has p) ∧
      D t.back = t.fn (D t.trans :: t.params.map D) ∧ D t.clone = D t.back ∧ SoundMoves D (g.transform t) l

/-- The names of transformed values are not used for the new variables. -/
def DistinctMoves (moved : List (Moved α)) : Prop :=
  ∀ s ∈ moved, ∀ t ∈ moved, s.clone ≠ t.back ∧ s.clone ≠ t.trans

/-- None of the recorded variables was computed from the result of another recorded conversion or from a
transformed value. -/
def Independent (g : FGraph α) (moved : List (Moved α)) : Prop :=
  ∀ p ∈ g.conversions, (∀ q ∈ g.conversions, ¬ Anc g.owner p.1 q.2) ∧ ∀ t ∈ moved, ¬ Anc g.owner p.1 t.clone

/-- `value_clone_to_value`: each value clone goes to an input with the same value, or, if it was
transformed, to some input (the value on the transformed scale). -/
def ValueMap (D : ℕ → α) (g : FGraph α) (moved : List (Moved α)) (values : List (ℕ × ℕ)) : Prop :=
  ∀ p ∈ values, g.owner p.2 = none ∧ (∀ q ∈ g.conversions, p.2 ≠ q.2) ∧ (∀ t ∈ moved, p.2 ≠ t.clone) ∧
    (D p.1 = D p.2 ∨ ∃ t ∈ moved, p.1 = t.clone)

end Verif.Undo
