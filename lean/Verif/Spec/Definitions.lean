import Verif.Model.Definitions

/-! # What is defined where -/

namespace Verif.Defs
open Verif

/-- The variables that the string of a variable mentions directly. -/
def PGraph.deps (G : PGraph) (v : ℕ) : List ℕ :=
  match G.kind v with
  | .rv _ params _ => params
  | .op inputs _ => inputs
  | _ => []

/-- The graph has no cycles: inputs have smaller numbers. -/
def PGraph.Acyclic (G : PGraph) : Prop := ∀ v, ∀ u ∈ G.deps v, u < v

/-- `v` is, or depends on, `u`. -/
inductive PGraph.Reaches (G : PGraph) : ℕ → ℕ → Prop
  | refl (v : ℕ) : G.Reaches v v
  | step {v w u : ℕ} : w ∈ G.deps v → G.Reaches w u → G.Reaches v u

/-- Random variables. -/
def PGraph.IsRV (G : PGraph) (v : ℕ) : Prop := ∃ op params format, G.kind v = .rv op params format

/-- Variables without a name, which get a letter. -/
def PGraph.Unnamed (G : PGraph) (v : ℕ) : Prop := G.name v = none ∨ G.name v = some []

/-- The line `name ~ op(parameters) space`, or in LaTeX `name \sim op\left(parameters\right)\,  space`. -/
def lineText (latex : Bool) (name op params space : Text) : Text :=
  if latex then name ++ " \\sim ".toList ++ op ++ "\\left(".toList ++ params ++ "\\right)\\,  ".toList ++ space else name ++ " ~ ".toList ++ op ++ "(".toList ++ params ++ ") ".toList ++ space

/-- The definition of `v`, when `text` are the strings printed for all variables. -/
def PGraph.IsDefinition (G : PGraph) (text : ℕ → Text) (v : ℕ) (s : Text) : Prop :=
  ∃ op params format, G.kind v = .rv op params format ∧ s = lineText G.latex (text v) op (joinText [',', ' '] ((params.map text).mapIdx format)) (G.space v (text v))

end Verif.Defs
