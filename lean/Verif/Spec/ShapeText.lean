import Verif.Model.ShapeText

/-! # What a line of the preamble says about the values of a variable -/

namespace Verif.Defs
open Verif

/-- The kinds of numbers that lines distinguish. -/
inductive NumKind
  | integers
  | naturals
  | reals
  | other
deriving DecidableEq

/-- Signed and unsigned integers, real numbers of any precision, and the rest. -/
def DType.kind : DType → NumKind
  | .int _ => .integers
  | .uint _ => .naturals
  | .float _ => .reals
  | .bool => .other
  | .complex _ => .other

/-- A graph whose variables have these types and shapes. -/
def PGraph.Shaped (G : PGraph) (ty : ℕ → DType) (dims : ℕ → List Dim) : Prop := ∀ v name, G.space v name = spaceText G.latex (ty v) (dims v) name

end Verif.Defs
