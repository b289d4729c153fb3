import Verif.Model.FVal
import Mathlib.Data.List.Dedup

/-!
# What printed text should be (C77, C78, C79, C81)
-/

namespace Verif.PrintSpec

/-- The variable has no name, or an empty one. -/
def Unnamed {V : Type} (name : V → Option (List Char)) (v : V) : Prop := name v = none ∨ name v = some []

/-- `names` are proper names for the variables `vs` printed from a graph: every variable has one name, named variables their own,
unnamed ones a letter that no variable of the graph has as its name, and different unnamed variables have different names. -/
def Proper {V : Type} (name : V → Option (List Char)) (graph vs : List V) (names : List (List Char)) : Prop :=
  ∃ nm : V → List Char, names = vs.map nm ∧
    (∀ v ∈ vs, ¬ Unnamed name v → name v = some (nm v)) ∧
    (∀ v ∈ vs, Unnamed name v → (∃ c : Char, nm v = [c] ∧ c.isAlpha) ∧ ∀ w ∈ graph, name w ≠ some (nm v)) ∧
    (∀ v ∈ vs, ∀ w ∈ vs, Unnamed name v → Unnamed name w → nm v = nm w → v = w)

open Classical in
/-- How many of the letters a–z, A–Z are not names of variables of the graph. -/
noncomputable def freeLetters {V : Type} (name : V → Option (List Char)) (graph : List V) : ℕ :=
  (("abcdefghijklmnopqrstuvwxyzABCDEFGHIJKLMNOPQRSTUVWXYZ".toList.filter fun c => ∀ w ∈ graph, name w ≠ some [c])).length

open Classical in
/-- How many different unnamed variables there are in the list. -/
noncomputable def unnamedCount {V : Type} (name : V → Option (List Char)) (vs : List V) : ℕ :=
  (vs.filter fun v => Unnamed name v).dedup.length

/-- `lines` are the declarations `v` broken into lines: every declaration once and in order, no empty line, a line goes on only
while what it holds is under the width, and is ended only when it is not. -/
structure Wrapped (width : ℕ) (v : List (List Char)) (lines : List (List (List Char))) : Prop where
  all : lines.flatten = v
  nonempty : ∀ line ∈ lines, line ≠ []
  under : ∀ line ∈ lines, (line.dropLast.map List.length).sum < width
  full : ∀ line ∈ lines.dropLast, width ≤ (line.map List.length).sum

/-- `parts` with `sep` between them. -/
def sepBy (sep : List Char) (parts : List (List Char)) : List Char := (parts.intersperse sep).flatten

/-- `ls` are the lines of `text`. -/
def LinesOf (text : List Char) (ls : List (List Char)) : Prop := ls ≠ [] ∧ (∀ l ∈ ls, '\n' ∉ l) ∧ text = sepBy ['\n'] ls

/-- A line moved to the right by two blanks; a line of blanks stays as it is. -/
def shifted (l : List Char) : List Char := if ∀ c ∈ l, c.isWhitespace then l else "  ".toList ++ l

/-- Lines in an environment, with further lines before the end. -/
def boxed (env : List Char) (inner last : List (List Char)) : List (List Char) :=
  ["\\begin{".toList ++ env ++ "}".toList] ++ inner.map shifted ++ last ++ ["\\end{".toList ++ env ++ "}".toList]

/-- An entry of an index: `i` or `a:b:c` with optional parts. -/
inductive Ix (ι : Type)
  | one (i : ι)
  | slice (start stop step : Option ι)

/-- The variables in an entry, in order. -/
def Ix.vars {ι : Type} : Ix ι → List ι
  | .one i => [i]
  | .slice a b c => a.toList ++ b.toList ++ c.toList

/-- Python's notation for an entry. -/
def Ix.render {ι : Type} (p : ι → List Char) : Ix ι → List Char
  | .one i => p i
  | .slice a b none => (a.map p).getD [] ++ ":".toList ++ (b.map p).getD []
  | .slice a b (some c) => (a.map p).getD [] ++ ":".toList ++ (b.map p).getD [] ++ ":".toList ++ p c

/-- Python's notation for `obj[ix₁, ix₂, …]`. -/
def renderIndexing {ι : Type} (p : ι → List Char) (obj : ι) (ixs : List (Ix ι)) : List Char :=
  p obj ++ "[".toList ++ sepBy ", ".toList (ixs.map (Ix.render p)) ++ "]".toList

end Verif.PrintSpec
