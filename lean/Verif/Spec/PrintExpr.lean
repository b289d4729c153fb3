import Verif.Model.PrintExpr

/-!
# Reading expressions

The usual way to read an expression with operators: `or` is weaker than `and`, this is weaker than comparisons, and these are weaker than the arithmetic operators.  A row of comparisons has no meaning.
-/

namespace Verif.PrintExpr
open Verif

inductive Tok
  | opening
  | closing
  | word (w : Text)
deriving DecidableEq

def flush (acc : Text) : List Tok := if acc = [] then [] else [.word acc]

/-- Words and parentheses; `acc` is the word that has been begun. -/
def lex : Text → Text → List Tok
  | acc, [] => flush acc
  | acc, c :: cs =>
    if c = '(' then flush acc ++ .opening :: lex [] cs
    else if c = ')' then flush acc ++ .closing :: lex [] cs
    else if c = ' ' then flush acc ++ lex [] cs
    else lex (acc ++ [c]) cs

/-- The number of parentheses that are open after a token. -/
def deep (d : ℕ) : Tok → ℕ
  | .opening => d + 1
  | .closing => d - 1
  | .word _ => d

/-- `t` in front of the first piece. -/
def consHead (t : Tok) : List (List Tok) → List (List Tok)
  | [] => [[t]]
  | p :: ps => (t :: p) :: ps

/-- The pieces between the words `w` outside of parentheses. -/
def splitTop (w : Text) : ℕ → List Tok → List (List Tok)
  | _, [] => [[]]
  | d, t :: ts => if d = 0 ∧ t = .word w then [] :: splitTop w d ts else consHead t (splitTop w (deep d t) ts)

/-- What is in front of the first comparison sign outside of parentheses, the sign, and the rest. -/
def firstCmp (latex : Bool) : ℕ → List Tok → Option (List Tok × Cmp × List Tok)
  | _, [] => none
  | d, t :: ts =>
    match [Cmp.ge, .gt, .le, .lt, .eq].find? fun r => d = 0 ∧ t = .word (r.text latex) with
    | some r => some ([], r, ts)
    | none => (firstCmp latex (deep d t) ts).map fun q => (t :: q.1, q.2)

/-- What is in front of the parenthesis that closes the `d + 1`-st one, and the rest. -/
def matching : ℕ → List Tok → Option (List Tok × List Tok)
  | _, [] => none
  | 0, .closing :: ts => some ([], ts)
  | d, t :: ts => (matching (deep d t) ts).map fun q => (t :: q.1, q.2)

/-- From the weakest to the strongest. -/
inductive Level
  | op (o : Op)
  | cmp

def levels : List Level := [.op .or, .op .and, .cmp, .op .add, .op .mul, .op .dot]

/-- A word that is a sign. -/
def isSign (latex : Bool) (w : Text) : Prop := (∃ o : Op, w = o.text latex) ∨ ∃ r : Cmp, w = r.text latex

instance (latex : Bool) (w : Text) : Decidable (isSign latex w) :=
  decidable_of_iff (w ∈ [Op.add, .mul, .dot, .and, .or].map (Op.text latex) ∨ w ∈ [Cmp.ge, .gt, .le, .lt, .eq].map (Cmp.text latex)) <| by
    rw [isSign]
    refine or_congr ?_ ?_
    · simp only [List.mem_map]
      exact ⟨fun ⟨o, _, h⟩ => ⟨o, h.symm⟩, fun ⟨o, h⟩ => ⟨o, by cases o <;> simp, h.symm⟩⟩
    · simp only [List.mem_map]
      exact ⟨fun ⟨o, _, h⟩ => ⟨o, h.symm⟩, fun ⟨o, h⟩ => ⟨o, by cases o <;> simp, h.symm⟩⟩

def ofList (o : Op) (l : List Expr) : Expr := .op o l.length l.get

/-- A name, or an expression in parentheses. -/
def readAtom (latex : Bool) (inner : List Tok → Option Expr) : List Tok → Option Expr
  | [.word w] => if isSign latex w then none else some (.leaf w)
  | .opening :: ts =>
    match matching 0 ts with
    | some (ts, []) => inner ts
    | _ => none
  | _ => none

def readAt (latex : Bool) (inner : List Tok → Option Expr) : List Level → List Tok → Option Expr
  | [], ts => readAtom latex inner ts
  | .op o :: ls, ts =>
    match splitTop (o.text latex) 0 ts with
    | [p] => readAt latex inner ls p
    | ps => (ps.mapM (readAt latex inner ls)).map (ofList o)
  | .cmp :: ls, ts =>
    match firstCmp latex 0 ts with
    | none => readAt latex inner ls ts
    | some (l, r, rest) =>
      match readAt latex inner ls l, readAt latex inner ls rest with
      | some a, some b => some (.cmp r a b)
      | _, _ => none

/-- Reading with at most `k` parentheses inside each other. -/
def readToks (latex : Bool) : ℕ → List Tok → Option Expr
  | 0, _ => none
  | k + 1, ts => readAt latex (readToks latex k) levels ts

/-- The expression that a text stands for, if any. -/
def reading (latex : Bool) (t : Text) : Option Expr := readToks latex (t.length + 1) (lex [] t)

/-- Names are single words that are not signs, and operators have two or more operands. -/
def Proper (latex : Bool) : Expr → Prop
  | .leaf name => name ≠ [] ∧ (∀ c ∈ name, c ≠ '(' ∧ c ≠ ')' ∧ c ≠ ' ') ∧ ¬ isSign latex name
  | .op _ n args => 2 ≤ n ∧ ∀ i, Proper latex (args i)
  | .cmp _ a b => Proper latex a ∧ Proper latex b

def Expr.isCmp : Expr → Prop
  | .cmp _ _ _ => True
  | _ => False

/-- No comparison is an operand of a comparison or of an arithmetic operator. -/
def Plain : Expr → Prop
  | .leaf _ => True
  | .op o _ args => ∀ i, Plain (args i) ∧ (o ≠ .and → o ≠ .or → ¬ (args i).isCmp)
  | .cmp _ a b => Plain a ∧ Plain b ∧ ¬ a.isCmp ∧ ¬ b.isCmp

end Verif.PrintExpr
