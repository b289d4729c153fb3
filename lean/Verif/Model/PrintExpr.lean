import Verif.Model.Printing

/-!
# Printed expressions (`/repo/aeppl/printing.py:622-694`)
-/

namespace Verif.PrintExpr
open Verif

/-- Operations that are printed with an operator between the operands. -/
inductive Op
  | add
  | mul
  | dot
  | and
  | or
deriving DecidableEq

/-- Comparisons. -/
inductive Cmp
  | ge
  | gt
  | le
  | lt
  | eq
deriving DecidableEq

/-- Expressions.  A leaf is anything that is printed without looking at operators: the name of a variable, a random variable (printing.py:190-197) or the text of a constant. -/
inductive Expr
  | leaf (name : Text)
  | op (o : Op) (n : ℕ) (args : Fin n → Expr)
  | cmp (r : Cmp) (a b : Expr)

/-- printing.py:622-633, 651-653 (plain text); printing.py:686-691 (LaTeX), where sums are printed as in plain text. -/
def Op.text : Bool → Op → Text
  | _, .add => "+".toList
  | false, .mul => "*".toList
  | false, .dot => "@".toList
  | false, .and => "and".toList
  | false, .or => "or".toList
  | true, .mul => "\\odot".toList
  | true, .dot => "\\;".toList
  | true, .and => "\\land".toList
  | true, .or => "\\lor".toList

/-- printing.py:665-669 (plain text); printing.py:680-684 (LaTeX). -/
def Cmp.text : Bool → Cmp → Text
  | false, .ge => ">=".toList
  | false, .gt => ">".toList
  | false, .le => "<=".toList
  | false, .lt => "<".toList
  | false, .eq => "==".toList
  | true, .ge => "\\ge".toList
  | true, .gt => "\\gt".toList
  | true, .le => "\\le".toList
  | true, .lt => "\\lt".toList
  | true, .eq => "=".toList

/-- The text printed for an expression.  Operations are printed by `OperatorPrinter` (external), which writes the operator between the operands, or in front of a single one, and always puts parentheses around;
comparisons are printed by `PatternPrinter` (external), which fills the operands into the pattern and never puts parentheses.  Both ask for the text of the operands with a precedence that no printer looks at.
Simplification: no `memo`, which holds what was printed for the same operand before. -/
def render (latex : Bool) : Expr → Text
  | .leaf name => name
  | .op o n args => '(' :: ((if n = 1 then o.text latex else []) ++ joinText (' ' :: o.text latex ++ [' ']) (List.ofFn fun i => render latex (args i))) ++ [')']
  | .cmp r a b => render latex a ++ ' ' :: (r.text latex ++ ' ' :: render latex b)

end Verif.PrintExpr
