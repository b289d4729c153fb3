import Verif.Model.PrintExpr

/-!
# Printed expressions with quotients, roots, powers and negations (`/repo/aeppl/printing.py:680-694`)
-/

namespace Verif.PrintLatex
open Verif Verif.PrintExpr

/-- Expressions.  A leaf is anything that is printed without looking at operators, as in `PrintExpr.Expr`. -/
inductive LExpr
  | leaf (name : Text)
  | op (o : Op) (n : ℕ) (args : Fin n → LExpr)
  | cmp (r : Cmp) (a b : LExpr)
  | inv (a : LExpr)
  | frac (a b : LExpr)
  | sqrt (a : LExpr)
  | pow (a b : LExpr)

/-- printing.py:688 (`at.invert`), 692 (`at.true_divide`), 693 (`at.sqrt`). -/
def lnotText : Text := "\\lnot".toList
def fracText : Text := "\\frac".toList
def sqrtText : Text := "\\sqrt".toList

/-- The LaTeX text of an expression.  Operations and comparisons (printing.py:680-691) are printed as in `PrintExpr.render true`; negations, quotients, roots and powers (printing.py:688, 692-694) are printed by
`PatternPrinter` (external), which fills the texts of the operands into the pattern and never puts parentheses.  Simplification: no `memo`, which holds what was printed for the same operand before. -/
def latexText : LExpr → Text
  | .leaf name => name
  | .op o n args => '(' :: ((if n = 1 then o.text true else []) ++ joinText (' ' :: o.text true ++ [' ']) (List.ofFn fun i => latexText (args i))) ++ [')']
  | .cmp r a b => latexText a ++ ' ' :: (r.text true ++ ' ' :: latexText b)
  | .inv a => lnotText ++ ' ' :: latexText a
  | .frac a b => fracText ++ '{' :: (latexText a ++ '}' :: '{' :: (latexText b ++ ['}']))
  | .sqrt a => sqrtText ++ '{' :: (latexText a ++ ['}'])
  | .pow a b => '{' :: (latexText a ++ '}' :: '^' :: '{' :: (latexText b ++ ['}']))

end Verif.PrintLatex
