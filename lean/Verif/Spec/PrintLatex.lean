import Verif.Model.PrintLatex
import Verif.Spec.PrintExpr

/-!
# Expressions that differ only in the grouping of comparisons and negations
-/

namespace Verif.PrintLatex
open Verif Verif.PrintExpr

/-- Names are single words that are not signs, and operators have two or more operands. -/
def Proper : LExpr → Prop
  | .leaf name => name ≠ [] ∧ (∀ c ∈ name, c ∉ " (){}".toList) ∧ ¬ isSign true name ∧ name ∉ ["\\lnot".toList, "\\frac".toList, "\\sqrt".toList, "^".toList]
  | .op _ n args => 2 ≤ n ∧ ∀ i, Proper (args i)
  | .cmp _ a b => Proper a ∧ Proper b
  | .inv a => Proper a
  | .frac a b => Proper a ∧ Proper b
  | .sqrt a => Proper a
  | .pow a b => Proper a ∧ Proper b

/-- The same signs and names in the same order, inside the same parentheses, fractions, roots and powers: `(¬ a) > b` and `¬ (a > b)`, or `(a > b) > c` and `a > (b > c)`. -/
inductive Regrouped : LExpr → LExpr → Prop
  | refl (e : LExpr) : Regrouped e e
  | symm {e e' : LExpr} : Regrouped e e' → Regrouped e' e
  | trans {e e' e'' : LExpr} : Regrouped e e' → Regrouped e' e'' → Regrouped e e''
  | inv_cmp (r : Cmp) (a b : LExpr) : Regrouped (.cmp r (.inv a) b) (.inv (.cmp r a b))
  | cmp_cmp (r s : Cmp) (a b c : LExpr) : Regrouped (.cmp s (.cmp r a b) c) (.cmp r a (.cmp s b c))
  | op (o : Op) {n : ℕ} {args args' : Fin n → LExpr} : (∀ i, Regrouped (args i) (args' i)) → Regrouped (.op o n args) (.op o n args')
  | cmp (r : Cmp) {a a' b b' : LExpr} : Regrouped a a' → Regrouped b b' → Regrouped (.cmp r a b) (.cmp r a' b')
  | inv {a a' : LExpr} : Regrouped a a' → Regrouped (.inv a) (.inv a')
  | frac {a a' b b' : LExpr} : Regrouped a a' → Regrouped b b' → Regrouped (.frac a b) (.frac a' b')
  | sqrt {a a' : LExpr} : Regrouped a a' → Regrouped (.sqrt a) (.sqrt a')
  | pow {a a' b b' : LExpr} : Regrouped a a' → Regrouped b b' → Regrouped (.pow a b) (.pow a' b')

/-- Anything but a comparison or a negation. -/
def LExpr.closed : LExpr → Prop
  | .cmp _ _ _ => False
  | .inv _ => False
  | _ => True

/-- What is compared with something on the right is neither a comparison nor a negation. -/
def LeftPlain : LExpr → Prop
  | .leaf _ => True
  | .op _ _ args => ∀ i, LeftPlain (args i)
  | .cmp _ a b => a.closed ∧ LeftPlain a ∧ LeftPlain b
  | .inv a => LeftPlain a
  | .frac a b => LeftPlain a ∧ LeftPlain b
  | .sqrt a => LeftPlain a
  | .pow a b => LeftPlain a ∧ LeftPlain b

/-- The value of an expression made of truth values with comparisons and negations; truth values are compared like the numbers 0 and 1. -/
def truth (ρ : Text → Bool) : LExpr → Option Bool
  | .leaf x => some (ρ x)
  | .cmp r a b =>
    match truth ρ a, truth ρ b with
    | some a, some b => some (match r with
      | .ge => b ≤ a
      | .gt => b < a
      | .le => a ≤ b
      | .lt => a < b
      | .eq => a = b)
    | _, _ => none
  | .inv a => (truth ρ a).map not
  | _ => none

end Verif.PrintLatex
