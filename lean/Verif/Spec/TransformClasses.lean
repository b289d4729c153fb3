import Verif.Model.TransformClasses

/-!
# Specification: what transforms of other calls may change
-/

namespace Verif.TClass
open Verif

variable {K P T A : Type}

/-- What holds for a class `c`: its own entry, or if it has none that of its parent. -/
inductive Nearest {α : Type} (classes : List (ClassInfo T)) (reg : ℕ → Option α) : ℕ → α → Prop
  | here {c : ℕ} {x : α} : reg c = some x → Nearest classes reg c x
  | up {c p : ℕ} {i : ClassInfo T} {x : α} : reg c = none → classes[c]? = some i → i.parent = some p → Nearest classes reg p x → Nearest classes reg c x

/-- The op has the log-probability function `f` of its own distribution. -/
def Own (F : Funs K P T A) (s : St K P T) (op : Op P) (f : A → Except Err A) : Prop :=
  ∃ k, Nearest s.classes (Dict.get? s.lp) op.cls (.fn k) ∧ f = F.kernel k op.attrs

/-- Change of variables: the log-probability at the value taken back, with the Jacobian term. -/
def changed (F : Funs K P T A) (t : T) (f : A → Except Err A) (z : A) : Except Err A :=
  match f (F.back t z) with
  | .ok r => .ok (F.add r (F.jac t z))
  | .error e => .error e

/-- States that can come up: parents are older classes, and registries have entries for existing classes only; classes of default transforms are those made by `_create_transformed_rv_op`. -/
structure WF (s : St K P T) : Prop where
  parent : ∀ (c : ℕ) (i : ClassInfo T) (p : ℕ), s.classes[c]? = some i → i.parent = some p → p < c
  lp : ∀ c, s.classes.length ≤ c → Dict.get? s.lp c = none
  df : ∀ c, s.classes.length ≤ c → Dict.get? s.df c = none
  made : ∀ c d, Dict.get? s.df c = some d → d < s.classes.length ∧ (∃ (i : ClassInfo T) (t : T), s.classes[d]? = some i ∧ i.transform = some t) ∧
    ∃ rvOp : Op P, Dict.get? s.lp d = some (.trans rvOp) ∧ rvOp.cls < d

/-- `c` is `c'` or derived from it. -/
inductive Derived (classes : List (ClassInfo T)) (c' : ℕ) : ℕ → Prop
  | self : Derived classes c' c'
  | up {c p : ℕ} {i : ClassInfo T} : classes[c]? = some i → i.parent = some p → Derived classes c' p → Derived classes c' c

/-- What other calls and users may do: request transforms for any variable, and derive classes. -/
inductive Later (fresh : P) (s : St K P T) : St K P T → Prop
  | refl : Later fresh s s
  | request {s' : St K P T} (op : Op P) (req : Req T) : Later fresh s s' → op.cls < s'.classes.length → Later fresh s (s'.request fresh op req).2
  | derive {s' : St K P T} (parent : ℕ) (own : Option K) : Later fresh s s' → parent < s'.classes.length → Later fresh s (s'.derive parent own)

/-- `c` is `c'`, or derived from it without an entry of its own in the registry on the way. -/
inductive Inherits {α : Type} (classes : List (ClassInfo T)) (reg : ℕ → Option α) (c' : ℕ) : ℕ → Prop
  | self : Inherits classes reg c' c'
  | up {c p : ℕ} {i : ClassInfo T} : reg c = none → classes[c]? = some i → i.parent = some p → Inherits classes reg c' p → Inherits classes reg c' c

end Verif.TClass
