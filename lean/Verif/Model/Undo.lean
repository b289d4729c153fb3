import Verif.Model.Dict
import Mathlib.Data.List.Basic
import Mathlib.Logic.Function.Basic

/-! # Conversions of un-valued variables and their undoing

`construct_ir_fgraph` works on an `aesara` `FunctionGraph`: a mutable graph whose `Apply` nodes have
their inputs overwritten by `replace`.  Nodes that leave the graph keep the inputs they had.  This file
models that mutable graph, the feature that records conversions, the value transforms and the step that
undoes the conversions.

Variables are natural numbers.  Each variable has at most one owner node, and every node has one output
(simplification: in the code a node may have several outputs, e.g. scans). -/

namespace Verif.Undo

/-- The three kinds of `Op` told apart by `MeasurableConversionTracker` (rewriting.py:69-81). -/
inductive Kind
  | plain | measurable | valued
  deriving DecidableEq

/-- An `Apply` node: the kind of its `Op`, the function the `Op` stands for, and its inputs.  Random
variables are functions of their parameters here, for fixed states of their random generators.
`runs = false` marks stand-in `Op`s whose `perform` raises (e.g. `MixtureRV`, mixture.py:197-198). -/
structure Node (α : Type) where
  kind : Kind
  fn : List α → α
  inputs : List ℕ
  runs : Bool := true

/-- The owner of each variable (`Variable.owner`); `none` for inputs.  Nodes outside of the graph are
kept here too, as Python objects are. -/
abbrev Heap (α : Type) := ℕ → Option (Node α)

/-- `w` is `v` or one of its ancestors. -/
inductive Anc {α : Type} (h : Heap α) : ℕ → ℕ → Prop
  | refl (v : ℕ) : Anc h v v
  | step {v : ℕ} {n : Node α} {i w : ℕ} : h v = some n → i ∈ n.inputs → Anc h i w → Anc h v w

/-- A `FunctionGraph` with a `MeasurableConversionTracker` (rewriting.py:51-81): `conversions` is
`fgraph.measurable_conversions`. -/
structure FGraph (α : Type) where
  owner : Heap α
  outputs : List ℕ
  conversions : Dict ℕ ℕ

variable {α : Type}

/-- `v in fgraph.variables`: the graph consists of the ancestors of its outputs, because `aesara` prunes
every node that has lost its last client. -/
def FGraph.Has (g : FGraph α) (v : ℕ) : Prop := ∃ o ∈ g.outputs, Anc g.owner o v

/-- One input after `a` has been replaced by `b`. -/
def swap (a b v : ℕ) : ℕ := if v = a then b else v

/-- A node after `a` has been replaced by `b` among its inputs. -/
def Node.subst (a b : ℕ) (n : Node α) : Node α := { n with inputs := n.inputs.map (swap a b) }

open scoped Classical in
/-- Overwrite `a` by `b` in the inputs of the nodes in `S`. -/
noncomputable def rewire (h : Heap α) (S : ℕ → Prop) (a b : ℕ) : Heap α :=
  fun v => if S v then (h v).map (Node.subst a b) else h v

/-- `v.owner` exists and its `Op` is of kind `k`. -/
def HasKind (h : Heap α) (k : Kind) (v : ℕ) : Prop := ∃ n, h v = some n ∧ n.kind = k

/-- The test in `on_change_input` (rewriting.py:69-80): `r` is neither measurable nor valued, `new` is
measurable, and no client of `new` is a `ValuedVariable`.  Simplification: the code tests this after each
client that is moved, here it is tested once all clients are moved. -/
def Tracked (g : FGraph α) (r new : ℕ) : Prop :=
  HasKind g.owner .plain r ∧ HasKind g.owner .measurable new ∧
    ∀ v n, g.Has v → g.owner v = some n → n.kind = .valued → new ∉ n.inputs

/-- The graph part of `FunctionGraph.replace(var, new, import_missing=True)` (`aesara`, used at
rewriting.py:270-274, 290-292 and by every rewrite): the ancestors of `new` are imported, then every client of
`var` in the graph gets `new` as input instead. -/
noncomputable def FGraph.move (g : FGraph α) (a b : ℕ) : FGraph α where
  owner := rewire g.owner (fun v => g.Has v ∨ Anc g.owner b v) a b
  outputs := g.outputs.map (swap a b)
  conversions := g.conversions

open scoped Classical in
/-- `FunctionGraph.replace(var, new, import_missing=True)` with the callback of the tracker
(rewriting.py:69-81).  Nothing happens when `var` is not in the graph. -/
noncomputable def FGraph.replace (g : FGraph α) (a b : ℕ) : FGraph α :=
  if g.Has a then
    if Tracked (g.move a b) a b then
      { g.move a b with conversions := Dict.set g.conversions a b }
    else g.move a b
  else g

/-- Make a new node with output `v`; it is not in the graph yet. -/
def FGraph.make (g : FGraph α) (v : ℕ) (n : Node α) : FGraph α :=
  { g with owner := Function.update g.owner v (some n) }

/-- What the rewrites of `ir_rewriter` do (rewriting.py:276-279): make nodes, and replace variables. -/
inductive Action (α : Type)
  | make (v : ℕ) (n : Node α)
  | convert (r new : ℕ)

/-- One action of a rewrite. -/
noncomputable def FGraph.act (g : FGraph α) : Action α → FGraph α
  | .make v n => g.make v n
  | .convert r new => g.replace r new

/-- `ir_rewriter.rewrite(fgraph)` (rewriting.py:279) as the sequence of what its rewrites do. -/
noncomputable def FGraph.rewrites (g : FGraph α) (l : List (Action α)) : FGraph α := l.foldl FGraph.act g

/-- A transformed value: the value clone `clone`, the new value variable `trans` on the transformed scale,
the variable `back` that transforms it back, the function used for that and its further inputs. -/
structure Moved (α : Type) where
  clone : ℕ
  trans : ℕ
  back : ℕ
  fn : List α → α
  params : List ℕ

/-- `transform_values` (transforms.py:213-240): the value clone is replaced by `backward(trans, params)`.
Simplification: the replacement of the `ValuedVariable` itself by one of the transformed variable is left
out, since it has the same value. -/
noncomputable def FGraph.transform (g : FGraph α) (t : Moved α) : FGraph α :=
  (g.make t.back ⟨.plain, t.fn, t.trans :: t.params, true⟩).replace t.clone t.back

/-- `extra_rewrites.apply(fgraph)` (rewriting.py:281-284). -/
noncomputable def FGraph.transforms (g : FGraph α) (l : List (Moved α)) : FGraph α :=
  l.foldl FGraph.transform g

/-- `fgraph.replace_all` (`aesara`): one replacement after the other. -/
noncomputable def FGraph.replaceAll (g : FGraph α) (l : List (ℕ × ℕ)) : FGraph α :=
  l.foldl (fun g p => g.replace p.1 p.2) g

/-- "Undo un-valued measurable IR rewrites and add the original value variables back in"
(rewriting.py:286-292); `values` is `value_clone_to_value.items()`. -/
noncomputable def FGraph.undo (g : FGraph α) (values : List (ℕ × ℕ)) : FGraph α :=
  g.replaceAll (g.conversions.map (fun p => (p.2, p.1)) ++ values)

/-- The second half of `construct_ir_fgraph` (rewriting.py:276-292): rewrite, transform, undo. -/
noncomputable def FGraph.construct (g : FGraph α) (actions : List (Action α)) (moved : List (Moved α))
    (values : List (ℕ × ℕ)) : FGraph α :=
  ((g.rewrites actions).transforms moved).undo values

/-- Evaluating a variable for given values of the inputs.  `none` when the fuel is used up or when a
stand-in `Op` would have to be run. -/
def evaluate (h : Heap α) (ρ : ℕ → α) : ℕ → ℕ → Option α
  | 0, _ => none
  | fuel + 1, v =>
    match h v with
    | none => some (ρ v)
    | some n => if n.runs then (n.inputs.mapM (evaluate h ρ fuel)).map n.fn else none

end Verif.Undo
