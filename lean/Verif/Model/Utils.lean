import Mathlib.Data.List.Basic
import Mathlib.Data.Fin.Basic

/-!
# `rvs_to_value_vars` and `change_rv_size` (`/repo/aeppl/utils.py:38-78, 144-227`)
-/

namespace Verif.Utils

/-- An expression graph, seen as a tree (sharing does not matter for evaluation): variables without an owner, random variables identified
by a name, and other nodes. -/
inductive Tm (L R F : Type)
  | leaf (v : L)
  | rv (id : R) (n : ℕ) (args : Fin n → Tm L R F)
  | op (f : F) (n : ℕ) (args : Fin n → Tm L R F)

namespace Tm
variable {L R F : Type} [DecidableEq R]

/-- `FunctionGraph.replace(k, t, import_missing=True)` (external to the repository): every use of `k` in the graph becomes `t`; uses of `k`
inside `t` itself stay, because the clients of `k` are collected before `t` is imported. -/
def replace (k : R) (t : Tm L R F) : Tm L R F → Tm L R F
  | leaf v => leaf v
  | rv id n args => if id = k then t else rv id n fun i => replace k t (args i)
  | op f n args => op f n fun i => replace k t (args i)

end Tm

/-- utils.py:144-227 `rvs_to_value_vars`.  Its `replace_fn` writes back the entry it has just read (219-221), so after the walk
`replacements` is `initial_replacements`, in the same order, and `fg.replace_all` (191-193) replaces the entries one after the other.
The graphs are cloned except for the variables that are keys (182-183), so the keys are found in the clone.  Simplifications: the
keys are random variables; the values of the dictionary share no intermediate node that also depends on a key (replacing edits nodes in
place, so such a node would be changed in both). -/
def rvsToValueVars {L R F : Type} [DecidableEq R] (graphs : List (Tm L R F)) (initial_replacements : List (R × Tm L R F)) :
    List (Tm L R F) :=
  if initial_replacements.isEmpty then graphs
  else graphs.map fun g => initial_replacements.foldl (fun g p => Tm.replace p.1 p.2 g) g

/-- What `change_rv_size` reads of a random variable: the number of dimensions of one draw, the `size` input (empty: not given), the
broadcast batch shape of its parameters, and the remaining inputs and attributes (generator, parameters, data type, name, tag). -/
structure RVNode (P : Type) where
  ndim_supp : ℕ
  size : List ℕ
  param_batch : List ℕ
  rest : P

/-- Batch shape of a random variable (`RandomVariable._infer_shape`, external): the given size, else that of the parameters. -/
def RVNode.batchShape {P : Type} (n : RVNode P) : List ℕ := if n.size.isEmpty then n.param_batch else n.size

/-- utils.py:38-78 `change_rv_size`; `new_size` is already a vector (`at.atleast_1d`). -/
def changeRvSize {P : Type} (rv : RVNode P) (new_size : List ℕ) (expand : Bool) : RVNode P :=
  let new_size :=
    if expand then
      let size := if rv.ndim_supp = 0 ∧ rv.size.length = 0 then rv.batchShape else rv.size
      new_size ++ size
    else new_size
  { rv with size := new_size }

end Verif.Utils
