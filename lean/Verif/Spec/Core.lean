import Verif.Model.CondLogprob

/-! # Specification of the core API, in terms of the request and of the backend's answers -/

namespace Verif.Cond
open Verif

variable {V N D T : Type} [DecidableEq V] [DecidableEq N] [DecidableEq D]

/-- Facts about Aesara graphs and `_logprob` implementations the core API relies on. -/
structure Contract (B : Backend V N D T) : Prop where
  /-- the measurable outputs of a node are distinct outputs of that node -/
  nodup : ∀ n, (B.measurableOutputs n).Nodup
  owner : ∀ n, ∀ o ∈ B.measurableOutputs n, B.owner o = some n
  /-- `_logprob` gives one term per value when it gets as many values as there are measurable outputs -/
  arity : ∀ n vs lps, B.logprob n vs = .ok lps → vs.length = (B.measurableOutputs n).length →
    lps.length = (B.measurableOutputs n).length
  /-- rewriting keeps the number of graph outputs and of values -/
  rewrite : ∀ d outs vals, B.rewrite d = .ok (outs, vals) → outs.length = d.length ∧ vals.length = d.length

/-- No rewrite replaces values (no transforms, no `IncSubtensor`): each graph output carries the value it was given. -/
def KeepsValues (B : Backend V N D T) : Prop :=
  ∀ d outs vals, B.rewrite d = .ok (outs, vals) → vals = d.map Prod.snd ∧
    ∀ (i : ℕ) o, outs[i]? = some (some o) → (d.map Prod.snd)[i]? = some o.val

/-- Every node has at most one measurable output (everything except `Scan`). -/
def SingleOutput (B : Backend V N D T) : Prop := ∀ n, (B.measurableOutputs n).length ≤ 1

/-- Distinct elements in order of first occurrence. -/
def firstOcc : List V → List V
  | [] => []
  | a :: l => a :: (firstOcc l).filter (· ≠ a)

/-- After graph conversion, the requested variable `v` is the output `o` with value `x`. -/
def Converts (B : Backend V N D T) (d : Dict V V) (v o x : V) : Prop :=
  ∃ outs vals, B.rewrite d = .ok (outs, vals) ∧ ∃ i : ℕ, (d.map Prod.fst)[i]? = some v ∧ outs[i]? = some (some ⟨o, x⟩)

/-- **C05, full claim**: the term of `v` is the component belonging to `v`'s output of the node's log-probability, evaluated with each
output at its own value. -/
def OwnValue (B : Backend V N D T) (d : Dict V V) (terms : Dict V T) : Prop :=
  ∀ v o x n, Converts B d v o x → B.owner o = some n →
    ∀ ys : List V, ys.length = (B.measurableOutputs n).length →
      (∀ (j : ℕ) o' y, (B.measurableOutputs n)[j]? = some o' → ys[j]? = some y → ∃ v', Converts B d v' o' y) →
      ∃ lps, B.logprob n ys = .ok lps ∧ ∃ j : ℕ, (B.measurableOutputs n)[j]? = some o ∧ lps[j]? = Dict.get? terms v

/-- **C03, full claim**: value variables in the order of the (distinct, not realized) arguments. -/
def ArgOrder (rvs clones : List V) (realized : Dict V V) (vvs : List V) : Prop :=
  vvs = ((firstOcc rvs).filter (· ∉ Dict.keys realized)).map fun v => (Dict.get? (rvValues rvs clones realized) v).getD v

/-- The requested outputs of every node come in the node's own order. -/
def InOrder (B : Backend V N D T) (d : Dict V V) : Prop :=
  ∀ outs vals, B.rewrite d = .ok (outs, vals) → ∀ n,
    let l := (outs.filterMap fun o => o.map ValuedOut.rv).filter fun o => B.owner o = some n
    l = [] ∨ l = B.measurableOutputs n

/-- The variable is produced by a node and its value has the variable's dtype. -/
def WellValued (B : Backend V N D T) (p : V × V) : Prop := (∃ n, B.owner p.1 = some n) ∧ B.dtype p.2 = B.dtype p.1

end Verif.Cond
