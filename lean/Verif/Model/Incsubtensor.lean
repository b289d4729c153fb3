import Verif.Spec.Indices
import Verif.Model.MixtureArray

/-!
# Partially observed variables (`/repo/aeppl/rewriting.py:116-159`, `/repo/aeppl/utils.py:230-250`)

The inputs of a node are modelled by their values: an integer variable by an integer array without dimensions.
-/

namespace Verif

/-- A part of an entry of `idx_list`: Aesara keeps the `Type` of a variable, the variable itself is an input of the node; a bound that is
not given stays `None`.  (Literal integers have become constants, which are variables.) -/
inductive Part
  | none
  | type

/-- An entry of `idx_list`: the `Type` of an integer, or a slice. -/
inductive Entry
  | scalar
  | slice (start stop step : Part)

/-- What `convert_indices` returns for a `Part`. -/
inductive Conv
  | none
  | type
  | var (i : Index)

/-- What `convert_indices` returns for an `Entry`. -/
inductive ConvEntry
  | scalar (c : Conv)
  | slice (start stop step : Conv)

/-- utils.py:230-233, 240-241 `convert_indices(indices, entry)` for an entry that is not a slice, with what is left of the list `indices`. -/
def convertPart : List Index → Part → Conv × List Index
  | i :: indices, .type => (.var i, indices)
  | [], .type => (.type, [])
  | indices, .none => (.none, indices)

/-- utils.py:230-241 `convert_indices(indices, entry)`. -/
def convertIndices (indices : List Index) : Entry → ConvEntry
  | .scalar => .scalar (convertPart indices .type).1
  | .slice start stop step =>
    let (a, indices) := convertPart indices start
    let (b, indices) := convertPart indices stop
    let (c, _) := convertPart indices step
    .slice a b c

/-- Slice bounds are integers. -/
def Conv.bound : Conv → Except Err (Option ℤ)
  | .none => .ok .none
  | .var (.adv a) => if a.shape = [] then .ok (some (a.get [])) else .error .typeError
  | _ => .error .typeError

/-- The converted entry as an index; Aesara raises if it contains a `Type` or a slice bound that is not an integer. -/
def ConvEntry.index : ConvEntry → Except Err Index
  | .scalar (.var i) => .ok i
  | .scalar _ => .error .typeError
  | .slice a b c => do
    let a ← a.bound
    let b ← b.bound
    let c ← c.bound
    return .slice a b c

/-- utils.py:244-250 `indices_from_subtensor(idx_list, indices)`; `idx_list` is `none` for the advanced operators, which have no such
attribute.  `list(indices)` is a new list for every entry. -/
def indicesFromSubtensor (idx_list : Option (List Entry)) (indices : List Index) : Except Err (List Index) :=
  match idx_list with
  | some (e :: es) => (e :: es).mapM fun idx => (convertIndices indices idx).index
  | _ => .ok indices

/-- The last of the coordinates in `R` (in row-major order) that select `p`. -/
def lastSource (R : Arr (List ℕ)) (p : List ℕ) : Option (List ℕ) := (allCoords R.shape).reverse.find? fun c => R.get c = p

/-- Aesara's `at.set_subtensor(y[idx], data)`: `data` is broadcast to the shape of `y[idx]`; an element that is selected more than once
gets the last of its values. -/
noncomputable def setSubtensor {α : Type} (y : Arr α) (idx : List Index) (data : Arr α) : Except Err (Arr α) := do
  let R ← npSelect idx y.shape
  if bshape [data.shape, R.shape] = some R.shape then
    return ⟨y.shape, fun p => match lastSource R p with
      | some c => data.get (project c data.shape)
      | none => y.get p⟩
  else .error .valueError

/-- A node of an `*IncSubtensor*` operator, `x[idx] = data` or `x[idx] += data`. -/
structure IncNode where
  idx_list : Option (List Entry)
  set_instead_of_inc : Bool
  data : Arr FVal
  inputs : List Index

/-- rewriting.py:134-159 `incsubtensor_rv_replace` for a base variable that is a measurable variable without a value, and the
log-probability of the result: `logp` is the log-probability of the base variable as a function of its value. -/
noncomputable def incsubtensorLogprob {L : Type} (logp : Arr FVal → Except Err L) (node : IncNode) (value : Arr FVal) : Except Err L := do
  let idx ← indicesFromSubtensor node.idx_list node.inputs
  let new_value ← setSubtensor value idx node.data
  logp new_value

end Verif
