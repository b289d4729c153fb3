import Verif.Model.MixtureArray

/-!
# Stacks indexed by integers and slices (`/repo/aeppl/mixture.py:267`, `350-409`)

`mixing_indices = node.inputs[1:]` (mixture.py:267).  The inputs of an `AdvancedSubtensor` are the entries of the index tuple; those of a `Subtensor`, which Aesara makes when there are only
integers and slices, are the integers and the bounds of the slices, one after the other: the places of the slices are kept in `op.idx_list`, which is not read.
-/

namespace Verif

/-- An integer as an index: an array without dimensions. -/
def intIndex (z : ℤ) : Index := .adv ⟨[], fun _ => z⟩

/-- Aesara's `get_slice_elements` (external): an integer is one input, a slice gives its bounds other than `None`. -/
def Index.scalars : Index → List Index
  | .slice start stop step => ([start, stop, step].filterMap id).map intIndex
  | .newaxis => []
  | .adv a => [.adv a]

/-- Whether an entry is a slice or an integer. -/
def Index.isScalar : Index → Bool
  | .slice _ _ _ => true
  | .newaxis => false
  | .adv a => a.shape.isEmpty

/-- mixture.py:267 `node.inputs[1:]` for `x[idx]`.  Not modelled: `newaxis` without integer arrays, which Aesara turns into a `DimShuffle` of `x`, so that there is no stack to be found; rewrites that
remove slices which select everything. -/
def nodeIndices (idx : List Index) : List Index := if idx.all Index.isScalar then idx.flatMap Index.scalars else idx

/-- A component of a stack.  `whole` is its log-probability `logprob(comp_rv, value)`, and `dims` the number of dimensions of its parameters. -/
structure StackComp extends MixComp where
  dims : ℕ
  whole : Arr FVal → Except Err (Arr FVal)

/-- `a + b` for arrays (external). -/
noncomputable def Arr.badd (a b : Arr FVal) : Except Err (Arr FVal) :=
  match bshape [a.shape, b.shape] with
  | none => .error .valueError
  | some s => .ok ⟨s, fun c => a.get (project c a.shape) + b.get (project c b.shape)⟩

/-- mixture.py:403-407 the branches of `ifelse` (external), which is lazy. -/
noncomputable def scalarTerm (index : ℤ) (value : Arr FVal) (c : StackComp × ℕ) : Except Err (Arr FVal) :=
  if index = c.2 then c.1.whole value else .ok ⟨value.shape, fun _ => 0⟩

/-- One turn of the loop mixture.py:401-407.  `ifelse` raises `TypeError` for branches with different numbers of dimensions. -/
noncomputable def scalarTurn (index : ℤ) (value logp_val : Arr FVal) (c : StackComp × ℕ) : Except Err (Arr FVal) :=
  if value.shape.length < c.1.dims then .error .typeError
  else match scalarTerm index value c with
    | .error e => .error e
    | .ok t => logp_val.badd t

/-- mixture.py:399-407 `logprob_MixtureRV` for a scalar index and components of any shape. -/
noncomputable def scalarIndexLogprob (comps : List StackComp) (index : ℤ) (value : Arr FVal) : Except Err (Arr FVal) :=
  comps.zipIdx.foldlM (scalarTurn index value) ⟨[], fun _ => 0⟩

/-- mixture.py:350-409 `logprob_MixtureRV` for `at.stack(comps, axis=join_axis)[idx]`. -/
noncomputable def indexedMixtureLogprob (join_axis : Option ℤ) (idx : List Index) (comps : List StackComp) (empty : List ℕ → FVal) (value : Arr FVal) : Except Err (Arr FVal) :=
  match nodeIndices idx with
  | [] => .error .assertion
  | [.adv a] =>
    if a.shape = [] then scalarIndexLogprob comps (a.get []) value
    else arrayMixtureLogprob join_axis [.adv a] (comps.map StackComp.toMixComp) empty value
  | indices => arrayMixtureLogprob join_axis indices (comps.map StackComp.toMixComp) empty value

end Verif
