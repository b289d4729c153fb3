import Mathlib.Data.Fintype.Card
import Mathlib.Data.Finset.Card
import Mathlib.Data.List.Nodup

/-!
# Graph walks: `walk_model` (`/repo/aeppl/utils.py:105-141`) and the checks of `construct_elemwise_transform`
(`/repo/aeppl/transforms.py:530-587`)

A graph is given by the inputs of each variable's owner node.  The graph is finite (`V` is a finite type).
-/

namespace Verif.Walk

/-- The loop of aesara's `walk(nodes, expand, bfs)` (`aesara.graph.basic`, external to the repository): `nodes` is the deque,
`seen` the variables yielded so far, in order.  `pop` takes the right end (`bfs=False`, which both callers pass),
`popleft` the left end; the children returned by `expand` are appended at the right end. -/
def walkLoop {V : Type} [Fintype V] [DecidableEq V] (expand : V → List V) (bfs : Bool) (nodes seen : List V) : List V :=
  match _h : (if bfs then nodes.head? else nodes.getLast?) with
  | none => seen
  | some node =>
    let rest := if bfs then nodes.tail else nodes.dropLast
    if node ∈ seen then walkLoop expand bfs rest seen
    else walkLoop expand bfs (rest ++ expand node) (seen ++ [node])
termination_by (Fintype.card V - seen.toFinset.card, nodes.length)
decreasing_by
  · have hne : nodes ≠ [] := by rintro rfl; cases bfs <;> simp at _h
    have := List.length_pos_iff.mpr hne
    apply Prod.Lex.right
    cases bfs <;> simp <;> omega
  · apply Prod.Lex.left
    have h1 : (seen ++ [node]).toFinset = insert node seen.toFinset := by ext; simp
    have h2 : node ∉ seen.toFinset := by simpa using ‹node ∉ seen›
    have h3 : (insert node seen.toFinset).card ≤ Fintype.card V := Finset.card_le_univ _
    rw [h1]
    rw [Finset.card_insert_of_notMem h2] at h3 ⊢
    omega

/-- aesara's `walk`. -/
def walk {V : Type} [Fintype V] [DecidableEq V] (nodes : List V) (expand : V → List V) (bfs : Bool) : List V := walkLoop expand bfs nodes []

/-- The numpy data types of tensors. -/
inductive DType
  | bool | int8 | int16 | int32 | int64 | uint8 | uint16 | uint32 | uint64 | float16 | float32 | float64 | complex64 | complex128
  deriving DecidableEq

/-- The name of a data type (`type.dtype` is this string). -/
def DType.name : DType → List Char
  | .bool => ['b', 'o', 'o', 'l']
  | .int8 => ['i', 'n', 't', '8']
  | .int16 => ['i', 'n', 't', '1', '6']
  | .int32 => ['i', 'n', 't', '3', '2']
  | .int64 => ['i', 'n', 't', '6', '4']
  | .uint8 => ['u', 'i', 'n', 't', '8']
  | .uint16 => ['u', 'i', 'n', 't', '1', '6']
  | .uint32 => ['u', 'i', 'n', 't', '3', '2']
  | .uint64 => ['u', 'i', 'n', 't', '6', '4']
  | .float16 => ['f', 'l', 'o', 'a', 't', '1', '6']
  | .float32 => ['f', 'l', 'o', 'a', 't', '3', '2']
  | .float64 => ['f', 'l', 'o', 'a', 't', '6', '4']
  | .complex64 => ['c', 'o', 'm', 'p', 'l', 'e', 'x', '6', '4']
  | .complex128 => ['c', 'o', 'm', 'p', 'l', 'e', 'x', '1', '2', '8']

/-- A variable: the inputs of its owner (`none`: no owner), whether the owner's op is a `MeasurableVariable`, whether it is a
`ValuedVariable`, and the data type. -/
structure VarInfo (V : Type) where
  inputs : Option (List V)
  isMeasurable : Bool
  isValued : Bool
  dtype : DType

/-- A graph: what is known of each variable. -/
abbrev VGraph (V : Type) := V → VarInfo V

variable {V : Type} [Fintype V] [DecidableEq V]

/-- utils.py:129-139 the nested function `expand` of `walk_model`. -/
def walkModelExpand (G : VGraph V) (walk_past_rvs : Bool) (stop_at_vars : List V) (expand_fn : V → List V) (var : V) : List V :=
  let new_vars := expand_fn var
  match (G var).inputs with
  | some inputs =>
    if (walk_past_rvs || !(G var).isMeasurable) && decide (var ∉ stop_at_vars) then new_vars ++ inputs.reverse else new_vars
  | none => new_vars

/-- utils.py:105-141 `walk_model`: the variables it yields, in order.  Simplification: `expand_fn` is a function (no side effects, and the
list it returns is not reused by the caller: `new_vars.extend` changes that list). -/
def walkModel (G : VGraph V) (graphs : List V) (walk_past_rvs : Bool) (stop_at_vars : List V) (expand_fn : V → List V) : List V :=
  walk graphs (walkModelExpand G walk_past_rvs stop_at_vars expand_fn) false

/-- The condition of transforms.py:536-538 and 573-575: `inp.owner and isinstance(op, MeasurableVariable) and not isinstance(op,
ValuedVariable)`. -/
def unvaluedMeasurable (G : VGraph V) (v : V) : Bool := (G v).inputs.isSome && (G v).isMeasurable && !(G v).isValued

/-- transforms.py:557-567 the nested function `expand` of `construct_elemwise_transform`. -/
def elemwiseExpand (G : VGraph V) (var : V) : List V :=
  match (G var).inputs with
  | some inputs => if !(G var).isMeasurable && !(G var).isValued then inputs.reverse else []
  | none => []

/-- transforms.py:530-578 the checks of `construct_elemwise_transform`: the measurable input and the other inputs, or `none` when the
node is left alone. -/
def elemwiseCheck (G : VGraph V) (inputs : List V) : Option (V × List V) :=
  match inputs.filter (unvaluedMeasurable G) with
  | [measurable_input] =>
    if ['i', 'n', 't'].isPrefixOf (G measurable_input).dtype.name then none
    else
      let other_inputs := inputs.filter (fun inp => inp ≠ measurable_input)
      if (walk other_inputs (elemwiseExpand G) false).any (unvaluedMeasurable G) then none
      else some (measurable_input, other_inputs)
  | _ => none

end Verif.Walk
