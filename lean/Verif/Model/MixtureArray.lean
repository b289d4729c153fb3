import Verif.Model.Indices
import Verif.Model.Mixture
import Verif.Model.VecDists

/-!
# Mixtures with array indices (`/repo/aeppl/mixture.py:350-397`)
-/

namespace Verif

/-- A component: an array of random variables.  `lp` is the log-probability of the vector of its elements at given coordinates
(`logprob(rv_pull_down(rv[m_indices]), val_m)`, with one value per coordinate). -/
structure MixComp where
  shape : List ℕ
  lp : List (List ℕ) → List FVal → Except Err (List FVal)

/-- All coordinates of a shape in row-major order. -/
def allCoords : List ℕ → List (List ℕ)
  | [] => [[]]
  | n :: s => (List.range n).flatMap fun i => (allCoords s).map (i :: ·)

/-- `at.nonzero(at.eq(b, m))`. -/
def nonzeroEq (b : Arr ℤ) (m : ℕ) : List (List ℕ) := (allCoords b.shape).filter fun c => b.get c = m

/-- `at.set_subtensor(x[positions], ys)`, for different positions. -/
def Arr.setAt {α : Type} (x : Arr α) (positions : List (List ℕ)) (ys : List α) : Arr α :=
  ⟨x.shape, fun c => match positions.idxOf? c with
    | some k => ys.getD k (x.get c)
    | none => x.get c⟩

/-- The coordinate of `x[0][rest]` in `x`: a negative position counts from the end. -/
def elementCoord (shape : List ℕ) (rest : List ℤ) : Except Err (List ℕ) :=
  if rest.length ≠ shape.tail.length then .error .indexError
  else if (List.zipWith (fun (z : ℤ) (n : ℕ) => decide (-(n : ℤ) ≤ z ∧ z < n)) rest shape.tail).all id then
    .ok (0 :: List.zipWith (fun (z : ℤ) (n : ℕ) => if z < 0 then (z + n).toNat else z.toNat) rest shape.tail)
  else .error .indexError

/-- Python's `l[z]`: a negative position counts from the end. -/
def pyGet? {α : Type} (l : List α) (z : ℤ) : Option α :=
  if 0 ≤ z then l[z.toNat]? else if -z ≤ l.length then l[(z + l.length).toNat]? else none

/-- mixture.py:383-387 `v for i, v in enumerate(l) if i != z`: the places are compared with `z` itself, so that nothing is left out if `z` is negative. -/
def withoutPlace {α : Type} (l : List α) (z : ℤ) : List α := if 0 ≤ z then l.eraseIdx z.toNat else l

/-- One turn of the loop mixture.py:381-397, for component `m`; 389 `rv = rv[0]` drops the first axis whatever the join axis is.  `at.nonzero` raises `ValueError` for a scalar; too many indices
(394) raise `IndexError` whatever they select.  Simplification: the value has the shape of the indexed array. -/
def mixtureTurn (bcast_indices : List (Arr ℤ)) (join_axis_val : ℤ) (value : Arr FVal) (logp_val : Arr FVal) (c : MixComp × ℕ) : Except Err (Arr FVal) :=
  match pyGet? bcast_indices join_axis_val with
  | none => .error .indexError
  | some b =>
    if b.shape = [] then .error .valueError
    else
      let others := withoutPlace bcast_indices join_axis_val
      if c.1.shape.length ≤ others.length then .error .indexError
      else do
        let idx_m_on_axis := nonzeroEq b c.2
        let m_indices ← idx_m_on_axis.mapM fun p => elementCoord c.1.shape (others.map fun v => v.get p)
        let val_m := idx_m_on_axis.map value.get
        let logp_m ← c.1.lp m_indices val_m
        return logp_val.setAt idx_m_on_axis logp_m

/-- mixture.py:361-397 `logprob_MixtureRV` for array indices; `indices` are the inputs of the node (those of integers and slices: `Model/MixtureBasic.lean`).  `join_axis` is `none` for a `MakeVector` (the components are then
`comp[None]`, of shape `(1,)`), and may be negative: it is used as it is written (376 `get_constant_value(join_axis).item()`; Aesara's `Join` keeps it).  `empty` is the uninitialised memory returned by `at.empty`. -/
def arrayMixtureLogprob (join_axis : Option ℤ) (indices : List Index) (comps : List MixComp) (empty : List ℕ → FVal) (value : Arr FVal) :
    Except Err (Arr FVal) :=
  let original_shape := match join_axis with
    | none => .ok [comps.length]
    | some _ => match comps with
      | [] => .error .indexError
      | c :: _ => .ok c.shape
  do
  let original_shape ← original_shape
  let bcast_indices ← expandIndices indices original_shape
  match bcast_indices with
  | [] => .error .indexError
  | b0 :: _ => comps.zipIdx.foldlM (mixtureTurn bcast_indices (join_axis.getD 0) value) ⟨b0.shape, empty⟩

/-- joint_logprob.py:307-319 `at.sum(cond_logprob)`: the elements of an array of log-probabilities are added up. -/
noncomputable def arrayJoint : Except Err (Arr FVal) → Except Err FVal
  | .error e => .error e
  | .ok a => .ok (fsum ((allCoords a.shape).map a.get))

end Verif
