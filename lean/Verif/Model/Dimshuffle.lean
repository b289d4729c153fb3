import Verif.Model.Nd
import Verif.Model.FVal

/-! # Dimension shuffles (`/repo/aeppl/tensor.py:128-158`) -/

namespace Verif

/-- A dimension order as given to `dimshuffle`; `none` is `"x"`. -/
abbrev Order := List (Option ℕ)

/-- The checks of aesara's `DimShuffle` (external): axes exist, are used once, and those left out have length 1. -/
def orderOk (shape : List ℕ) (order : Order) : Bool :=
  (order.all fun o => match o with | none => true | some i => decide (i < shape.length)) &&
  decide (order.filterMap id).Nodup &&
  ((List.range shape.length).all fun i => decide (some i ∈ order) || decide (shape.getD i 0 = 1))

/-- `a.dimshuffle(order)` (external).  Simplification: the lengths of the axes are known (aesara checks their static types). -/
def Arr.dimshuffle {α : Type*} (order : Order) (a : Arr α) : Except Err (Arr α) :=
  if orderOk a.shape order then
    .ok { shape := order.map fun o => match o with | none => 1 | some i => a.shape.getD i 0
          get := fun c => a.get ((List.range a.ndim).map fun i => c.getD (order.idxOf (some i)) 0) }
  else .error .valueError

/-- Python's `l.insert(pos, x)` for a non-negative position. -/
def pyInsert {α : Type*} (pos : ℕ) (x : α) (l : List α) : List α := l.take pos ++ x :: l.drop pos

/-- `op.shuffle`: the axes kept, in order. -/
def orderShuffle (order : Order) : List ℕ := order.filterMap id

/-- tensor.py:137 `sorted(set(op.transposition) - set(op.shuffle))`: the axes of the input that are dropped (`op.transposition` is
`op.shuffle` followed by the dropped axes). -/
def droppedDims (ndim : ℕ) (order : Order) : List ℕ := (List.range ndim).filter fun i => decide (i ∉ orderShuffle order)

/-- tensor.py:136-139 the first order: augmented dimensions out, dropped dimensions in. -/
def undoFirst (ndim : ℕ) (order : Order) : Order :=
  let undo_ds := (order.zipIdx.filter fun p => p.1.isSome).map fun p => some p.2
  (droppedDims ndim order).foldl (fun undo_ds dropped_dim => pyInsert dropped_dim none undo_ds) undo_ds

/-- tensor.py:143-145. -/
def originalShuffle (ndim : ℕ) (order : Order) : List ℕ :=
  (droppedDims ndim order).foldl (fun original_shuffle dropped_dim => pyInsert dropped_dim dropped_dim original_shuffle) (orderShuffle order)

/-- tensor.py:146 the second order: unshuffle. -/
def undoSecond (ndim : ℕ) (order : Order) : Order :=
  let original_shuffle := originalShuffle ndim order
  (List.range original_shuffle.length).map fun i => some (original_shuffle.idxOf i)

/-- tensor.py:157. -/
def redoOrder (logp_ndim : ℕ) (order : Order) : Order := order.filter fun o => match o with | none => true | some o => decide (o < logp_ndim)

/-- tensor.py:128-158 `logprob_dimshuffle`; `ndim` is the number of dimensions of the base variable. -/
def dimshuffleLogprob {α β : Type} (ndim : ℕ) (order : Order) (lp : Arr α → Except Err (Arr β)) (value : Arr α) : Except Err (Arr β) := do
  let value ← value.dimshuffle (undoFirst ndim order)
  let value ← value.dimshuffle (undoSecond ndim order)
  let raw_logp ← lp value
  raw_logp.dimshuffle (redoOrder raw_logp.ndim order)

end Verif
