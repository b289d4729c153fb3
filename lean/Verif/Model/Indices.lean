import Verif.Model.Nd
import Verif.Model.FVal
import Mathlib.Data.Int.Basic

/-!
# Index expressions and `expand_indices` (`/repo/aeppl/mixture.py:42-163`)

An index tuple has slices, `newaxis` and integer arrays (a plain integer is an array without dimensions, since `is_basic_idx` is true
only of slices and `newaxis`).  Not modelled: Boolean masks and `Ellipsis`, which Aesara replaces before the function is reached, and
symbolic slice bounds (the values of the bounds are used).
-/

namespace Verif

/-- An entry of an index tuple. -/
inductive Index
  | slice (start stop step : Option ℤ)
  | newaxis
  | adv (a : Arr ℤ)

namespace Index

/-- mixture.py:42-43 `is_newaxis`. -/
def isNewaxis : Index → Bool
  | .newaxis => true
  | _ => false

/-- Aesara's `is_basic_idx`: slices and `newaxis`. -/
def isBasic : Index → Bool
  | .adv _ => false
  | _ => true

/-- `getattr(idx, "ndim", 0)`. -/
def ndim : Index → ℕ
  | .adv a => a.ndim
  | _ => 0

end Index

/-- Python's `slice(start, stop, step).indices(n)`, for a step other than zero: `(first, end)`. -/
def sliceEnds (start stop : Option ℤ) (step : ℤ) (n : ℕ) : ℤ × ℤ :=
  let lower : ℤ := if 0 < step then 0 else -1
  let upper : ℤ := if 0 < step then n else n - 1
  let clip (z : ℤ) : ℤ := if z < 0 then max (z + n) lower else min z upper
  match start, stop with
  | none, none => if 0 < step then (lower, upper) else (upper, lower)
  | none, some e => (if 0 < step then lower else upper, clip e)
  | some b, none => (clip b, if 0 < step then upper else lower)
  | some b, some e => (clip b, clip e)

/-- The positions selected by `slice(start, stop, step)` on an axis of length `n`, in order. -/
def slicePositions (start stop : Option ℤ) (step : ℤ) (n : ℕ) : List ℤ :=
  let (b, e) := sliceEnds start stop step n
  let count : ℤ := if 0 < step then (e - b + step - 1) / step else (b - e - step - 1) / -step
  (List.range count.toNat).map fun k : ℕ => b + (k : ℤ) * step

/-- Aesara's `get_canonical_form_slice(slice, n)`, followed by `at.arange` of the canonical slice: the canonical form has a positive step;
whether the positions have to be reversed is returned separately, and mixture.py:126 discards it. -/
def canonicalPositions (start stop step : Option ℤ) (n : ℕ) : Except Err (List ℤ) :=
  let step := step.getD 1
  if step = 0 then .error .valueError
  else if 0 < step then .ok (slicePositions start stop step n)
  else .ok (slicePositions start stop step n).reverse

/-- `at.arange(..)`: a vector. -/
def Arr.ofList {α : Type} [Inhabited α] (l : List α) : Arr α := ⟨[l.length], fun c => l.getD (c.headD 0) default⟩

/-- `a[(None,) * n]`. -/
def Arr.lead {α : Type} (n : ℕ) (a : Arr α) : Arr α := ⟨List.replicate n 1 ++ a.shape, fun c => a.get (c.drop n)⟩

/-- `a[(Ellipsis,) + (None,) * n]`. -/
def Arr.trail {α : Type} (n : ℕ) (a : Arr α) : Arr α := ⟨a.shape ++ List.replicate n 1, fun c => a.get (c.take a.ndim)⟩

/-- The size of a broadcast dimension: the sizes different from one have to agree. -/
def bdim (sizes : List ℕ) : Option ℕ :=
  match sizes.filter (· ≠ 1) with
  | [] => some 1
  | n :: rest => if rest.all (· = n) then some n else none

/-- The number of dimensions after broadcasting. -/
def maxDims (shapes : List (List ℕ)) : ℕ := (shapes.map List.length).foldr max 0

/-- The shape after broadcasting: dimensions are aligned from the right. -/
def bshape (shapes : List (List ℕ)) : Option (List ℕ) :=
  let n := maxDims shapes
  (List.range n).mapM fun d => bdim (shapes.map fun s => (List.replicate (n - s.length) 1 ++ s).getD d 1)

/-- The coordinates, in an array of shape `shape`, of the entry that broadcasting puts at `c`. -/
def project (c shape : List ℕ) : List ℕ := List.zipWith (fun i n => if n = 1 then 0 else i) (c.drop (c.length - shape.length)) shape

/-- `at.broadcast_to(a, shape)` for a shape to which `a` can be broadcast. -/
def Arr.bcastTo {α : Type} (shape : List ℕ) (a : Arr α) : Arr α := ⟨shape, fun c => a.get (project c a.shape)⟩

/-- `at.broadcast_arrays(*as)`. -/
def broadcastArrays {α : Type} (as : List (Arr α)) : Except Err (List (Arr α)) :=
  match bshape (as.map Arr.shape) with
  | some s => .ok (as.map (Arr.bcastTo s))
  | none => .error .valueError

/-- mixture.py:64-76: whether basic indices stand between advanced ones, and the place of the first advanced index (`len(shape)` without
one). -/
def subspace (index_types : List Bool) (rank : ℕ) : Bool × ℕ :=
  match index_types.findIdx? (! ·) with
  | none => (false, rank)
  | some first_adv_idx =>
    match (index_types.drop first_adv_idx).findIdx? id with
    | none => (false, first_adv_idx)
    | some k =>
      match (index_types.drop (first_adv_idx + k)).findIdx? (! ·) with
      | none => (false, first_adv_idx)
      | some _ => (true, first_adv_idx)

/-- mixture.py:93-161: the loop over the indices from the `d`-th on. -/
def expandLoop (moved_subspace : Bool) (first_adv_idx n_basic_indices n_subspace_dims n_output_dims : ℕ) :
    ℕ → ℕ → List Index → List ℕ → Except Err (List (Arr ℤ))
  | _, _, [], _ => .ok []
  | d, n_preceding_basics, .newaxis :: full_indices, shape_copy =>
    expandLoop moved_subspace first_adv_idx n_basic_indices n_subspace_dims n_output_dims (d + 1) (n_preceding_basics + 1) full_indices shape_copy
  | _, _, _ :: _, [] => .error .indexError
  | d, n_preceding_basics, .adv idx :: full_indices, _ :: shape_copy => do
    let expanded_idx :=
      if moved_subspace then idx.trail n_basic_indices
      else (idx.lead n_preceding_basics).trail (n_basic_indices - n_preceding_basics)
    if n_output_dims < expanded_idx.ndim then .error .assertion
    else do
      let adv_indices ← expandLoop moved_subspace first_adv_idx n_basic_indices n_subspace_dims n_output_dims (d + 1) n_preceding_basics full_indices shape_copy
      return expanded_idx :: adv_indices
  | d, n_preceding_basics, .slice start stop step :: full_indices, s :: shape_copy => do
    let positions ← canonicalPositions start stop step s
    let idx := Arr.ofList positions
    let expanded_idx :=
      if moved_subspace then
        (idx.lead (n_subspace_dims + n_preceding_basics)).trail (n_basic_indices - n_preceding_basics - 1)
      else
        let n_preceding_dims := (if first_adv_idx < d then n_subspace_dims else 0) + n_preceding_basics
        (idx.lead n_preceding_dims).trail (n_output_dims - n_preceding_dims - 1)
    if n_output_dims < expanded_idx.ndim then .error .assertion
    else do
      let adv_indices ← expandLoop moved_subspace first_adv_idx n_basic_indices n_subspace_dims n_output_dims (d + 1) (n_preceding_basics + 1) full_indices shape_copy
      return expanded_idx :: adv_indices

/-- mixture.py:57-59 the indices with the missing slices at the end (`[..] * n` is empty for a negative `n`). -/
def fullIndices (indices : List Index) (shape : List ℕ) : List Index :=
  let n_non_newaxis := (indices.filter fun idx => ! idx.isNewaxis).length
  let n_missing_dims := shape.length - n_non_newaxis
  indices ++ List.replicate n_missing_dims (.slice none none none)

/-- mixture.py:46-163 `expand_indices(indices, shape)`. -/
def expandIndices (indices : List Index) (shape : List ℕ) : Except Err (List (Arr ℤ)) := do
  let full_indices := fullIndices indices shape
  let index_types := full_indices.map Index.isBasic
  let (moved_subspace, first_adv_idx) := subspace index_types shape.length
  let n_basic_indices := index_types.countP id
  let n_subspace_dims := ((full_indices.filter fun idx => ! idx.isBasic).map Index.ndim).foldr max 0
  let n_output_dims := n_subspace_dims + n_basic_indices
  let adv_indices ← expandLoop moved_subspace first_adv_idx n_basic_indices n_subspace_dims n_output_dims 0 0 full_indices shape
  broadcastArrays adv_indices

end Verif
