import Verif.Model.Incsubtensor

/-!
# Data of observed variables (`/repo/aeppl/utils.py:81-102`)
-/

namespace Verif.Obs
open Verif

/-- An input of a node that is (part of) an index, with its value: a constant (arrays, slices, `None`) or shared variable, or anything else. -/
inductive IndexVar
  | known (i : Index)
  | symbolic (i : Index)

/-- The value of an index when the graph is evaluated. -/
def IndexVar.value : IndexVar → Index
  | .known i => i
  | .symbolic i => i

/-- utils.py:88-91, 102 `extract_obs_data(i)` for an index. -/
def IndexVar.extract : IndexVar → Except Err Index
  | .known i => .ok i
  | .symbolic _ => .error .typeError

/-- A variable: constant; shared variable with its value; `x[idx] = y` or `x[idx] += y` by an `AdvancedIncSubtensor(1)`, where `y` is the value the variable `y` is evaluated at;
anything else (basic `IncSubtensor`s are among these), with the value it is evaluated at. -/
inductive Var
  | const (data : Arr FVal)
  | shared (value : Arr FVal)
  | inc (set_instead_of_inc : Bool) (x : Var) (y : Arr FVal) (idx : List IndexVar)
  | other (value : Arr FVal)

/-- Aesara's `at.inc_subtensor(x[idx], y)`: an element that is selected more than once gets all of its increments. -/
noncomputable def incSubtensor (x : Arr FVal) (idx : List Index) (y : Arr FVal) : Except Err (Arr FVal) := do
  let R ← npSelect idx x.shape
  if bshape [y.shape, R.shape] = some R.shape then
    return ⟨x.shape, fun p => ((allCoords R.shape).filter fun c => R.get c = p).foldl (fun acc c => acc + y.get (project c y.shape)) (x.get p)⟩
  else .error .valueError

/-- `x.eval()`. -/
noncomputable def Var.eval : Var → Except Err (Arr FVal)
  | .const d => .ok d
  | .shared d => .ok d
  | .inc true x y idx => do
    let a ← x.eval
    setSubtensor a (idx.map IndexVar.value) y
  | .inc false x y idx => do
    let a ← x.eval
    incSubtensor a (idx.map IndexVar.value) y
  | .other v => .ok v

/-- A NumPy array, or a masked array: the data, and where it is masked. -/
structure Masked where
  data : Arr FVal
  mask : List ℕ → Bool

/-- utils.py:95-100: `mask` is an array of zeros that is set to one at `mask_idx`; `MaskedArray(array_data, mask)` keeps what was masked in `array_data` (`keep_mask=True`). -/
noncomputable def addMask (m : Masked) (mask_idx : List Index) : Except Err Masked := do
  let R ← npSelect mask_idx m.data.shape
  return ⟨m.data, fun p => m.mask p || (lastSource R p).isSome⟩

/-- utils.py:81-102 `extract_obs_data(x)`. -/
noncomputable def extractObsData : Var → Except Err Masked
  | .const d => .ok ⟨d, fun _ => false⟩
  | .shared d => .ok ⟨d, fun _ => false⟩
  | .inc _ x _ idx => do
    let array_data ← extractObsData x
    let mask_idx ← idx.mapM IndexVar.extract
    addMask array_data mask_idx
  | .other _ => .error .typeError

end Verif.Obs
