import Verif.Model.Indices
import Verif.Spec.Indices

/-!
# Switching processes (`/repo/aeppl/dists.py:71-99`)
-/

namespace Verif

/-- `at.arange(d)`. -/
def arange (d : ℕ) : Arr ℤ := ⟨[d], fun c => (c.headD 0 : ℕ)⟩

/-- `at.stack(l)` for arrays of the shape `S` (external): a new axis in front; no arrays raise. -/
def Arr.stack0 {α : Type} (S : List ℕ) : List (Arr α) → Except Err (Arr α)
  | [] => .error .valueError
  | a :: l => .ok ⟨(l.length + 1) :: S, fun c => ((a :: l).getD (c.headD 0) a).get c.tail⟩

/-- dists.py:97 the index tuple: the states, and `at.arange(d)` for every axis of the components. -/
def switchingIndices (states : Arr ℤ) (S : List ℕ) : List Index := .adv states :: S.map fun d => .adv (arange d)

/-- dists.py:71-99 `switching_process(comp_rvs, states)`, on the values of the components.  Indexing (line 98) is NumPy's (`npSelect`). -/
noncomputable def switchingProcess {α : Type} (comp_rvs : List (Arr α)) (states : Arr ℤ) : Except Err (Arr α) :=
  match bshape (comp_rvs.map Arr.shape) with
  | none => .error .valueError
  | some S =>
    match Arr.stack0 S (comp_rvs.map (Arr.bcastTo S)) with
    | .error e => .error e
    | .ok M_rv =>
      match npSelect (switchingIndices states S) M_rv.shape with
      | .error e => .error e
      | .ok R => .ok ⟨R.shape, fun c => M_rv.get (R.get c)⟩

end Verif
