import Verif.Model.Transforms
import Verif.Model.VecDists

/-! # Transformed values that are vectors (`/repo/aeppl/transforms.py:861-881`) -/

namespace Verif.TransVec
open Verif

/-- Log-probabilities: one number, or one for each entry of a vector. -/
inductive VTens (n : ℕ)
  | one (x : FVal)
  | each (x : Fin n → FVal)

/-- `+` with broadcasting. -/
noncomputable def VTens.add {n : ℕ} : VTens n → VTens n → VTens n
  | .one x, .one y => .one (x + y)
  | .one x, .each y => .each fun i => x + y i
  | .each x, .one y => .each fun i => x i + y
  | .each x, .each y => .each fun i => x i + y i

/-- `at.sum` (joint_logprob.py:307-319). -/
noncomputable def VTens.total {n : ℕ} : VTens n → FVal
  | .one x => x
  | .each x => fsum (List.ofFn x)

/-- Computing every entry of a vector; the first one that raises makes the computation raise. -/
def seqFin {α : Type} : {n : ℕ} → (Fin n → Except Err α) → Except Err (Fin n → α)
  | 0, _ => .ok Fin.elim0
  | _ + 1, f =>
    match f 0 with
    | .error e => .error e
    | .ok x =>
      match seqFin fun i => f i.succ with
      | .error e => .error e
      | .ok xs => .ok (Fin.cons x xs)

/-- transforms.py:861-881 `transformed_logprob` for a value that is a vector.  `t i` is what the transform does at entry `i` (its parameters may be vectors); its `log_jac_det` has the shape of the
value.  `lp` is the log-probability of the variable.  Simplification: no further batch dimensions. -/
noncomputable def transformedVec {n : ℕ} (t : Fin n → RVTransform) (lp : (Fin n → FVal) → Except Err (VTens n)) (use_jacobian : Bool) (trans_val : Fin n → FVal) : Except Err (VTens n) := do
  let backward_val ← seqFin fun i => (t i).backward (trans_val i)
  let logprob ← lp backward_val
  if use_jacobian then
    let jacobian ← seqFin fun i => (t i).logJacDet (trans_val i)
    return logprob.add (.each jacobian)
  else return logprob

/-- The log-probability of a vector of random numbers (`ndim_supp = 0`): one term for each entry. -/
noncomputable def numbersLogprob {n : ℕ} (lp : Fin n → FVal → Except Err FVal) (v : Fin n → FVal) : Except Err (VTens n) :=
  (seqFin fun i => lp i (v i)).map .each

/-- The log-probability of a random vector (`ndim_supp = 1`, logprob.py): one number. -/
noncomputable def vectorLogprob {n : ℕ} (lp : (Fin n → FVal) → Except Err FVal) (v : Fin n → FVal) : Except Err (VTens n) :=
  (lp v).map .one

/-- `joint_logprob` of the one variable. -/
noncomputable def jointOf {n : ℕ} (r : Except Err (VTens n)) : Except Err FVal := r.map VTens.total

end Verif.TransVec
