import Verif.Model.ArrGraph
import Verif.Model.ArrDerived
import Verif.Model.VecDists

/-! # Discrete Markov chains as array variables -/

namespace Verif.ArrGraph
open Verif

/-- A state used as an index into an axis of size `M`: negative ones count from the end, others out of range are an `IndexError`. -/
noncomputable def toState (M : ℕ) (x : FVal) : Except Err (Fin M) :=
  if h : 0 ≤ toIndex x ∧ toIndex x < M then .ok ⟨(toIndex x).toNat, by omega⟩
  else if h : -(M : ℤ) ≤ toIndex x ∧ toIndex x < 0 then .ok ⟨(toIndex x + M).toNat, by omega⟩
  else .error .indexError

/-- logprob.py:690-715, on the entries of the arrays.  Simplification: probabilities are real numbers (others are read as zero). -/
noncomputable def markovTerms (K M : ℕ) (Gammas gamma_0 states : Arr FVal) : Except Err (Arr FVal) := do
  let ss ← (allCoords states.shape).mapM fun c => toState M (states.get c)
  let terms ← discreteMcLogp (List.ofFn fun t : Fin K => fun (i j : Fin M) => toReal (Gammas.get [(t : ℕ), (i : ℕ), (j : ℕ)])) (fun i => toReal (gamma_0.get [(i : ℕ)])) ss
  return ⟨states.shape, fun c => terms.getD (c.headD 0) .nan⟩

/-- logprob.py:662-715 `discrete_mc_logp` on arrays.  Simplifications: the parameters are those of the chain (`size` is not used, nor are shared inputs); `Gammas` is an array of square matrices of
the size of `gamma_0` (a single matrix with two axes is not modelled). -/
noncomputable def markovArr (states : Arr FVal) : List (Arr FVal) → Except Err (Arr FVal)
  | [Gammas, gamma_0] =>
    if states.ndim ≠ 1 ∨ 3 < Gammas.ndim ∨ 1 < gamma_0.ndim then .error .notImplemented
    else match Gammas.shape, gamma_0.shape with
      | [K, M, M'], [M''] => if M' = M ∧ M'' = M then markovTerms K M Gammas gamma_0 states else .error .valueError
      | _, _ => .error .valueError
  | _ => .error .valueError

end Verif.ArrGraph
