import Verif.Spec.Local
import Verif.Model.Names

/-! # Documented names, and values that agree with the draws -/

namespace Verif.Full
open Verif

variable {Di : Type}

/-- The documented names (transforms.py:296-300): `X_logprob`, `X_vv` and `X_vv-trans` for the variable `X`. -/
def docTerm (s : Text) : Text := s ++ "_logprob".toList
def docValue (s : Text) : Text := s ++ "_vv".toList
def docTrans (s : Text) : Text := s ++ "_vv-trans".toList

/-- The variable is a sum or difference of normal variables. -/
def IsNormalSum [IR.Normals Di] (R : ℕ → Prop) (e : Expr Di) : Prop := ∃ id k op n args, e = .app id k (.elem op) n args ∧ IR.SumOp op n ∧ ∀ i, NormalVar R (args i)

/-- When the model is run, the draws of the parents of `e` that have values are these values. -/
def DrawsAgree (ρ : ℕ → FVal) (ω : ℕ → Di → List FVal → FVal) (defs : ℕ → Option (Expr Di)) (rvs clones : List ℕ) (realized : Dict ℕ ℕ) (e : Expr Di) : Prop :=
  ∀ w x f, Parent (fun w => w ∈ rvs ∨ w ∈ Dict.keys realized) w e → Given rvs clones realized w x → defs w = some f → eval ρ ω f = ρ x

end Verif.Full
