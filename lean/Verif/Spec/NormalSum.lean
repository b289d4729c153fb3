import Verif.Spec.ArrDerived
import Verif.Spec.ElemwiseArray

/-! # Arrays of normal variables -/

namespace Verif.ArrGraph
open Verif

/-- A random array drawn with this `size` (empty: not given) and these parameters has shape `s`. -/
def DrawShape (size : List ℕ) (mu sigma : Arr FVal) (s : List ℕ) : Prop :=
  Fit s [mu, sigma] ∧ (size = s ∨ size = [] ∧ bshape [mu.shape, sigma.shape] = some s)

/-- The entries of an array of shape `s` have mean `m` and standard deviation `σ`. -/
def HoldsNormal (mu sigma : Arr FVal) (s : List ℕ) (m σ : List ℕ → ℝ) : Prop :=
  ∀ c, InRange c s → mu.entry c = .fin (m c) ∧ sigma.entry c = .fin (σ c) ∧ 0 < σ c

/-- The entry of a sum (of a difference, if `sub`) at the place `c`, from arrays of shapes `t k`. -/
noncomputable def combineAt {n : ℕ} (sub : Bool) (t : Fin n → List ℕ) (x : ∀ k, Fin (entries (t k)) → ℝ) (c : List ℕ) : ℝ :=
  ∑ k : Fin n, (if sub ∧ k.val ≠ 0 then -1 else 1) * (reals (t k) (x k)).entry c

/-- Broadcasting an array of shape `t` into shape `s` repeats no entry. -/
def NoRepeat (s t : List ℕ) : Prop := ∀ i j : Fin (entries s), project (coord i) t = project (coord j) t → i = j

end Verif.ArrGraph
