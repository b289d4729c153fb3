import Verif.Model.ArrMarkov
import Verif.Spec.ArrGraph
import Mathlib.Probability.ProbabilityMassFunction.Constructions

/-! # Sequences of states as arrays -/

namespace Verif.ArrGraph
open Verif

/-- A sequence of states as a vector. -/
noncomputable def stateArr {T M : ℕ} (f : Fin T → Fin M) : Arr FVal := ⟨[T], fun c => if h : c.headD 0 < T then .fin ((f ⟨c.headD 0, h⟩ : ℕ) : ℝ) else .nan⟩

/-- The first `T` states of a list (`d` if there are fewer). -/
def statesOf {M : ℕ} (T : ℕ) (d : Fin M) (l : List (Fin M)) (i : Fin T) : Fin M := l.getD i d

/-- An array of transition matrices. -/
def HoldsMatrices {M : ℕ} (Gs : List (Fin M → PMF (Fin M))) (a : Arr FVal) : Prop :=
  a.shape = [Gs.length, M, M] ∧ ∀ (t : ℕ) (h : t < Gs.length) (i j : Fin M), a.get [t, (i : ℕ), (j : ℕ)] = .fin (Gs[t] i j).toReal

/-- A vector of probabilities. -/
def HoldsVector {M : ℕ} (γ : PMF (Fin M)) (a : Arr FVal) : Prop := a.shape = [M] ∧ ∀ i : Fin M, a.get [(i : ℕ)] = .fin (γ i).toReal

end Verif.ArrGraph
