import Verif.Spec.SameSeries
import Verif.Model.VecDists
import Verif.Model.ArrCategorical
import Mathlib.Algebra.BigOperators.Intervals

/-! # The same Markov chain, written in different ways -/

namespace Verif.ArrGraph
open Verif FVal

/-- `p` are the probabilities of the numbers below `M`. -/
structure IsLaw (M : ℕ) (p : ℕ → ℝ) : Prop where
  nonneg : ∀ j < M, 0 ≤ p j
  total : ∑ j ∈ Finset.range M, p j = 1

/-- An array of transition matrices, for `T` steps between `M` states: step `t` goes from state `i` to state `j` with the probability `G t i j`. -/
structure HoldsSteps (T M : ℕ) (G : ℕ → ℕ → ℕ → ℝ) (a : Arr FVal) : Prop where
  shape : a.shape = [T, M, M]
  get : ∀ t < T, ∀ i < M, ∀ j < M, a.get [t, i, j] = fin (G t i j)
  law : ∀ t < T, ∀ i < M, IsLaw M (G t i)

/-- A step of a scan that draws the next state with `categorical(Gammas[t, state])`, where `t` is the entry of the sequence. -/
noncomputable def chainStep (M : ℕ) (Gammas : Arr FVal) (prev x : FVal) (p : List FVal) : Except Err FVal :=
  categoricalLogprob (toIndex x) ((List.range M).map fun j => Gammas.get [(toIndex (p.getD 0 nan)).toNat, (toIndex prev).toNat, j])

end Verif.ArrGraph
