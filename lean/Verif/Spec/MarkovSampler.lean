import Verif.Model.MarkovSampler
import Verif.Spec.ArrGraph
import Mathlib.Probability.Independence.Basic
import Mathlib.Probability.ProbabilityMassFunction.Constructions

/-! # One Markov chain -/

namespace Verif.Markov
open Verif MeasureTheory ProbabilityTheory

/-- A chain drawn with `draw`: an initial state drawn from the probabilities `γ`; step `n` draws from row `i` of the matrix `n`, if `i` is the state before. -/
def chainAt (draw : ℕ → List FVal → ℤ) (γ : List FVal) (G : ℕ → ℕ → List FVal) : ℕ → ℤ
  | 0 => draw 0 γ
  | n + 1 => draw (n + 1) (G n (chainAt draw γ G n).toNat)

/-- The vector at the place `c`, of an array of vectors of length `M`. -/
def vectorAt (a : Arr FVal) (M : ℕ) (c : List ℕ) : List FVal := (List.range M).map fun j => a.get (c ++ [j])

/-- All draws are states: from `M` probabilities, one of the numbers below `M`. -/
def DrawsStates (M : ℕ) (draw : Draws) : Prop := ∀ n c p, p.length = M → 0 ≤ draw n c p ∧ draw n c p < M

/-- The chain described in the documentation (dists.py:131-135, 228-234): state `0` is drawn from `γ`, state `n + 1` from the row of state `n` in the matrix `n + 1`. -/
def documentedAt (draw : ℕ → List FVal → ℤ) (γ : List FVal) (G : ℕ → ℕ → List FVal) : ℕ → ℤ
  | 0 => draw 0 γ
  | n + 1 => draw (n + 1) (G (n + 1) (documentedAt draw γ G n).toNat)

/-- The list of the probabilities. -/
noncomputable def probs {M : ℕ} (γ : PMF (Fin M)) : List FVal := List.ofFn fun j => .fin (γ j).toReal

/-- Draws of `M` states that are independent between calls and between places, and have the given probabilities. -/
structure Source {Ω : Type} [MeasurableSpace Ω] (P : Measure Ω) (M : ℕ) (D : Ω → Draws) : Prop where
  states : ∀ ω, DrawsStates M (D ω)
  meas : ∀ n c p, Measurable fun ω => D ω n c p
  indep : iIndepFun (fun (k : ℕ × List ℕ) ω => D ω k.1 k.2) P
  law : ∀ n c (γ : PMF (Fin M)) (j : Fin M), P {ω | D ω n c (probs γ) = (j : ℕ)} = γ j

end Verif.Markov
