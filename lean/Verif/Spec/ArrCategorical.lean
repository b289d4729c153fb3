import Verif.Model.Indices
import Verif.Spec.Vec
import Verif.Spec.Mass
import Verif.Model.FVal
import Verif.Spec.ArrGraph

/-! # Arrays of categorical variables -/

namespace Verif.ArrGraph
open Verif

/-- Non-negative weights with positive sums in the rows of `p`: at each position `c` of the batch, the weights `q c`. -/
structure HoldsWeights (B : List ℕ) (K : ℕ) (q : List ℕ → List ℝ) (p : Arr FVal) : Prop where
  shape : p.shape = B ++ [K]
  length : ∀ c, InRange c B → (q c).length = K
  get : ∀ c, InRange c B → ∀ i (h : i < (q c).length), p.get (c ++ [i]) = .fin (q c)[i]
  nonneg : ∀ c, InRange c B → ∀ x ∈ q c, 0 ≤ x
  pos : ∀ c, InRange c B → 0 < (q c).sum

/-- The probability of the value at the position `c` of the broadcast shape. -/
noncomputable def massAt (B : List ℕ) (q : List ℕ → List ℝ) (value : Arr ℤ) (c : List ℕ) : ℝ :=
  onNat (categoricalMass (q (project c B))) (value.get (project c value.shape))

/-- An array of shape `s` of numbers below `K`, in row-major order. -/
noncomputable def classes (s : List ℕ) {K : ℕ} (x : Fin (entries s) → Fin K) : Arr FVal := numbers s fun k => ((x k : ℕ) : ℝ)

/-- An array of rows of integers. -/
noncomputable def counts (b : List ℕ) (m : ℕ) (x : Fin (entries b) → Fin m → ℤ) : Arr FVal := rows b m fun k i => (x k i : ℝ)

end Verif.ArrGraph
