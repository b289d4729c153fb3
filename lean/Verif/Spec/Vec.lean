import Verif.Spec.Density
import Mathlib.Data.Nat.Choose.Multinomial

/-! # Mass functions of vector-valued discrete laws -/

namespace Verif

/-- `lp` is the log-mass function of `q` on integer vectors. -/
structure IsLogMassV {m : ℕ} (lp : (Fin m → ℤ) → Except Err FVal) (q : (Fin m → ℤ) → ℝ) : Prop where
  clean : ∀ k, Clean (lp k)
  mass : ∀ k, dens (lp k) = ENNReal.ofReal (q k)
  total : HasSum q 1

open Classical in
/-- `Multinomial(n, p)`: `n! / ∏ kᵢ! * ∏ pᵢ^kᵢ` for counts adding up to `n`. -/
noncomputable def multinomialMass {m : ℕ} (n : ℕ) (p : Fin m → ℝ) (k : Fin m → ℤ) : ℝ :=
  if (∀ i, 0 ≤ k i) ∧ ∑ i, k i = n then
    n.factorial / (∏ i, ((k i).toNat.factorial : ℝ)) * ∏ i, p i ^ (k i).toNat
  else 0

/-- Probability of category `k` when the weights `p` are normalised. -/
noncomputable def categoricalMass (p : List ℝ) (k : ℕ) : ℝ := p.getD k 0 / p.sum

end Verif
