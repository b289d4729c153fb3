import Verif.Model.Graph
import Verif.Spec.Density

/-! # Meaning of a model: reading parameters off an assignment, and the sampler -/

namespace Verif.Graph
open Verif MeasureTheory

variable {Di : Type}

/-- A graph as written by the user: no `ValuedVariable`. -/
def User : Expr Di → Prop
  | .const _ => True
  | .inp _ => True
  | .app _ _ args => ∀ i, User (args i)
  | .rv _ _ _ args => ∀ i, User (args i)
  | .valued _ _ => False

/-- Value of a user graph when the random variables take the values `σ`: neither their distributions nor their parameters matter. -/
def evalAt (σ ρ : ℕ → FVal) : Expr Di → FVal
  | .const x => x
  | .inp i => ρ i
  | .app _ f args => f fun i => evalAt σ ρ (args i)
  | .rv id _ _ _ => σ id
  | .valued r _ => evalAt σ ρ r

/-- Value of a user graph when some random variables have values (`vals`) and the others are sampled: the distributions and parameters of
those with values do not matter, the others are drawn from their distributions at parameters computed in the same way. -/
def evalGiven (vals : ℕ → Option FVal) (ρ : ℕ → FVal) (ω : ℕ → Di → List FVal → FVal) : Expr Di → FVal
  | .const x => x
  | .inp i => ρ i
  | .app _ f args => f fun i => evalGiven vals ρ ω (args i)
  | .rv id dist _ args =>
    match vals id with
    | some x => x
    | none => ω id dist (List.ofFn fun i => evalGiven vals ρ ω (args i))
  | .valued r _ => evalGiven vals ρ ω r

/-- The random variables a graph depends on directly. -/
def Mentions (id : ℕ) : Expr Di → Prop
  | .const _ => False
  | .inp _ => False
  | .app _ _ args => ∃ i, Mentions id (args i)
  | .rv id' _ _ _ => id' = id
  | .valued r _ => Mentions id r

/-- Parameters of `r` under the assignment `σ`. -/
def params (σ ρ : ℕ → FVal) (r : RVDef Di) : List FVal := List.ofFn fun i => evalAt σ ρ (r.args i)

/-- Parameters of `r` when some random variables have values and the others are sampled. -/
def paramsGiven (vals : ℕ → Option FVal) (ρ : ℕ → FVal) (ω : ℕ → Di → List FVal → FVal) (r : RVDef Di) : List FVal :=
  List.ofFn fun i => evalGiven vals ρ ω (r.args i)

/-- An assignment of reals, as floats. -/
def asg (σ : ℕ → ℝ) : ℕ → FVal := fun i => .fin (σ i)

/-- Expectation of `φ` under ancestral sampling: draw the variables one after the other from their laws, with parameters computed from
the values drawn so far. -/
noncomputable def sampleE (law : Di → List FVal → Measure ℝ) (ρ : ℕ → FVal) :
    List (ℕ × RVDef Di) → (ℕ → ℝ) → ((ℕ → ℝ) → ENNReal) → ENNReal
  | [], σ, φ => φ σ
  | (id, r) :: l, σ, φ => ∫⁻ x, sampleE law ρ l (Function.update σ id x) φ ∂(law r.dist (params (asg σ) ρ r))

/-- Iterated integral over the values of the variables with respect to the reference measures. -/
noncomputable def refE (ref : Di → Measure ℝ) : List (ℕ × RVDef Di) → (ℕ → ℝ) → ((ℕ → ℝ) → ENNReal) → ENNReal
  | [], σ, φ => φ σ
  | (id, r) :: l, σ, φ => ∫⁻ x, refE ref l (Function.update σ id x) φ ∂(ref r.dist)

/-- The kernel at parameters `p` is the log-density, with respect to `ref`, of the probability law `law`. -/
structure GoodAt (kernel : FVal → List FVal → Except Err FVal) (law : List FVal → Measure ℝ) (ref : Measure ℝ) (p : List FVal) : Prop where
  prob : IsProbabilityMeasure (law p)
  meas : Measurable fun x : ℝ => dens (kernel (.fin x) p)
  dens : law p = ref.withDensity fun x : ℝ => dens (kernel (.fin x) p)

/-- Every parameter vector that can be reached with positive density is a good one. -/
def Valid (kernel : Di → FVal → List FVal → Except Err FVal) (law : Di → List FVal → Measure ℝ) (ref : Di → Measure ℝ) (ρ : ℕ → FVal) :
    List (ℕ × RVDef Di) → (ℕ → ℝ) → Prop
  | [], _ => True
  | (id, r) :: l, σ => GoodAt (kernel r.dist) (law r.dist) (ref r.dist) (params (asg σ) ρ r) ∧
      ∀ x, dens (kernel r.dist (.fin x) (params (asg σ) ρ r)) ≠ 0 → Valid kernel law ref ρ l (Function.update σ id x)

/-- The variables are listed in dependency order, each once: no parameter mentions the variable itself or a later one. -/
def DependencyOrder : List (ℕ × RVDef Di) → Prop
  | [] => True
  | (id, r) :: l => (∀ i, ¬ Mentions id (r.args i)) ∧ (∀ p ∈ l, p.1 ≠ id ∧ ∀ i, ¬ Mentions p.1 (r.args i)) ∧ DependencyOrder l

end Verif.Graph
