import Verif.Model.ArrGraph
import Verif.Spec.Density
import Mathlib.MeasureTheory.Constructions.Pi

/-! # Meaning of a model with array variables: reading parameters off an assignment, and the sampler

A variable `id` takes values in a space `X id`, laid out as arrays by `arr id`.
-/

namespace Verif.ArrGraph
open Verif MeasureTheory

variable {Di : Type} {X : ℕ → Type} [∀ i, MeasurableSpace (X i)]

/-- A graph as written by the user: no `ValuedVariable`. -/
def User : Expr Di → Prop
  | .const _ => True
  | .inp _ => True
  | .app _ _ args => ∀ i, User (args i)
  | .rv _ _ _ args => ∀ i, User (args i)
  | .valued _ _ => False

/-- Value of a user graph when the random variables take the values `σ`: neither their distributions nor their parameters matter. -/
def evalAt (σ ρ : ℕ → Arr FVal) : Expr Di → Arr FVal
  | .const x => x
  | .inp i => ρ i
  | .app _ f args => f fun i => evalAt σ ρ (args i)
  | .rv id _ _ _ => σ id
  | .valued r _ => evalAt σ ρ r

/-- Value of a user graph when the variables of `vals` are given: what they depend on does not matter; the other random variables are sampled. -/
def evalGiven (vals : ℕ → Option (Arr FVal)) (ρ : ℕ → Arr FVal) (ω : ℕ → Di → List (Arr FVal) → Arr FVal) : Expr Di → Arr FVal
  | .const x => x
  | .inp i => ρ i
  | .app _ f args => f fun i => evalGiven vals ρ ω (args i)
  | .rv id dist _ args =>
    match vals id with
    | some x => x
    | none => ω id dist (List.ofFn fun i => evalGiven vals ρ ω (args i))
  | .valued r _ => evalGiven vals ρ ω r

/-- The random variables a graph depends on directly. -/
def Mentions (id : ℕ) : Expr Di → Prop
  | .const _ => False
  | .inp _ => False
  | .app _ _ args => ∃ i, Mentions id (args i)
  | .rv id' _ _ _ => id' = id
  | .valued r _ => Mentions id r

/-- Parameters of `r` under the assignment `σ`. -/
def params (σ ρ : ℕ → Arr FVal) (r : RVDef Di) : List (Arr FVal) := List.ofFn fun i => evalAt σ ρ (r.args i)

/-- An assignment, as arrays. -/
def asg (arr : ∀ i, X i → Arr FVal) (σ : ∀ i, X i) : ℕ → Arr FVal := fun i => arr i (σ i)

/-- Expectation of `φ` under ancestral sampling: draw the variables one after the other from their laws, with parameters computed from
the values drawn so far. -/
noncomputable def sampleE (arr : ∀ i, X i → Arr FVal) (law : ∀ i, Di → List (Arr FVal) → Measure (X i)) (ρ : ℕ → Arr FVal) :
    List (ℕ × RVDef Di) → (∀ i, X i) → ((∀ i, X i) → ENNReal) → ENNReal
  | [], σ, φ => φ σ
  | (id, r) :: l, σ, φ => ∫⁻ x, sampleE arr law ρ l (Function.update σ id x) φ ∂(law id r.dist (params (asg arr σ) ρ r))

/-- Iterated integral over the values of the variables with respect to the reference measures. -/
noncomputable def refE (ref : ∀ i, Measure (X i)) : List (ℕ × RVDef Di) → (∀ i, X i) → ((∀ i, X i) → ENNReal) → ENNReal
  | [], σ, φ => φ σ
  | (id, _) :: l, σ, φ => ∫⁻ x, refE ref l (Function.update σ id x) φ ∂(ref id)

/-- The sum over the entries of the log-probability array, at parameters `p`, is the log-density of the probability law `law`, with respect to `ref`. -/
structure GoodAt {Y : Type} [MeasurableSpace Y] (arr : Y → Arr FVal) (kernel : Arr FVal → List (Arr FVal) → Except Err (Arr FVal)) (law ref : Measure Y) (p : List (Arr FVal)) : Prop where
  prob : IsProbabilityMeasure law
  meas : AEMeasurable (fun x => dens (arrayJoint (kernel (arr x) p))) ref
  dens : law = ref.withDensity fun x => dens (arrayJoint (kernel (arr x) p))

/-- With probability one, the sampler meets only good parameters. -/
def Valid (arr : ∀ i, X i → Arr FVal) (kernel : Di → Arr FVal → List (Arr FVal) → Except Err (Arr FVal)) (law : ∀ i, Di → List (Arr FVal) → Measure (X i)) (ref : ∀ i, Measure (X i))
    (ρ : ℕ → Arr FVal) : List (ℕ × RVDef Di) → (∀ i, X i) → Prop
  | [], _ => True
  | (id, r) :: l, σ => GoodAt (arr id) (kernel r.dist) (law id r.dist (params (asg arr σ) ρ r)) (ref id) (params (asg arr σ) ρ r) ∧
      ∀ᵐ x ∂(law id r.dist (params (asg arr σ) ρ r)), Valid arr kernel law ref ρ l (Function.update σ id x)

/-- The variables are listed in dependency order, each once: no parameter mentions the variable itself or a later one. -/
def DependencyOrder : List (ℕ × RVDef Di) → Prop
  | [] => True
  | (id, r) :: l => (∀ i, ¬ Mentions id (r.args i)) ∧ (∀ p ∈ l, p.1 ≠ id ∧ ∀ i, ¬ Mentions p.1 (r.args i)) ∧ DependencyOrder l

/-- The number of entries of an array of shape `s`. -/
def entries (s : List ℕ) : ℕ := (allCoords s).length

/-- The coordinates of an entry. -/
def coord {s : List ℕ} (k : Fin (entries s)) : List ℕ := (allCoords s)[k]

/-- An array of shape `s` with given entries, in row-major order. -/
noncomputable def numbers (s : List ℕ) (x : Fin (entries s) → ℝ) : Arr FVal :=
  ⟨s, fun c => if h : (allCoords s).idxOf c < entries s then .fin (x ⟨(allCoords s).idxOf c, h⟩) else .nan⟩

/-- An array of shape `s ++ [n]` with given rows. -/
noncomputable def rows (s : List ℕ) (n : ℕ) (x : Fin (entries s) → Fin n → ℝ) : Arr FVal :=
  ⟨s ++ [n], fun c =>
    if h : c ≠ [] ∧ (allCoords s).idxOf c.dropLast < entries s ∧ c.getLastD 0 < n then .fin (x ⟨(allCoords s).idxOf c.dropLast, h.2.1⟩ ⟨c.getLastD 0, h.2.2⟩) else .nan⟩

/-- Every parameter can be broadcast into the shape `s` without changing it. -/
def Fit (s : List ℕ) (params : List (Arr FVal)) : Prop := bshape (s :: params.map Arr.shape) = some s

/-- The parameters that meet the entry `c`. -/
def paramsAt (params : List (Arr FVal)) (c : List ℕ) : List FVal := params.map fun a => a.get (project c a.shape)

end Verif.ArrGraph
