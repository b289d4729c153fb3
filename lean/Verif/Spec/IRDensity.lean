import Verif.Spec.IR
import Verif.Spec.Graph
import Verif.Spec.Transform

/-! # Forward sampling of a model with derived variables, and integrals over the values of the requested ones -/

namespace Verif.IR
open Verif MeasureTheory Set

variable {Di : Type}

/-- Value of a graph when the random variables have been drawn as `σ`. -/
noncomputable def evalAt (σ ρ : ℕ → FVal) : Expr Di → FVal
  | .const x => x
  | .inp i => ρ i
  | .app _ op _ args => op.eval (List.ofFn fun i => evalAt σ ρ (args i))
  | .rv id _ _ _ => σ id
  | .valued r _ => evalAt σ ρ r

open Classical in
/-- Value of a graph when the variables in `R` have the values `τ`, whatever they are computed from. -/
noncomputable def readAt (R : ℕ → Prop) (τ ρ : ℕ → FVal) : Expr Di → FVal
  | .const x => x
  | .inp i => ρ i
  | .app id op _ args => if R id then τ id else op.eval (List.ofFn fun i => readAt R τ ρ (args i))
  | .rv id _ _ _ => if R id then τ id else .nan
  | .valued r _ => readAt R τ ρ r

/-- A random variable. -/
structure Source (Di : Type) where
  id : ℕ
  dist : Di
  n : ℕ
  args : Fin n → Expr Di

/-- `e` is a tower of supported functions `ls` (innermost first) over the random variable `s`; nothing in between has a value. -/
inductive IsTower (R : ℕ → Prop) : Expr Di → Source Di → List (Layer Di) → Prop
  | rv (id dist n args) : IsTower R (.rv id dist n args) ⟨id, dist, n, args⟩ []
  | app {id op n args s ls} (i : Fin n) : Supported op n → ¬ HasValue R (args i) → IsTower R (args i) s ls → IsTower R (.app id op n args) s (ls ++ [⟨op, n, i, args⟩])

/-- The value of the graph follows from the values of the variables in `E`: these are the variables with values that are met first. -/
def DetBy (R E : ℕ → Prop) : Expr Di → Prop
  | .const _ => True
  | .inp _ => True
  | .app id _ _ args => (R id ∧ E id) ∨ (¬ R id ∧ ∀ i, DetBy R E (args i))
  | .rv id _ _ _ => R id ∧ E id
  | .valued _ _ => False

/-- A requested variable: the functions applied and the random variable below. -/
structure Item (Di : Type) where
  v : ℕ
  source : Source Di
  layers : List (Layer Di)

/-- The requested variables are listed such that each is a function of a random variable of its own, while the parameters of the random variable and the other inputs of the function follow
from the variables listed before.  Variables with values that are functions have floating point type. -/
def Listed (defs : ℕ → Option (Expr Di)) (isInt : Di → Bool) (R : ℕ → Prop) : List (Item Di) → List ℕ → Prop
  | [], _ => True
  | it :: l, seen =>
    (∃ e, defs it.v = some e ∧ IsTower R e it.source it.layers) ∧ (it.layers ≠ [] → isInt it.source.dist = false) ∧ (∀ i, DetBy R (· ∈ seen) (it.source.args i)) ∧
    (∀ ly ∈ it.layers, ∀ j, j ≠ ly.idx → DetBy R (· ∈ seen) (ly.args j)) ∧ Listed defs isInt R l (seen ++ [it.v])

/-- Result of a function of one unknown real input; the others are read off by `val`. -/
noncomputable def Layer.out (val : Expr Di → FVal) (l : Layer Di) (x : ℝ) : FVal := l.op.eval (List.ofFn fun j => if j = l.idx then .fin x else val (l.args j))

/-- The same as a real function. -/
noncomputable def Layer.fn (val : Expr Di → FVal) (l : Layer Di) (x : ℝ) : ℝ := realOf (.ok (l.out val x))

/-- The function computed by a tower. -/
noncomputable def towerMap (val : Expr Di → FVal) : List (Layer Di) → ℝ → ℝ
  | [], x => x
  | l :: ls, x => towerMap val ls (l.fn val x)

/-- The function is invertible on `D`: other inputs are finite, factors not zero, and arguments of logarithms and denominators positive. -/
def Layer.OkOn (val : Expr Di → FVal) (l : Layer Di) (D : Set ℝ) : Prop :=
  match l.op with
  | .add => ∀ j, j ≠ l.idx → ∃ a : ℝ, val (l.args j) = .fin a
  | .sub => ∀ j, j ≠ l.idx → ∃ a : ℝ, val (l.args j) = .fin a
  | .mul => ∀ j, j ≠ l.idx → ∃ a : ℝ, a ≠ 0 ∧ val (l.args j) = .fin a
  | .div => (∀ j, j ≠ l.idx → ∃ a : ℝ, a ≠ 0 ∧ val (l.args j) = .fin a) ∧ (l.idx.val = 1 → D ⊆ Ioi 0)
  | .exp => True
  | .log => D ⊆ Ioi 0
  | .reciprocal => D ⊆ Ioi 0
  | .other _ => False

/-- Every function of a tower is invertible on the results of the one below. -/
def TowerOkOn (val : Expr Di → FVal) : List (Layer Di) → Set ℝ → Prop
  | [], _ => True
  | l :: ls, D => l.OkOn val D ∧ TowerOkOn val ls (l.fn val '' D)

/-- Parameters of the random variable below an item, read off the values given. -/
noncomputable def Item.params (R : ℕ → Prop) (τ ρ : ℕ → FVal) (it : Item Di) : List FVal := List.ofFn fun i => readAt R τ ρ (it.source.args i)

/-- Expectation of `φ` of the draws: draw the random variables one after the other, from their laws at the parameters computed from the draws so far. -/
noncomputable def sampleE (law : Di → List FVal → Measure ℝ) (ρ : ℕ → FVal) : List (Item Di) → (ℕ → ℝ) → ((ℕ → ℝ) → ENNReal) → ENNReal
  | [], σ, φ => φ σ
  | it :: l, σ, φ =>
    ∫⁻ x, sampleE law ρ l (Function.update σ it.source.id x) φ ∂(law it.source.dist (List.ofFn fun i => evalAt (Graph.asg σ) ρ (it.source.args i)))

open Classical in
/-- The values of the variables `ids`, computed from the draws `σ`. -/
noncomputable def values (defs : ℕ → Option (Expr Di)) (ρ : ℕ → FVal) (ids : List ℕ) (τ₀ σ : ℕ → ℝ) (v : ℕ) : ℝ :=
  if v ∈ ids then
    match defs v with
    | some e => realOf (.ok (evalAt (Graph.asg σ) ρ e))
    | none => 0
  else τ₀ v

/-- The values an item can take, given those of the items before: the image of the support of the random variable. -/
noncomputable def Item.range (supp : Di → List FVal → Set ℝ) (R : ℕ → Prop) (ρ : ℕ → FVal) (τ : ℕ → ℝ) (it : Item Di) : Set ℝ :=
  towerMap (readAt R (Graph.asg τ) ρ) it.layers '' supp it.source.dist (it.params R (Graph.asg τ) ρ)

/-- Iterated integral over the values that the items can take. -/
noncomputable def refE (ref : Di → Measure ℝ) (supp : Di → List FVal → Set ℝ) (R : ℕ → Prop) (ρ : ℕ → FVal) : List (Item Di) → (ℕ → ℝ) → ((ℕ → ℝ) → ENNReal) → ENNReal
  | [], τ, φ => φ τ
  | it :: l, τ, φ => ∫⁻ y in it.range supp R ρ τ, refE ref supp R ρ l (Function.update τ it.v y) φ ∂(ref it.source.dist)

/-- The kernel at parameters `p` is a log-density of the probability law `law p` with respect to `ref`, on the set `supp p`. -/
structure GoodOn (kernel : FVal → List FVal → Except Err FVal) (law : List FVal → Measure ℝ) (ref : Measure ℝ) (supp : List FVal → Set ℝ) (p : List FVal) : Prop where
  prob : IsProbabilityMeasure (law p)
  set : MeasurableSet (supp p)
  clean : ∀ x ∈ supp p, Clean (kernel (.fin x) p)
  meas : Measurable ((supp p).indicator fun x : ℝ => dens (kernel (.fin x) p))
  dens : law p = ref.withDensity ((supp p).indicator fun x : ℝ => dens (kernel (.fin x) p))

/-- At all values that can be reached, the parameters are good and the functions invertible. -/
def Valid (kernel : Di → FVal → List FVal → Except Err FVal) (law : Di → List FVal → Measure ℝ) (ref : Di → Measure ℝ) (supp : Di → List FVal → Set ℝ) (R : ℕ → Prop) (ρ : ℕ → FVal) :
    List (Item Di) → (ℕ → ℝ) → Prop
  | [], _ => True
  | it :: l, τ =>
    GoodOn (kernel it.source.dist) (law it.source.dist) (ref it.source.dist) (supp it.source.dist) (it.params R (Graph.asg τ) ρ) ∧
    TowerOkOn (readAt R (Graph.asg τ) ρ) it.layers (supp it.source.dist (it.params R (Graph.asg τ) ρ)) ∧
    ∀ y ∈ it.range supp R ρ τ, Valid kernel law ref supp R ρ l (Function.update τ it.v y)

/-- An input occurs in a graph. -/
def UsesInput (i : ℕ) : Expr Di → Prop
  | .const _ => False
  | .inp i' => i' = i
  | .app _ _ _ args => ∃ j, UsesInput i (args j)
  | .rv _ _ _ args => ∃ j, UsesInput i (args j)
  | .valued r _ => UsesInput i r

end Verif.IR
