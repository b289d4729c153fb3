import Verif.Spec.Full
import Verif.Spec.IRDensity
import Verif.Spec.Atoms
import Verif.Spec.Censoring

/-! # Forward sampling of a model with functions, clipping, rounding and mixtures, and integrals over the values of the requested variables -/

namespace Verif.Full
open Verif MeasureTheory Set

variable {Di : Type}

/-- Value of a graph when the random variables have been drawn as `σ`. -/
noncomputable def evalAt (σ ρ : ℕ → FVal) : Expr Di → FVal
  | .const x => x
  | .inp i => ρ i
  | .app _ _ op _ args => op.eval (List.ofFn fun i => evalAt σ ρ (args i))
  | .rv id _ _ _ => σ id
  | .valued r _ => evalAt σ ρ r

open Classical in
/-- Value of a graph when the variables in `R` have the values `τ`, whatever they are computed from. -/
noncomputable def readAt (R : ℕ → Prop) (τ ρ : ℕ → FVal) : Expr Di → FVal
  | .const x => x
  | .inp i => ρ i
  | .app id _ op _ args => if R id then τ id else op.eval (List.ofFn fun i => readAt R τ ρ (args i))
  | .rv id _ _ _ => if R id then τ id else .nan
  | .valued r _ => readAt R τ ρ r

/-- The value of the graph follows from the values of the variables in `E`: these are the variables with values that are met first. -/
def DetBy (R E : ℕ → Prop) : Expr Di → Prop
  | .const _ => True
  | .inp _ => True
  | .app id _ _ _ args => (R id ∧ E id) ∨ (¬ R id ∧ ∀ i, DetBy R E (args i))
  | .rv id _ _ _ => R id ∧ E id
  | .valued _ _ => False

/-- An input occurs in a graph. -/
def UsesInput (i : ℕ) : Expr Di → Prop
  | .const _ => False
  | .inp i' => i' = i
  | .app _ _ _ _ args => ∃ j, UsesInput i (args j)
  | .rv _ _ _ args => ∃ j, UsesInput i (args j)
  | .valued r _ => UsesInput i r

/-- A random variable. -/
structure Source (Di : Type) where
  id : ℕ
  dist : Di
  n : ℕ
  args : Fin n → Expr Di

/-- How a variable is made from random variables; no bound is written `none`. -/
inductive RTree (Di : Type) where
  | rv (s : Source Di)
  | elem (op : IR.Op) (n : ℕ) (idx : Fin n) (args : Fin n → Expr Di) (base : RTree Di)
  | clip (lo hi : Option (Expr Di)) (s : Source Di)
  | round (r : RoundOp) (s : Source Di)
  | mix (idx : Expr Di) (k : ℕ) (comps : Fin k → RTree Di)

/-- A mixture. -/
def RTree.isMix : RTree Di → Bool
  | .mix _ _ _ => true
  | _ => false

open Classical in
/-- A bound of `clip`; the clipped variable itself is no bound. -/
noncomputable def boundOf (id : ℕ) (b : Expr Di) : Option (Expr Di) := if nodeId b = some id then none else some b

/-- The variable `e` is made as described by the tree; nothing in between has a value. -/
inductive IsTree (R : ℕ → Prop) (kd : Di → Kind) (hasCdf : Di → Bool) : Expr Di → RTree Di → Prop
  | rv (id dist n args) : IsTree R kd hasCdf (.rv id dist n args) (.rv ⟨id, dist, n, args⟩)
  | elem {id k op n args t} (i : Fin n) : IR.Supported op n → ¬ HasValue R (args i) → kindOf kd (args i) ≠ .int → t.isMix = false → IsTree R kd hasCdf (args i) t →
      IsTree R kd hasCdf (.app id k (.elem op) n args) (.elem op n i args t)
  | clip {id k args id' dist n' args'} : args 0 = .rv id' dist n' args' → ¬ R id' → hasCdf dist = true →
      IsTree R kd hasCdf (.app id k .clip 3 args) (.clip (boundOf id' (args 1)) (boundOf id' (args 2)) ⟨id', dist, n', args'⟩)
  | round {id k r args id' dist n' args'} : args 0 = .rv id' dist n' args' → ¬ R id' → hasCdf dist = true → kd dist = .float →
      IsTree R kd hasCdf (.app id k (.round r) 1 args) (.round r ⟨id', dist, n', args'⟩)
  | pick {id k m args} {ts : Fin m → RTree Di} : 0 < m → (∀ i : Fin m, ¬ HasValue R (args i.succ)) → (∀ i : Fin m, IsTree R kd hasCdf (args i.succ) (ts i)) →
      IsTree R kd hasCdf (.app id k .pick (m + 1) args) (.mix (args 0) m ts)

/-- The random variables of a tree. -/
def RTree.sources : RTree Di → List (Source Di)
  | .rv s => [s]
  | .elem _ _ _ _ t => t.sources
  | .clip _ _ s => [s]
  | .round _ s => [s]
  | .mix _ k comps => (List.finRange k).flatMap fun i => (comps i).sources

/-- Everything else in a tree satisfies `P`: parameters of random variables, other inputs of functions, bounds, and indices. -/
def RTree.AllInputs (P : Expr Di → Prop) : RTree Di → Prop
  | .rv s => ∀ i, P (s.args i)
  | .elem _ _ idx args t => (∀ j, j ≠ idx → P (args j)) ∧ t.AllInputs P
  | .clip lo hi s => (∀ e ∈ lo, P e) ∧ (∀ e ∈ hi, P e) ∧ ∀ i, P (s.args i)
  | .round _ s => ∀ i, P (s.args i)
  | .mix idx _ comps => P idx ∧ ∀ i, (comps i).AllInputs P

/-- The other inputs of the functions in a tree satisfy `P`. -/
def RTree.OtherInputs (P : Expr Di → Prop) : RTree Di → Prop
  | .rv _ => True
  | .elem _ _ idx args t => (∀ j, j ≠ idx → P (args j)) ∧ t.OtherInputs P
  | .clip _ _ _ => True
  | .round _ _ => True
  | .mix _ _ comps => ∀ i, (comps i).OtherInputs P

/-- A requested variable and how it is made. -/
structure Item (Di : Type) where
  v : ℕ
  tree : RTree Di

/-- The requested variables are listed such that everything that one is made from, other than its own random variables, follows from the ones listed before. -/
def Listed (defs : ℕ → Option (Expr Di)) (kd : Di → Kind) (hasCdf : Di → Bool) (R : ℕ → Prop) : List (Item Di) → List ℕ → Prop
  | [], _ => True
  | it :: l, seen => (∃ e, defs it.v = some e ∧ IsTree R kd hasCdf e it.tree) ∧ it.tree.AllInputs (DetBy R (· ∈ seen)) ∧ Listed defs kd hasCdf R l (seen ++ [it.v])

/-! ## Values -/

/-- What is known about the distributions. -/
structure World (Di : Type) where
  law : Di → List FVal → Measure ℝ
  supp : Di → List FVal → Set ℝ
  kd : Di → Kind

/-- Parameters of a random variable. -/
noncomputable def Source.params (val : Expr Di → FVal) (s : Source Di) : List FVal := List.ofFn fun i => val (s.args i)

/-- An elementwise node with the values of its other inputs put in. -/
def elemLayer (val : Expr Di → FVal) (op : IR.Op) (n : ℕ) (idx : Fin n) (args : Fin n → Expr Di) : IR.Layer Unit := ⟨op, n, idx, fun j => .const (val (args j))⟩

/-- The values in it. -/
def constVal : IR.Expr Unit → FVal
  | .const x => x
  | _ => .nan

/-- A bound as a number. -/
noncomputable def boundVal (val : Expr Di → FVal) : Option (Expr Di) → Option ℝ
  | none => none
  | some e =>
    match val e with
    | .fin a => some a
    | _ => none

open Classical in
/-- The component that the index selects. -/
noncomputable def chosen (v : FVal) (k : ℕ) : Option (Fin k) := if h : ∃ i : Fin k, v = .fin (i : ℕ) then some h.choose else none

/-- The values a variable can take. -/
noncomputable def RTree.range (W : World Di) (val : Expr Di → FVal) : RTree Di → Set ℝ
  | .rv s => W.supp s.dist (s.params val)
  | .elem op n idx args t => (elemLayer val op n idx args).fn constVal '' t.range W val
  | .clip lo hi s => clipTo (boundVal val lo) (boundVal val hi) '' W.supp s.dist (s.params val)
  | .round r s => {y | ∃ k : ℤ, y = k ∧ ∃ x ∈ W.supp s.dist (s.params val), x ∈ roundsTo r k}
  | .mix idx k comps =>
    match chosen (val idx) k with
    | some i => (comps i).range W val
    | none => ∅

/-- Whether the variable has a continuous part. -/
noncomputable def RTree.cont (W : World Di) (val : Expr Di → FVal) : RTree Di → Bool
  | .rv s => W.kd s.dist == .float
  | .elem _ _ _ _ t => t.cont W val
  | .clip _ _ s => W.kd s.dist == .float
  | .round _ _ => false
  | .mix idx k comps =>
    match chosen (val idx) k with
    | some i => (comps i).cont W val
    | none => false

/-- Random variables whose data type is not a floating point type take integer values. -/
def rvAtoms (k : Kind) : Set ℝ := if k = .float then ∅ else integers

/-- Where the variable may have atoms. -/
noncomputable def RTree.atoms (W : World Di) (val : Expr Di → FVal) : RTree Di → Set ℝ
  | .rv s => rvAtoms (W.kd s.dist)
  | .elem op n idx args t => (elemLayer val op n idx args).fn constVal '' t.atoms W val
  | .clip lo hi s => rvAtoms (W.kd s.dist) ∪ boundSet (boundVal val lo) (boundVal val hi)
  | .round _ _ => integers
  | .mix idx k comps =>
    match chosen (val idx) k with
    | some i => (comps i).atoms W val
    | none => ∅

/-- The reference measure of the density: Lebesgue measure, unit atoms, or both. -/
noncomputable def RTree.ref (W : World Di) (val : Expr Di → FVal) (t : RTree Di) : Measure ℝ := mixedRef (t.cont W val) (t.atoms W val)

/-! ## What has to hold of the distributions and functions -/

/-- The kernel is the log-density of the law with respect to `ref`, on the support; it is nowhere `+inf` there. -/
structure SourceOk (reg : Registry Di) (W : World Di) (dist : Di) (p : List FVal) : Prop where
  good : IR.GoodOn (reg.kernel dist) (W.law dist) (mixedRef (W.kd dist == .float) (rvAtoms (W.kd dist))) (W.supp dist) p
  finite : ∀ x ∈ W.supp dist p, dens (reg.kernel dist (.fin x) p) ≠ ⊤

/-- The kernel and log-CDF of a continuous variable, everywhere. -/
structure FloatCdfOk (reg : Registry Di) (W : World Di) (dist : Di) (p : List FVal) : Prop where
  lp : IsLogDensity (fun x => reg.kernel dist (.fin x) p) (W.law dist p)
  lc : IsLogCdf (fun x => reg.cdf dist (.fin x) p) (W.law dist p)

/-- The kernel and log-CDF of an integer variable, at all integers; the support has only integers. -/
structure IntCdfOk (reg : Registry Di) (W : World Di) (dist : Di) (p : List FVal) : Prop where
  lp : ∀ k : ℤ, Clean (reg.kernel dist (.fin k) p) ∧ dens (reg.kernel dist (.fin k) p) = W.law dist p {(k : ℝ)}
  lc : ∀ k : ℤ, Clean (reg.cdf dist (.fin k) p) ∧ dens (reg.cdf dist (.fin k) p) = W.law dist p (Iic (k : ℝ))
  supp : W.supp dist p ⊆ integers

/-- The bounds are numbers, or infinite on their side. -/
def BoundIs (val : Expr Di → FVal) (inf : FVal) (b : Option (Expr Di)) : Prop := ∀ e ∈ b, (∃ a : ℝ, val e = .fin a) ∨ val e = inf

/-- Distributions with good parameters, invertible functions (with slope `1` or `-1` where the variable has atoms), bounds in order (and integers, for integer variables), and an index that is a position. -/
def RTree.Ok (reg : Registry Di) (W : World Di) (val : Expr Di → FVal) : RTree Di → Prop
  | .rv s => SourceOk reg W s.dist (s.params val)
  | .elem op n idx args t => t.Ok reg W val ∧ (elemLayer val op n idx args).OkOn constVal (t.range W val) ∧ (t.atoms W val = ∅ ∨ op = .add ∨ op = .sub)
  | .clip lo hi s => SourceOk reg W s.dist (s.params val) ∧ BoundIs val .ninf lo ∧ BoundIs val .pinf hi ∧ BoundsLt (boundVal val lo) (boundVal val hi) ∧
    ((W.kd s.dist = .float ∧ FloatCdfOk reg W s.dist (s.params val)) ∨
      (W.kd s.dist = .int ∧ IntCdfOk reg W s.dist (s.params val) ∧ boundSet (boundVal val lo) (boundVal val hi) ⊆ integers))
  | .round _ s => SourceOk reg W s.dist (s.params val) ∧ W.kd s.dist = .float ∧ IsLogCdf (fun x => reg.cdf s.dist (.fin x) (s.params val)) (W.law s.dist (s.params val)) ∧
    ∀ x ∈ W.supp s.dist (s.params val), W.law s.dist (s.params val) (Iic x) ≠ 0
  | .mix idx k comps => (∃ i : Fin k, val idx = .fin (i : ℕ) ∧ (comps i).Ok reg W val) ∧ ∀ i, ∀ s ∈ (comps i).sources, IsProbabilityMeasure (W.law s.dist (s.params val))

/-! ## Integrals -/

/-- Expectation of `φ` of the draws: draw the random variables one after the other, from their laws at the parameters computed from the draws so far. -/
noncomputable def sampleE (law : Di → List FVal → Measure ℝ) (ρ : ℕ → FVal) : List (Source Di) → (ℕ → ℝ) → ((ℕ → ℝ) → ENNReal) → ENNReal
  | [], σ, φ => φ σ
  | s :: l, σ, φ => ∫⁻ x, sampleE law ρ l (Function.update σ s.id x) φ ∂(law s.dist (s.params (evalAt (Graph.asg σ) ρ)))

open Classical in
/-- The values of the variables `ids`, computed from the draws `σ`. -/
noncomputable def values (defs : ℕ → Option (Expr Di)) (ρ : ℕ → FVal) (ids : List ℕ) (τ₀ σ : ℕ → ℝ) (v : ℕ) : ℝ :=
  if v ∈ ids then
    match defs v with
    | some e => realOf (.ok (evalAt (Graph.asg σ) ρ e))
    | none => 0
  else τ₀ v

/-- Iterated integral over the values that the items can take, each against its reference measure. -/
noncomputable def refE (W : World Di) (R : ℕ → Prop) (ρ : ℕ → FVal) : List (Item Di) → (ℕ → ℝ) → ((ℕ → ℝ) → ENNReal) → ENNReal
  | [], τ, φ => φ τ
  | it :: l, τ, φ => ∫⁻ y in it.tree.range W (readAt R (Graph.asg τ) ρ), refE W R ρ l (Function.update τ it.v y) φ ∂(it.tree.ref W (readAt R (Graph.asg τ) ρ))

/-- At all values that can be reached, everything is in order. -/
def Valid (reg : Registry Di) (W : World Di) (R : ℕ → Prop) (ρ : ℕ → FVal) : List (Item Di) → (ℕ → ℝ) → Prop
  | [], _ => True
  | it :: l, τ => it.tree.Ok reg W (readAt R (Graph.asg τ) ρ) ∧ ∀ y ∈ it.tree.range W (readAt R (Graph.asg τ) ρ), Valid reg W R ρ l (Function.update τ it.v y)

end Verif.Full
