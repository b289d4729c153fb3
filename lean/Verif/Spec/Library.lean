import Verif.Model.Library
import Verif.Spec.Laws
import Verif.Spec.Mass
import Verif.Spec.FullDensity
import Verif.Spec.ArrGraph
import Mathlib.Probability.Distributions.Beta
import Mathlib.Probability.Distributions.Cauchy
import Mathlib.Probability.Distributions.Exponential
import Mathlib.Probability.Distributions.Pareto

/-! # The laws of the distributions of the library, their supports, and the parameters that they are defined for -/

namespace Verif.Library
open Verif FVal MeasureTheory ProbabilityTheory Set

/-- Parameters for which the distribution is defined.  (Negative-binomial variables with more than `10 ^ 10` trials are left out, see C32.) -/
inductive Lib.Domain : Lib → List FVal → Prop
  | uniform {a b : ℝ} : a < b → Lib.Domain .uniform [fin a, fin b]
  | normal (m : ℝ) {s : ℝ} : 0 < s → Lib.Domain .normal [fin m, fin s]
  | halfnormal (l : ℝ) {s : ℝ} : 0 < s → Lib.Domain .halfnormal [fin l, fin s]
  | beta {a b : ℝ} : 0 < a → 0 < b → Lib.Domain .beta [fin a, fin b]
  | exponential {m : ℝ} : 0 < m → Lib.Domain .exponential [fin m]
  | laplace (m : ℝ) {b : ℝ} : 0 < b → Lib.Domain .laplace [fin m, fin b]
  | lognormal (m : ℝ) {s : ℝ} : 0 < s → Lib.Domain .lognormal [fin m, fin s]
  | pareto {a m : ℝ} : 0 < a → 0 < m → Lib.Domain .pareto [fin a, fin m]
  | cauchy (a : ℝ) {b : ℝ} : 0 < b → Lib.Domain .cauchy [fin a, fin b]
  | halfcauchy (l : ℝ) {b : ℝ} : 0 < b → Lib.Domain .halfcauchy [fin l, fin b]
  | gamma {a t : ℝ} : 0 < a → 0 < t → Lib.Domain .gamma [fin a, fin t]
  | invgamma {a b : ℝ} : 0 < a → 0 < b → Lib.Domain .invgamma [fin a, fin b]
  | chisquare {n : ℝ} : 0 < n → Lib.Domain .chisquare [fin n]
  | wald {m l : ℝ} : 0 < m → 0 < l → Lib.Domain .wald [fin m, fin l]
  | weibull {c : ℝ} : 0 < c → Lib.Domain .weibull [fin c]
  | vonmises (m : ℝ) {k : ℝ} : 0 < k → Lib.Domain .vonmises [fin m, fin k]
  | triangular {a c b : ℝ} : a ≤ c → c ≤ b → a < b → Lib.Domain .triangular [fin a, fin c, fin b]
  | gumbel (m : ℝ) {b : ℝ} : 0 < b → Lib.Domain .gumbel [fin m, fin b]
  | logistic (m : ℝ) {s : ℝ} : 0 < s → Lib.Domain .logistic [fin m, fin s]
  | studentt {n : ℝ} (l : ℝ) {s : ℝ} : 0 < n → 0 < s → Lib.Domain .studentt [fin n, fin l, fin s]
  | binomial (n : ℕ) {p : ℝ} : 0 ≤ p → p ≤ 1 → Lib.Domain .binomial [fin n, fin p]
  | betabinomial (n : ℕ) {a b : ℝ} : 0 < a → 0 < b → Lib.Domain .betabinomial [fin n, fin a, fin b]
  | bernoulli {p : ℝ} : 0 ≤ p → p ≤ 1 → Lib.Domain .bernoulli [fin p]
  | poisson {m : ℝ} : 0 ≤ m → Lib.Domain .poisson [fin m]
  | nbinom {n p : ℝ} : 0 < n → n ≤ 10000000000 → 0 < p → p < 1 → Lib.Domain .nbinom [fin n, fin p]
  | geometric {p : ℝ} : 0 < p → p ≤ 1 → Lib.Domain .geometric [fin p]
  | hypergeometric {g b n : ℕ} : n ≤ g + b → Lib.Domain .hypergeometric [fin g, fin b, fin n]

/-- Density of the triangular distribution on `[a, b]` with mode `c`. -/
noncomputable def triangularPDF (a c b x : ℝ) : ℝ :=
  if a < x ∧ x < c then 2 * (x - a) / ((b - a) * (c - a)) else if c ≤ x ∧ x < b ∧ a < x then 2 * (b - x) / ((b - a) * (b - c)) else 0

/-- Density of the logistic distribution. -/
noncomputable def logisticPDF (m s x : ℝ) : ℝ := Real.exp (-((x - m) / s)) / (s * (1 + Real.exp (-((x - m) / s))) ^ 2)

/-- The laws. -/
noncomputable def Lib.law : Lib → List FVal → Measure ℝ
  | .uniform, [fin a, fin b] => ProbabilityTheory.cond volume (Icc a b)
  | .normal, [fin m, fin s] => gaussianReal m (s ^ 2).toNNReal
  | .halfnormal, [fin l, fin s] => (gaussianReal 0 1).map fun z => l + s * |z|
  | .beta, [fin a, fin b] => betaMeasure a b
  | .exponential, [fin m] => expMeasure m⁻¹
  | .laplace, [fin m, fin b] => (2 : ENNReal)⁻¹ • (expMeasure 1).map (fun e => m + b * e) + (2 : ENNReal)⁻¹ • (expMeasure 1).map (fun e => m - b * e)
  | .lognormal, [fin m, fin s] => (gaussianReal m (s ^ 2).toNNReal).map Real.exp
  | .pareto, [fin a, fin m] => paretoMeasure m a
  | .cauchy, [fin a, fin b] => cauchyMeasure a b.toNNReal
  | .halfcauchy, [fin l, fin b] => (cauchyMeasure 0 b.toNNReal).map fun c => l + |c|
  | .gamma, [fin a, fin t] => gammaMeasure a (1 / t)
  | .invgamma, [fin a, fin b] => (gammaMeasure a b).map fun g => g⁻¹
  | .chisquare, [fin n] => gammaMeasure (n / 2) (1 / 2)
  | .wald, [fin m, fin l] => waldMeasure m l
  | .weibull, [fin c] => (expMeasure 1).map fun e => e ^ (1 / c)
  | .vonmises, [fin m, fin k] => vonMisesMeasure m k
  | .triangular, [fin a, fin c, fin b] => volume.withDensity fun x => ENNReal.ofReal (triangularPDF a c b x)
  | .gumbel, [fin m, fin b] => (expMeasure 1).map fun e => m - b * Real.log e
  | .logistic, [fin m, fin s] => volume.withDensity fun x => ENNReal.ofReal (logisticPDF m s x)
  | .studentt, [fin n, fin l, fin s] => ((gaussianReal 0 1).prod (gammaMeasure (n / 2) (n / 2))).map fun p => l + s * p.1 / √p.2
  | .binomial, [fin n, fin p] => massLaw (onNat (binomialMass ⌊n⌋₊ p))
  | .betabinomial, [fin n, fin a, fin b] => massLaw (onNat (betaBinomialMass ⌊n⌋₊ a b))
  | .bernoulli, [fin p] => massLaw (onNat (bernoulliMass p))
  | .poisson, [fin m] => massLaw (onNat (poissonMass m))
  | .nbinom, [fin n, fin p] => massLaw (onNat (negBinomialMass n p))
  | .geometric, [fin p] => massLaw (onNat (geometricMass p))
  | .hypergeometric, [fin g, fin b, fin n] => massLaw (onNat (hypergeometricMass ⌊g⌋₊ ⌊b⌋₊ ⌊n⌋₊))
  | _, _ => 0

/-- The values that the variables take. -/
def Lib.supp : Lib → List FVal → Set ℝ
  | .uniform, [fin a, fin b] => Ioo a b
  | .halfnormal, [fin l, _] => Ioi l
  | .beta, _ => Ioo 0 1
  | .exponential, _ => Ioi 0
  | .lognormal, _ => Ioi 0
  | .pareto, [_, fin m] => Ioi m
  | .halfcauchy, [fin l, _] => Ioi l
  | .gamma, _ => Ioi 0
  | .invgamma, _ => Ioi 0
  | .chisquare, _ => Ioi 0
  | .wald, _ => Ioi 0
  | .weibull, _ => Ioi 0
  | .vonmises, _ => Ioo (-Real.pi) Real.pi
  | .triangular, [fin a, _, fin b] => Ioo a b
  | .binomial, [fin n, _] => {x | ∃ k : ℕ, x = k ∧ x ≤ n}
  | .betabinomial, [fin n, _, _] => {x | ∃ k : ℕ, x = k ∧ x ≤ n}
  | .bernoulli, _ => {0, 1}
  | .poisson, _ => range ((↑) : ℕ → ℝ)
  | .nbinom, _ => range ((↑) : ℕ → ℝ)
  | .geometric, _ => {x | ∃ k : ℕ, x = k ∧ 1 ≤ x}
  | .hypergeometric, [fin g, _, fin n] => {x | ∃ k : ℕ, x = k ∧ x ≤ g ∧ x ≤ n}
  | _, _ => univ

/-- Laws, supports and data types. -/
noncomputable def world : Full.World Lib where
  law := Lib.law
  supp := Lib.supp
  kd := Lib.kind

/-- The reference measure of the densities: Lebesgue measure, or one unit of mass at each integer. -/
noncomputable def Lib.ref (d : Lib) : Measure ℝ := mixedRef (d.kind == .float) (Full.rvAtoms d.kind)

/-- The parameters of all random variables are in range, the functions invertible (with slope `1` or `-1` where the variable has atoms), clipped and rounded variables have a log-CDF, bounds are in order (and integers,
for integer variables), and indices are positions. -/
def InDomain (val : Full.Expr Lib → FVal) : Full.RTree Lib → Prop
  | .rv s => s.dist.Domain (s.params val)
  | .elem op n idx args t => InDomain val t ∧ (Full.elemLayer val op n idx args).OkOn Full.constVal (t.range world val) ∧ (t.atoms world val = ∅ ∨ op = .add ∨ op = .sub)
  | .clip lo hi s => s.dist.Domain (s.params val) ∧ s.dist.hasCdf = true ∧ Full.BoundIs val .ninf lo ∧ Full.BoundIs val .pinf hi ∧ BoundsLt (Full.boundVal val lo) (Full.boundVal val hi) ∧
    (s.dist.kind = .int → boundSet (Full.boundVal val lo) (Full.boundVal val hi) ⊆ integers)
  | .round _ s => s.dist.Domain (s.params val) ∧ s.dist.hasCdf = true ∧ s.dist.kind = .float
  | .mix idx k comps => (∃ i : Fin k, val idx = .fin (i : ℕ) ∧ InDomain val (comps i)) ∧ ∀ i, ∀ s ∈ (comps i).sources, s.dist.Domain (s.params val)

/-- So it is at all values that can be reached. -/
def ValidModel (R : ℕ → Prop) (ρ : ℕ → FVal) : List (Full.Item Lib) → (ℕ → ℝ) → Prop
  | [], _ => True
  | it :: l, τ => InDomain (Full.readAt R (Graph.asg τ) ρ) it.tree ∧ ∀ y ∈ it.tree.range world (Full.readAt R (Graph.asg τ) ρ), ValidModel R ρ l (Function.update τ it.v y)

/-! ## Models with arrays -/

open ArrGraph in
/-- The entries are independent, each with the parameters that meet it. -/
noncomputable def arrayLaw (shape : ℕ → List ℕ) (i : ℕ) (d : Lib) (p : List (Arr FVal)) : Measure (Fin (entries (shape i)) → ℝ) := Measure.pi fun k : Fin (entries (shape i)) => d.law (paramsAt p (coord k))

open ArrGraph in
/-- The reference measure of an array of numbers. -/
noncomputable def arrayRef (shape : ℕ → List ℕ) (kinds : ℕ → Full.Kind) (i : ℕ) : Measure (Fin (entries (shape i)) → ℝ) := Measure.pi fun _ => mixedRef (kinds i == .float) (Full.rvAtoms (kinds i))

open ArrGraph in
/-- At all values that can be reached, the parameters fit into the shape of the variable and are in range at every entry. -/
def ValidArrays (shape : ℕ → List ℕ) (ρ : ℕ → Arr FVal) : List (ℕ × RVDef Lib) → (∀ i, Fin (entries (shape i)) → ℝ) → Prop
  | [], _ => True
  | (id, r) :: l, σ => Fit (shape id) (params (asg (fun i => numbers (shape i)) σ) ρ r) ∧
    (∀ k : Fin (entries (shape id)), r.dist.Domain (paramsAt (params (asg (fun i => numbers (shape i)) σ) ρ r) (coord k))) ∧
    ∀ x, (∀ k, x k ∈ r.dist.supp (paramsAt (params (asg (fun i => numbers (shape i)) σ) ρ r) (coord k))) → ValidArrays shape ρ l (Function.update σ id x)

end Verif.Library
