import Verif.Model.VecLibrary
import Verif.Spec.LibraryDefaults
import Verif.Spec.ArrCategorical
import Verif.Spec.Dirichlet
import Verif.Spec.Simplex
import Mathlib.Probability.Distributions.Gaussian.Multivariate

/-! # Models with numbers, vectors, counts and categories -/

namespace Verif.Library
open Verif FVal MeasureTheory ProbabilityTheory Set ArrGraph

/-- What the values of a variable are: an array of numbers, an array of real vectors, an array of vectors of integers, or an array of categories. -/
inductive Layout
  | nums (s : List ℕ)
  | vecs (b : List ℕ) (n : ℕ)
  | ints (b : List ℕ) (m : ℕ)
  | cats (s : List ℕ) (K : ℕ)

/-- The values. -/
def Layout.Space : Layout → Type
  | .nums s => Fin (entries s) → ℝ
  | .vecs b n => Fin (entries b) → Fin n → ℝ
  | .ints b m => Fin (entries b) → Fin m → ℤ
  | .cats s K => Fin (entries s) → Fin K

instance : ∀ L : Layout, MeasurableSpace L.Space
  | .nums s => inferInstanceAs (MeasurableSpace (Fin (entries s) → ℝ))
  | .vecs b n => inferInstanceAs (MeasurableSpace (Fin (entries b) → Fin n → ℝ))
  | .ints b m => inferInstanceAs (MeasurableSpace (Fin (entries b) → Fin m → ℤ))
  | .cats s K => inferInstanceAs (MeasurableSpace (Fin (entries s) → Fin K))

/-- A value, as an array. -/
noncomputable def Layout.arr : (L : Layout) → L.Space → Arr FVal
  | .nums s => numbers s
  | .vecs b n => rows b n
  | .ints b m => counts b m
  | .cats s _ => classes s

/-- The real number in a float. -/
def real : FVal → ℝ
  | .fin x => x
  | _ => 0

/-- The vector that meets the position `c`, in an array of vectors. -/
def vecAt (n : ℕ) (a : Arr FVal) (c : List ℕ) (i : Fin n) : ℝ := real (a.get (project (c ++ [(i : ℕ)]) a.shape))

/-- All numbers of the array of vectors are finite. -/
def FiniteVecs (n : ℕ) (a : Arr FVal) (b : List ℕ) : Prop := ∀ (k : Fin (entries b)) (i : Fin n), a.get (project (coord k ++ [(i : ℕ)]) a.shape) = .fin (vecAt n a (coord k) i)

/-- A matrix. -/
def matOf (n : ℕ) (a : Arr FVal) : Matrix (Fin n) (Fin n) ℝ := fun i j => real (a.get [(i : ℕ), (j : ℕ)])

/-- The number of trials that meets the position `c`. -/
noncomputable def natAt (a : Arr FVal) (c : List ℕ) : ℕ := ⌊real (a.get (project c a.shape))⌋₊

/-- The parameters fit into the layout of the variable and are in range: positive-definite covariance, positive concentrations, probability vectors, weights that are not negative and not all zero. -/
def VLib.Domain : VLib → Layout → List (Arr FVal) → Prop
  | .num d, .nums s, p => Fit s p ∧ ∀ k : Fin (entries s), d.Domain (paramsAt p (coord k))
  | .mvnormal, .vecs b n, [mu, cov] => b.length ≤ 1 ∧ Fit (b ++ [n]) [mu] ∧ FiniteVecs n mu b ∧ cov.shape = [n, n] ∧ (∀ i j : Fin n, cov.get [(i : ℕ), (j : ℕ)] = .fin (matOf n cov i j)) ∧ (matOf n cov).PosDef
  | .dirichlet, .vecs b n, [alpha] => 0 < n ∧ Fit (b ++ [n]) [alpha] ∧ alpha.shape.getLast? = some n ∧ FiniteVecs n alpha b ∧ ∀ (k : Fin (entries b)) i, 0 < vecAt n alpha (coord k) i
  | .multinomial, .ints b m, [N, P] => bshape [b, N.shape, P.shape.dropLast] = some b ∧ P.shape.getLast? = some m ∧ (∀ k : Fin (entries b), N.get (project (coord k) N.shape) = .fin (natAt N (coord k))) ∧
      FiniteVecs m P b ∧ (∀ (k : Fin (entries b)) i, 0 ≤ vecAt m P (coord k) i) ∧ ∀ k : Fin (entries b), ∑ i, vecAt m P (coord k) i = 1
  | .categorical, .cats s K, [w] => ∃ B, w.shape = B ++ [K] ∧ bshape [s, B] = some s ∧
      ∀ c, InRange c B → (∀ i : Fin K, w.get (c ++ [(i : ℕ)]) = .fin (vecAt K w c i) ∧ 0 ≤ vecAt K w c i) ∧ 0 < ∑ i, vecAt K w c i
  | _, _, _ => False

/-- The law: independent entries or vectors, each with the parameters that meet it. -/
noncomputable def VLib.law : VLib → (L : Layout) → List (Arr FVal) → Measure L.Space
  | .num d, .nums s, p => Measure.pi fun k : Fin (entries s) => d.law (paramsAt p (coord k))
  | .mvnormal, .vecs b n, [mu, cov] => Measure.pi fun k : Fin (entries b) => (multivariateGaussian (WithLp.toLp 2 (vecAt n mu (coord k))) (matOf n cov)).map WithLp.ofLp
  | .dirichlet, .vecs b n, [alpha] => Measure.pi fun k : Fin (entries b) => dirichletLaw (vecAt n alpha (coord k))
  | .multinomial, .ints b m, [N, P] => Measure.pi fun k : Fin (entries b) => Measure.count.withDensity fun x => ENNReal.ofReal (multinomialMass (natAt N (coord k)) (vecAt m P (coord k)) x)
  | .categorical, .cats s K, [w] => Measure.pi fun k : Fin (entries s) => Measure.count.withDensity fun i => ENNReal.ofReal (vecAt K w (coord k) i / ∑ j, vecAt K w (coord k) j)
  | _, _, _ => 0

/-- The values that can be reached. -/
def VLib.supp : VLib → (L : Layout) → List (Arr FVal) → Set L.Space
  | .num d, .nums s, p => {x : Fin (entries s) → ℝ | ∀ k, x k ∈ d.supp (paramsAt p (coord k))}
  | .dirichlet, .vecs b n, _ => {x : Fin (entries b) → Fin n → ℝ | ∀ k, (∀ i, 0 < x k i) ∧ ∑ i, x k i = 1}
  | .multinomial, .ints b m, [N, _] => {x : Fin (entries b) → Fin m → ℤ | ∀ k, (∀ i, 0 ≤ x k i) ∧ ∑ i, x k i = natAt N (coord k)}
  | _, _, _ => univ

/-- Lebesgue measure on the vectors with sum one: of all coordinates but the first, which is determined by them. -/
noncomputable def simplexRef : (n : ℕ) → Measure (Fin n → ℝ)
  | 0 => 0
  | _ + 1 => (volume : Measure (Fin _ → ℝ)).map simplexPoint

/-- The reference measure: Lebesgue measure for real numbers, counting for integers and categories. -/
noncomputable def VLib.ref : VLib → (L : Layout) → Measure L.Space
  | .num d, .nums s => Measure.pi fun _ : Fin (entries s) => d.ref
  | .mvnormal, .vecs b n => Measure.pi fun _ : Fin (entries b) => (volume : Measure (Fin n → ℝ))
  | .dirichlet, .vecs b n => Measure.pi fun _ : Fin (entries b) => simplexRef n
  | .multinomial, .ints b m => Measure.pi fun _ : Fin (entries b) => (Measure.count : Measure (Fin m → ℤ))
  | .categorical, .cats s K => Measure.pi fun _ : Fin (entries s) => (Measure.count : Measure (Fin K))
  | _, _ => 0

/-- At all values that can be reached, the parameters are in range. -/
def ValidVec (lay : ℕ → Layout) (ρ : ℕ → Arr FVal) : List (ℕ × RVDef VLib) → (∀ i, (lay i).Space) → Prop
  | [], _ => True
  | (id, r) :: l, σ => r.dist.Domain (lay id) (params (asg (fun i => (lay i).arr) σ) ρ r) ∧
    ∀ x ∈ r.dist.supp (lay id) (params (asg (fun i => (lay i).arr) σ) ρ r), ValidVec lay ρ l (Function.update σ id x)

/-! ## The scales of the default transforms -/

/-- The layout of the values on the scale of the default transform (if `asked`): Dirichlet vectors have one number less. -/
def VLib.scale (asked : Bool) (D : VLib) (L : Layout) : Layout :=
  match D with
  | .dirichlet => match asked with
    | true => match L with
      | .vecs b n => .vecs b (n - 1)
      | L => L
    | false => L
  | _ => L

/-- The draws on the scale of the default transform. -/
noncomputable def VLib.draw (asked : Bool) (D : VLib) (L : Layout) (p : List (Arr FVal)) : L.Space → (D.scale asked L).Space :=
  match D with
  | .num d => match L with
    | .nums _ => fun x k => bif asked then onLine d.default (paramsAt p (coord k)) (x k) else x k
    | .vecs _ _ => id
    | .ints _ _ => id
    | .cats _ _ => id
  | .dirichlet => match asked with
    | true => match L with
      | .vecs _ n => fun x k => coords (n - 1) (simplexForward (vec (x k)))
      | .nums _ => id
      | .ints _ _ => id
      | .cats _ _ => id
    | false => id
  | .mvnormal => id
  | .multinomial => id
  | .categorical => id

/-- The reference measure on the scale of the default transform: Lebesgue measure for all continuous variables, unless they are Dirichlet vectors for which no transform was asked. -/
noncomputable def VLib.scaleRef (asked : Bool) (D : VLib) (L : Layout) : Measure (D.scale asked L).Space :=
  match D with
  | .num d => VLib.ref (.num d) L
  | .dirichlet => match asked with
    | true => match L with
      | .vecs b n => Measure.pi fun _ : Fin (entries b) => (volume : Measure (Fin (n - 1) → ℝ))
      | .nums _ => 0
      | .ints _ _ => 0
      | .cats _ _ => 0
    | false => VLib.ref .dirichlet L
  | .mvnormal => VLib.ref .mvnormal L
  | .multinomial => VLib.ref .multinomial L
  | .categorical => VLib.ref .categorical L

/-- The default transform fits the parameters at every position. -/
def VLib.Fits : VLib → Layout → List (Arr FVal) → Prop
  | .num d, .nums s, p => ∀ k : Fin (entries s), d.Fits (paramsAt p (coord k))
  | _, _, _ => True

/-- At all values that can be reached, the parameters are in range, and default transforms that are asked for fit. -/
def ValidVecDefaults (asked : ℕ → Bool) (lay : ℕ → Layout) (ρ : ℕ → Arr FVal) : List (ℕ × RVDef VLib) → (∀ i, (lay i).Space) → Prop
  | [], _ => True
  | (id, r) :: l, σ => r.dist.Domain (lay id) (params (asg (fun i => (lay i).arr) σ) ρ r) ∧
    (asked id = true → r.dist.Fits (lay id) (params (asg (fun i => (lay i).arr) σ) ρ r)) ∧
    ∀ x ∈ r.dist.supp (lay id) (params (asg (fun i => (lay i).arr) σ) ρ r), ValidVecDefaults asked lay ρ l (Function.update σ id x)

end Verif.Library
