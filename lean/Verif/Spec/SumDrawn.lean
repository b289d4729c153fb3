import Verif.Spec.DrawnTerm
import Mathlib.Probability.Distributions.Gaussian.Real

/-! # Variables made from random variables and from sums of normal variables -/

namespace Verif.Full
open Verif MeasureTheory Set

variable {Di : Type}

/-- One of the normal variables of a sum, with its sign. -/
structure NPart (Di : Type) where
  sign : ℝ
  id : ℕ
  dist : Di
  args : Fin 2 → Expr Di

/-- With the other sign. -/
def NPart.neg (p : NPart Di) : NPart Di := { p with sign := -p.sign }

/-- The random variable. -/
def NPart.source (p : NPart Di) : Source Di := ⟨p.id, p.dist, 2, p.args⟩

/-- `e` is a normal variable, or a sum or difference, nested in any way, of such variables without values; `ps` lists the normal variables, as often as they occur.  `mean` and `sd` are the sum of the means, and the square root of
the sum of the squares of the standard deviations; `dist` is the distribution of the first variable. -/
inductive SumOf [IR.Normals Di] (R : ℕ → Prop) : Expr Di → Di → Expr Di → Expr Di → List (NPart Di) → Prop
  | rv {id dist args} : IR.Normals.isNormal dist = true → SumOf R (.rv id dist 2 args) dist (args 0) (args 1) [⟨1, id, dist, args⟩]
  | add {id k n args} {dists : Fin (n + 2) → Di} {ms ss : Fin (n + 2) → Expr Di} {ps : Fin (n + 2) → List (NPart Di)} : (∀ i, ¬ HasValue R (args i)) → (∀ i, SumOf R (args i) (dists i) (ms i) (ss i) (ps i)) →
      SumOf R (.app id k (.elem .add) (n + 2) args) (dists 0) (.app id k (.elem .add) (n + 2) ms) (.app id k (.elem (.other IR.sqrtSumSq)) (n + 2) ss) (List.ofFn ps).flatten
  | sub {id k args} {dists : Fin 2 → Di} {ms ss : Fin 2 → Expr Di} {ps : Fin 2 → List (NPart Di)} : (∀ i, ¬ HasValue R (args i)) → (∀ i, SumOf R (args i) (dists i) (ms i) (ss i) (ps i)) →
      SumOf R (.app id k (.elem .sub) 2 args) (dists 0) (.app id k (.elem .sub) 2 ms) (.app id k (.elem (.other IR.sqrtSumSq)) 2 ss) (ps 0 ++ (ps 1).map NPart.neg)

/-- `e` is a random variable, or a sum of normal variables, which is like the random variable `s`; `l` lists what is drawn for it. -/
inductive BaseOf [IR.Normals Di] (R : ℕ → Prop) : Expr Di → Source Di → List (Source Di) → Prop
  | rv (id dist n args) : BaseOf R (.rv id dist n args) ⟨id, dist, n, args⟩ [⟨id, dist, n, args⟩]
  | sum {id k op n args dist mean sd ps} : SumOf R (.app id k op n args) dist mean sd ps → BaseOf R (.app id k op n args) ⟨id, dist, 2, ![mean, sd]⟩ (ps.map NPart.source)

/-- The variable `e` is made as described by the tree, in which sums of normal variables are single normal variables; nothing in between has a value; `l` lists what is drawn for it. -/
inductive MadeOf [IR.Normals Di] (R : ℕ → Prop) (kd : Di → Kind) (hasCdf : Di → Bool) : Expr Di → RTree Di → List (Source Di) → Prop
  | base {e s l} : BaseOf R e s l → MadeOf R kd hasCdf e (.rv s) l
  | elem {id k op n args t l} (i : Fin n) : IR.Supported op n → ¬ HasValue R (args i) → kindOf kd (args i) ≠ .int → t.isMix = false → MadeOf R kd hasCdf (args i) t l →
      MadeOf R kd hasCdf (.app id k (.elem op) n args) (.elem op n i args t) l
  | clip {id k args s l} : BaseOf R (args 0) s l → ¬ HasValue R (args 0) → hasCdf s.dist = true →
      MadeOf R kd hasCdf (.app id k .clip 3 args) (.clip (boundOf s.id (args 1)) (boundOf s.id (args 2)) s) l
  | round {id k r args s l} : BaseOf R (args 0) s l → ¬ HasValue R (args 0) → hasCdf s.dist = true → kindOf kd (args 0) = .float →
      MadeOf R kd hasCdf (.app id k (.round r) 1 args) (.round r s) l
  | pick {id k m args} {ts : Fin m → RTree Di} {ls : Fin m → List (Source Di)} : 0 < m → (∀ i : Fin m, ¬ HasValue R (args i.succ)) → (∀ i : Fin m, MadeOf R kd hasCdf (args i.succ) (ts i) (ls i)) →
      MadeOf R kd hasCdf (.app id k .pick (m + 1) args) (.mix (args 0) m ts) ((List.finRange m).flatMap ls)

/-- The other inputs of functions, the bounds and the indices in a tree satisfy `P`. -/
def RTree.Surround (P : Expr Di → Prop) : RTree Di → Prop
  | .rv _ => True
  | .elem _ _ idx args t => (∀ j, j ≠ idx → P (args j)) ∧ t.Surround P
  | .clip lo hi _ => (∀ e ∈ lo, P e) ∧ ∀ e ∈ hi, P e
  | .round _ _ => True
  | .mix idx _ comps => P idx ∧ ∀ i, (comps i).Surround P

/-- The laws of normal variables. -/
def NormalLaws [IR.Normals Di] (W : World Di) : Prop :=
  ∀ dist, IR.Normals.isNormal dist = true → ∀ m s : ℝ, 0 < s → W.law dist [.fin m, .fin s] = ProbabilityTheory.gaussianReal m (s ^ 2).toNNReal

/-- The normal variables among those drawn have finite means and positive standard deviations. -/
def GoodNormals [IR.Normals Di] (val : Expr Di → FVal) (l : List (Source Di)) : Prop := ∀ s ∈ l, IR.Normals.isNormal s.dist = true → ∃ m sd : ℝ, 0 < sd ∧ s.params val = [.fin m, .fin sd]

end Verif.Full
