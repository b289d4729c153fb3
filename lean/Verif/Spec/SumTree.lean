import Verif.Spec.IRDensity

/-! # Variables that are sums and differences of normal variables without values, nested in any way -/

namespace Verif.IR

variable {Di : Type}

/-- One of the normal variables of a sum, with its sign, and its parameters. -/
structure Part (Di : Type) where
  sign : ℝ
  id : ℕ
  mean : Expr Di
  sd : Expr Di

/-- With the other sign. -/
def Part.neg (p : Part Di) : Part Di := { p with sign := -p.sign }

/-- `e` is a normal variable, or a sum or difference of such variables without values; `ps` lists the normal variables, as often as they occur. -/
inductive SumOf [Normals Di] (R : ℕ → Prop) : Expr Di → List (Part Di) → Prop
  | rv {id dist args} : Normals.isNormal dist = true → SumOf R (.rv id dist 2 args) [⟨1, id, args 0, args 1⟩]
  | add {id n args} {ps : Fin n → List (Part Di)} : 2 ≤ n → (∀ i, ¬ HasValue R (args i)) → (∀ i, SumOf R (args i) (ps i)) → SumOf R (.app id .add n args) (List.ofFn ps).flatten
  | sub {id} {args : Fin 2 → Expr Di} {p q : List (Part Di)} : (∀ i, ¬ HasValue R (args i)) → SumOf R (args 0) p → SumOf R (args 1) q → SumOf R (.app id .sub 2 args) (p ++ q.map Part.neg)

/-- How often, with signs, the variable `i` is added. -/
noncomputable def weight (ps : List (Part Di)) (i : ℕ) : ℝ := ((ps.filter fun p => p.id = i).map Part.sign).sum

/-- The identities of the variables added. -/
def partIds (ps : List (Part Di)) : Finset ℕ := (ps.map Part.id).toFinset

/-- The variance of the sum, when the variables are independent and have standard deviations `s`. -/
noncomputable def trueVar (s : ℕ → ℝ) (ps : List (Part Di)) : ℝ := ∑ i ∈ partIds ps, weight ps i ^ 2 * s i ^ 2

end Verif.IR
