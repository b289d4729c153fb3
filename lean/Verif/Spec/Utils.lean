import Verif.Model.Utils

/-! # Evaluating graphs with some random variables fixed -/

namespace Verif.Utils.Tm
variable {L R F α : Type}

/-- Value of a graph when the random variables in `w` are fixed and the others draw (`draw` gives the drawn value from the arguments). -/
def evalAt (env : L → α) (draw : R → List α → α) (apply : F → List α → α) (w : R → Option α) : Tm L R F → α
  | leaf v => env v
  | rv id _ args => (w id).getD (draw id (List.ofFn fun i => evalAt env draw apply w (args i)))
  | op f _ args => apply f (List.ofFn fun i => evalAt env draw apply w (args i))

/-- The random variable occurs in the graph. -/
def Mentions (k : R) : Tm L R F → Prop
  | leaf _ => False
  | rv id _ args => id = k ∨ ∃ i, Mentions k (args i)
  | op _ _ args => ∃ i, Mentions k (args i)

end Verif.Utils.Tm
