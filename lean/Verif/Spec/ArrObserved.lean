import Verif.Spec.ArrGraph
import Verif.Model.ArrObserved
import Verif.Spec.Incsubtensor

/-! # What partial observation means in a model -/

namespace Verif.ArrGraph
open Verif

variable {Di : Type}

/-- A graph of inputs and constants, without random variables. -/
def Fixed : Expr Di → Prop
  | .const _ => True
  | .inp _ => True
  | .app _ _ args => ∀ i, Fixed (args i)
  | .rv _ _ _ _ => False
  | .valued _ _ => False

/-- The user's statement `Y[idx] = data`. -/
structure Obs (Di : Type) where
  idx : List Index
  data : Expr Di

/-- The data, when the inputs are `ρ`. -/
def Obs.dataAt (ρ : ℕ → Arr FVal) (o : Obs Di) : Arr FVal := evalAt (fun _ => ⟨[], fun _ => .nan⟩) ρ o.data

/-- The node stands for the statement: an index with integer arrays, or integers and slices such that the integers of every entry are the first of all integers. -/
def Stated (o : Obs Di) (node : ObsNode Di) : Prop :=
  node = ⟨none, true, o.data, o.idx⟩ ∨
    ∃ ixs : List Written, (∀ u ∈ ixs, u.ints <+: ixs.flatMap Written.ints) ∧ o.idx = ixs.map Written.index ∧
      node = ⟨some (ixs.map Written.entry), true, o.data, (ixs.flatMap Written.ints).map intIdx⟩

/-- The nodes of the model stand for the statements `obs`, with data that are inputs, constants, or functions of these. -/
def AllStated (obs : ℕ → Option (Obs Di)) (nodes : ℕ → Option (ObsNode Di)) : Prop :=
  ∀ v, obs v = none ∧ nodes v = none ∨ ∃ o node, obs v = some o ∧ nodes v = some node ∧ Stated o node ∧ Fixed o.data

/-- The statement can be carried out on the array `y`. -/
def Obs.Fits (ρ : ℕ → Arr FVal) (o : Obs Di) (y : Arr FVal) : Prop := ∃ R, npSelect o.idx y.shape = .ok R ∧ bshape [(o.dataAt ρ).shape, R.shape] = some R.shape

/-- The array `z` that a variable has when its value is `y`: the observed entries are the data. -/
def SeenAs (ρ : ℕ → Arr FVal) (o : Option (Obs Di)) (y z : Arr FVal) : Prop :=
  match o with
  | none => z = y
  | some o => Replaced y o.idx (o.dataAt ρ) z

/-- The arrays `y` and `y'` have the same entries wherever nothing is observed. -/
def SameMissing (o : Option (Obs Di)) (y y' : Arr FVal) : Prop :=
  match o with
  | none => y = y'
  | some o => y.shape = y'.shape ∧ ∃ R, npSelect o.idx y.shape = .ok R ∧ ∀ p, (∀ c, InRange c R.shape → R.get c ≠ p) → y.get p = y'.get p

/-- The graph depends on the input `x`, possibly through the parameters of random variables. -/
def ReadsInput (x : ℕ) : Expr Di → Prop
  | .const _ => False
  | .inp i => i = x
  | .app _ _ args => ∃ k, ReadsInput x (args k)
  | .rv _ _ _ args => ∃ k, ReadsInput x (args k)
  | .valued r _ => ReadsInput x r

end Verif.ArrGraph
