import Verif.Model.ArrDerived
import Verif.Spec.ArrGraph
import Verif.Spec.ElemwiseArray
import Verif.Spec.ClipArray
import Verif.Spec.Nd

/-! # Arrays of independent entries -/

namespace Verif.ArrGraph
open Verif MeasureTheory

/-- Which elementwise function a layer applies, and how the parameters `p` of the node are divided between it and the variable below, which gets `q`. -/
def LayerIs (op : LayerOp) (p : List (Arr FVal)) (t : ArrTransform) (q : List (Arr FVal)) : Prop :=
  match op with
  | .loc => ∃ a, p = a :: q ∧ t = .loc a
  | .scale => ∃ a, p = a :: q ∧ t = .scale a
  | .exp => p = q ∧ t = .exp
  | .log => p = q ∧ t = .log
  | .reciprocal => p = q ∧ t = .reciprocal

/-- `lp` works entry by entry on arrays of shape `s`; at every coordinate `c` its exponential is the density of the probability law `law c`, which it says is concentrated on `D c`: everywhere
else, on infinite values and on NaN too, it is zero, with the exception of countably many numbers at most (such as the end of the support). -/
def EntryDensity (s : List ℕ) (lp : Arr FVal → Except Err (Arr FVal)) (D : List ℕ → Set ℝ) (law : List ℕ → Measure ℝ) : Prop :=
  ∃ g : List ℕ → FVal → FVal, EntrywiseFn s lp g ∧ ∀ c, InRange c s → IsProbabilityMeasure (law c) ∧ MeasurableSet (D c) ∧ (∀ x ∈ D c, g c (.fin x) ≠ .nan) ∧
    (∃ C : Set ℝ, C.Countable ∧ ∀ v, (∀ x ∈ D c ∪ C, v ≠ .fin x) → (g c v).toDens = 0) ∧ Measurable (fun x : ℝ => (g c (.fin x)).toDens) ∧ law c = volume.withDensity fun x => (g c (.fin x)).toDens

/-- `lp` gives arrays of shape `s`, depends on nothing but shape and entries, and the exponential of its sum is the density of the probability law `law`, which it says is concentrated on arrays whose entries are in the
sets `D`: it is zero if an entry is anything else (infinite values and NaN included), with the exception of countably many numbers.  The entries need not be independent. -/
structure JointDensity (s : List ℕ) (lp : Arr FVal → Except Err (Arr FVal)) (D : List ℕ → Set ℝ) (law : Measure (Fin (entries s) → ℝ)) : Prop where
  prob : IsProbabilityMeasure law
  out : ∀ x y : Arr FVal, x.shape = s → Arr.Same x y → ∃ a b, lp x = .ok a ∧ lp y = .ok b ∧ a.shape = s ∧ Arr.Same a b
  dom : ∀ c, InRange c s → MeasurableSet (D c)
  zero : ∃ C : List ℕ → Set ℝ, (∀ c, (C c).Countable) ∧ ∀ x : Arr FVal, x.shape = s → (∃ c, InRange c s ∧ ∀ r ∈ D c ∪ C c, x.get c ≠ .fin r) → dens (arrayJoint (lp x)) = 0
  meas : AEMeasurable fun x => dens (arrayJoint (lp (numbers s x)))
  dens : law = volume.withDensity fun x => dens (arrayJoint (lp (numbers s x)))

/-- An array of real numbers of shape `s` with given entries, in row-major order. -/
def reals (s : List ℕ) (x : Fin (entries s) → ℝ) : Arr ℝ :=
  ⟨s, fun c => if h : (allCoords s).idxOf c < entries s then x ⟨(allCoords s).idxOf c, h⟩ else 0⟩

/-- Cumulative sums along axis `a`, on the entries of arrays of shape `s`. -/
def cumsumOf (s : List ℕ) (a : ℕ) (x : Fin (entries s) → ℝ) (k : Fin (entries s)) : ℝ := (Arr.cumsum a (reals s x)).get (coord k)

end Verif.ArrGraph
