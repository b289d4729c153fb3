import Verif.Model.Nd

/-! # What a dimension shuffle is -/

namespace Verif

/-- The order is legal for arrays of shape `s`: it uses existing axes, each at most once, and every other axis has length 1. -/
structure LegalOrder (s : List ℕ) (order : List (Option ℕ)) : Prop where
  exist : ∀ i, some i ∈ order → i < s.length
  once : ∀ (p q i : ℕ), order[p]? = some (some i) → order[q]? = some (some i) → p = q
  rest : ∀ i < s.length, some i ∉ order → s.getD i 0 = 1

/-- `b` is `a` with its dimensions shuffled: dimension `p` of `b` is dimension `order[p]` of `a`, or a new one of length 1, and the entries
correspond. -/
def IsDimshuffle {α : Type*} (order : List (Option ℕ)) (a b : Arr α) : Prop :=
  b.shape = (order.map fun o => match o with | none => 1 | some i => a.shape.getD i 0) ∧
  ∀ c d, InRange c a.shape → InRange d b.shape → (∀ p i, order[p]? = some (some i) → d.getD p 0 = c.getD i 0) → b.get d = a.get c

/-- The order for the log-probability of a variable with `nb` batch axes: `order` without the support axes. -/
def batchOrder (nb : ℕ) (order : List (Option ℕ)) : List (Option ℕ) := order.filter fun o => o.all fun i => decide (i < nb)

end Verif
