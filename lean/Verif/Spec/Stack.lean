import Verif.Model.Nd

/-! # Joined arrays -/

namespace Verif

/-- Where piece `k` starts. -/
def joinOffset {α : Type*} (a : ℕ) (pieces : List (Arr α)) (k : ℕ) : ℕ := ((pieces.take k).map fun p => p.size a).sum

/-- `whole` consists of the `pieces`, one after the other along axis `a`. -/
structure IsJoin {α : Type*} (a : ℕ) (pieces : List (Arr α)) (whole : Arr α) : Prop where
  axis : a < whole.ndim
  length : (pieces.map fun p => p.size a).sum = whole.size a
  shape : ∀ p ∈ pieces, p.shape = whole.shape.set a (p.size a)
  entry : ∀ k (hk : k < pieces.length) c, InRange c pieces[k].shape →
    whole.get (c.set a (joinOffset a pieces k + c.getD a 0)) = pieces[k].get c

end Verif
