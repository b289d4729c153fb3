import Verif.Spec.ArrMarkov

/-! # Sequences of integers given as states of a Markov chain -/

namespace Verif.ArrGraph
open Verif

/-- The array with the given integers. -/
noncomputable def intArr {T : ℕ} (f : Fin T → ℤ) : Arr FVal := ⟨[T], fun c => if h : c.headD 0 < T then .fin (f ⟨c.headD 0, h⟩) else .nan⟩

end Verif.ArrGraph
