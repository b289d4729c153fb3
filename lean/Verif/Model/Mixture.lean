import Verif.Model.VecDists

/-!
# Mixtures with a scalar index (`/repo/aeppl/mixture.py`)

`comps` are the log-probabilities of the components.
-/

namespace Verif
open FVal

/-- One turn of the loop mixture.py:401-407: `logp_val += ifelse(at.eq(indices[0], i), comp_logp, zeros_like(value))`.  `ifelse` is lazy: the
graph of `comp_logp` is only evaluated when the condition holds. -/
noncomputable def mixtureStep (index : ℤ) (value : FVal) (logp_val : FVal) (c : (FVal → Except Err FVal) × ℕ) : Except Err FVal := do
  let term ← if index = c.2 then c.1 value else .ok 0
  return logp_val + term

/-- mixture.py:399-409 `logprob_MixtureRV` for a scalar index. -/
noncomputable def mixtureLogprob (comps : List (FVal → Except Err FVal)) (index : ℤ) (value : FVal) : Except Err FVal :=
  comps.zipIdx.foldlM (mixtureStep index value) 0

/-- mixture.py:232-302 `mixture_replace` for `at.stack(comps)[index]` with a scalar index: the components keep their order. -/
noncomputable def stackMixtureLogprob (comps : List (FVal → Except Err FVal)) (index : ℤ) (value : FVal) : Except Err FVal :=
  mixtureLogprob comps index value

/-- mixture.py:305-347 `switch_mixture_replace` for `at.switch(cond, x, y)` with a scalar condition: the index is `node.inputs[0]`, the
condition, and the components are `node.inputs[1:]` in order. -/
noncomputable def switchMixtureLogprob (cond : ℤ) (x y : FVal → Except Err FVal) (value : FVal) : Except Err FVal :=
  mixtureLogprob [x, y] cond value

end Verif
