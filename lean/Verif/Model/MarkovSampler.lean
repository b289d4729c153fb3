import Verif.Model.Switching

/-! # Sampling batches of discrete Markov chains (`/repo/aeppl/dists.py:128-289`)

Randomness is explicit: `draw n c p` is the state drawn at the place `c` of the array drawn by the `n`-th call of `srng.categorical`, with the list `p` of probabilities. -/

namespace Verif.Markov
open Verif

/-- Source of the draws. -/
abbrev Draws := ℕ → List ℕ → List FVal → ℤ

/-- `a.T`. -/
def transpose {α : Type} (a : Arr α) : Arr α := ⟨a.shape.reverse, fun c => a.get c.reverse⟩

/-- `aesara`'s `broadcast_params` (external), one parameter: the axes before the last `k` are broadcast to `B`. -/
def broadcastParam {α : Type} (B : List ℕ) (k : ℕ) (p : Arr α) : Arr α :=
  ⟨B ++ p.shape.drop (p.ndim - k), fun c => p.get (project (c.take B.length) (p.shape.take (p.ndim - k)) ++ c.drop B.length)⟩

/-- `srng.categorical(p, size=size)` (external): one state at each place, from the probabilities along the last axis of `p` that broadcasting puts there. -/
def categoricalDraw (draw : List ℕ → List FVal → ℤ) (p : Arr FVal) (size : List ℕ) : Arr ℤ :=
  ⟨size, fun c => draw c ((List.range (p.shape.getLastD 0)).map fun j => p.get (project c p.shape.dropLast ++ [j]))⟩

/-- The `k`-th array of `at.ogrid[[slice(None, d) for d in S]]`. -/
def ogridArr (S : List ℕ) (k : ℕ) : Arr ℤ := ⟨(List.replicate S.length 1).set k (S.getD k 1), fun c => ((c.getD k 0 : ℕ) : ℤ)⟩

/-- `at.ogrid[[slice(None, d) for d in S]]`. -/
def ogrid (S : List ℕ) : List (Arr ℤ) := (List.range S.length).map (ogridArr S)

/-- `a[..., n, :, :]`. -/
def atStep {α : Type} (n : ℕ) (a : Arr α) : Arr α :=
  ⟨a.shape.eraseIdx (a.ndim - 3), fun c => a.get (c.take (a.ndim - 3) ++ n :: c.drop (a.ndim - 3))⟩

/-- dists.py:179-186 `loop_fn`; `S` is the shape of `state_0`.  Indexing (line 184) is NumPy's (`npSelect`). -/
noncomputable def loopFn (draw : List ℕ → List FVal → ℤ) (S : List ℕ) (n : ℕ) (state_nm1 : Arr ℤ) (Gammas_inner : Arr FVal) : Except Err (Arr ℤ) :=
  match npSelect ((ogrid S ++ [transpose state_nm1]).map Index.adv) (atStep n Gammas_inner).shape with
  | .error e => .error e
  | .ok R =>
    let gamma_t : Arr FVal := ⟨R.shape, fun c => (atStep n Gammas_inner).get (R.get c)⟩
    .ok (transpose (categoricalDraw draw gamma_t gamma_t.shape.dropLast))

/-- dists.py:188-194 the `scan` over the steps from the `n`-th on: the states after each of them. -/
noncomputable def scanStates (draw : Draws) (S : List ℕ) (Gammas_inner : Arr FVal) : ℕ → ℕ → Arr ℤ → Except Err (List (Arr ℤ))
  | 0, _, _ => .ok []
  | k + 1, n, state => do
    let next ← loopFn (draw (n + 1)) S n state Gammas_inner
    let rest ← scanStates draw S Gammas_inner k (n + 1) next
    return next :: rest

/-- The output of the `scan`: a new axis in front, for `state_0.T` of shape `S`. -/
def scanResult (S : List ℕ) (states : List (Arr ℤ)) : Arr ℤ :=
  ⟨states.length :: S, fun c => (states.getD (c.headD 0) ⟨S, fun _ => 0⟩).get c.tail⟩

/-- `at.broadcast_to(a, shape)`. -/
def broadcastTo {α : Type} (a : Arr α) (shape : List ℕ) : Except Err (Arr α) :=
  if bshape [shape, a.shape] = some shape then .ok (a.bcastTo shape) else .error .valueError

/-- dists.py:128-209 `create_discrete_mc_op` and what its `Op` computes.  Simplifications: random-state updates are left out; `size` is the list of its values. -/
noncomputable def createDiscreteMc (draw : Draws) (size : List ℕ) (Gammas gamma_0 : Arr FVal) : Except Err (Arr ℤ) :=
  match bshape [Gammas.shape.take (Gammas.ndim - 3), gamma_0.shape.take (gamma_0.ndim - 1)] with
  | none => .error .valueError
  | some B => do
    let bcast_Gammas := broadcastParam B 3 Gammas
    let bcast_gamma_0 := broadcastParam B 1 gamma_0
    let state_0 := categoricalDraw (draw 0) bcast_gamma_0 (size ++ bcast_gamma_0.shape.dropLast)
    let N := bcast_Gammas.size (bcast_Gammas.ndim - 3)
    let inner ← broadcastTo bcast_Gammas (state_0.shape ++ [N] ++ bcast_Gammas.shape.drop (bcast_Gammas.ndim - 2))
    let states ← scanStates draw state_0.shape inner N 0 (transpose state_0)
    return transpose (scanResult state_0.shape.reverse states)

/-- dists.py:212-289 `discrete_markov_chain`; a `gamma_0` without axes is rejected by `broadcast_params`. -/
noncomputable def discreteMarkovChain (draw : Draws) (size : List ℕ) (Gammas gamma_0 : Arr FVal) : Except Err (Arr ℤ) :=
  if Gammas.ndim < 3 then .error .assertion
  else if gamma_0.ndim < 1 then .error .valueError
  else createDiscreteMc draw size Gammas gamma_0

end Verif.Markov
