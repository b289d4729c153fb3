import Verif.Model.Dists
import Mathlib.Probability.ProbabilityMassFunction.Constructions
import Mathlib.Data.Matrix.Basic
import Mathlib.Data.List.OfFn

/-!
# Vector-valued distributions (`/repo/aeppl/logprob.py`, `/repo/aeppl/dists.py`)
-/

namespace Verif
open FVal

/-- `at.sum` over a vector. -/
noncomputable def fsum (xs : List FVal) : FVal := xs.foldr (· + ·) 0

/-- `p / at.sum(p, axis=-1, keepdims=True)` (logprob.py:551). -/
noncomputable def normalise (p : List FVal) : List FVal := p.map (· / fsum p)

/-- `xs[k]` with an integer index: negative indices count from the end, anything out of range raises `IndexError`. -/
def npIndex {α : Type*} (xs : List α) (k : ℤ) : Except Err α :=
  let j := if k < 0 then k + xs.length else k
  if 0 ≤ j then
    match xs[j.toNat]? with
    | some x => .ok x
    | none => .error .indexError
  else .error .indexError

/-- logprob.py:546-577 `categorical_logprob` for one value and its probability vector.  In the branch `p.ndim > 1`
(553-567) `take_along_axis` on the moved axis picks, for each row of `p`, the entry at the row's own value, with the same index
rules, so a batch is `categoricalBatch`. -/
noncomputable def categoricalLogprob (value : ℤ) (p : List FVal) : Except Err FVal := do
  let p := normalise p
  let pk ← npIndex p value
  let res := log pk
  let res := switch (0 ≤ value ∧ value < p.length) res ninf
  checkParam res [∀ x ∈ p, ge x 0, ∀ x ∈ p, le x 1]

/-- logprob.py:546-577 with `p` a stack of probability vectors and one value per row. -/
noncomputable def categoricalBatch (es : List (ℤ × List FVal)) : Except Err (List FVal) :=
  es.mapM fun e => categoricalLogprob e.1 e.2

/-- `solve_triangular(L, r, lower=True)`: forward substitution. -/
noncomputable def solveLower {n : ℕ} (L : Matrix (Fin n) (Fin n) ℝ) (r : Fin n → ℝ) (i : Fin n) : ℝ :=
  (r i - ∑ j : Fin i, L i (Fin.castLE i.isLt.le j) * solveLower L r (Fin.castLE i.isLt.le j)) / L i i
termination_by i.val
decreasing_by simp

/-- logprob.py:580-610 `mvnormal_logprob` for one vector `value - mu`; `last` is `value.shape[-1]` (line 608), which is the length of the vector unless the value is broadcast.  `chol` is `Cholesky(lower=True, on_error="nan")`, `none` standing for the
all-NaN factor (its diagonal is not positive, so the check fails).  Simplification: the value, mean and covariance are real
numbers (no NaN or infinities). -/
noncomputable def mvnormalWith {n : ℕ} (last : ℕ) (chol : Matrix (Fin n) (Fin n) ℝ → Option (Matrix (Fin n) (Fin n) ℝ))
    (value mu : Fin n → ℝ) (cov : Matrix (Fin n) (Fin n) ℝ) : Except Err FVal :=
  match chol cov with
  | none => .error .parameterValue
  | some cov_chol =>
    let r := value - mu
    let all_pos_definite := ∀ i, 0 < cov_chol i i
    let L : Matrix (Fin n) (Fin n) ℝ := switch all_pos_definite cov_chol fun _ _ => 1
    let z := solveLower L r
    let quaddist := ∑ i, z i ^ 2
    let logdet := fsum (List.ofFn fun i => log (fin (cov_chol i i)))
    let res := -half * fin last * log (2 * fin Real.pi) - half * fin quaddist - logdet
    checkParam res [all_pos_definite]

/-- logprob.py:580-610 `mvnormal_logprob` for one vector of the length of the mean. -/
noncomputable def mvnormalLogprob {n : ℕ} (chol : Matrix (Fin n) (Fin n) ℝ → Option (Matrix (Fin n) (Fin n) ℝ))
    (value mu : Fin n → ℝ) (cov : Matrix (Fin n) (Fin n) ℝ) : Except Err FVal := mvnormalWith n chol value mu cov

/-- logprob.py:613-628 `dirichlet_logprob` for one vector. -/
noncomputable def dirichletLogprob (value alpha : List FVal) : Except Err FVal :=
  let res := fsum (List.zipWith (fun v a => xlogy0 (a - 1) v - gammaln a) value alpha) + gammaln (fsum alpha)
  let res := switch ((∀ v ∈ value, le 0 v) ∧ ∀ v ∈ value, le v 1) res ninf
  checkParam res [∀ a ∈ alpha, lt 0 a]

/-- logprob.py:631-649 `multinomial_logprob` for one vector. -/
noncomputable def multinomialLogprob (value : List FVal) (n : FVal) (p : List FVal) : Except Err FVal :=
  let res := gammaln (n + 1) + fsum (List.zipWith (fun v p => -gammaln (v + 1) + xlogy0 v p) value p)
  let res := switch ((∀ v ∈ value, le 0 v) ∧ eq (fsum value) n) res ninf
  checkParam res [∀ x ∈ p, le x 1, eq (fsum p) 1, ge n 0]

/-! ### Discrete Markov chain -/

/-- dists.py:179-196 the `scan` of `create_discrete_mc_op`: step `n` draws the next state from row `state_nm1` of `Gammas[n]`;
the outputs of the scan are the states after each step. -/
noncomputable def mcLoop {M : ℕ} : List (Fin M → PMF (Fin M)) → Fin M → PMF (List (Fin M))
  | [], _ => pure []
  | G :: Gs, s => (G s).bind fun s' => (mcLoop Gs s').map (s' :: ·)

/-- dists.py:128-209 `create_discrete_mc_op`: draw `state_0` from `gamma_0`, then run the scan over all of `Gammas`; `state_0`
itself is not part of the output.  (One chain, `size=()`.) -/
noncomputable def mcSampler {M : ℕ} (Gammas : List (Fin M → PMF (Fin M))) (gamma_0 : PMF (Fin M)) : PMF (List (Fin M)) :=
  gamma_0.bind (mcLoop Gammas)

/-- logprob.py:690 `at.broadcast_to(Gammas, (states.shape[0],) + ...)`. -/
def mcBroadcast {α : Type*} (Gammas : List α) (T : ℕ) : Except Err (List α) :=
  if Gammas.length = T then .ok Gammas
  else match Gammas with
    | [G] => .ok (List.replicate T G)
    | _ => .error .valueError

/-- logprob.py:662-715 `discrete_mc_logp`, for a sequence of valid states: `Gammas` is broadcast to the number of states
(`ValueError` unless its length is that number or one), the first term uses `gamma_0 @ Gammas[0]`, and the term of step
`t + 1` uses `Gammas[t]`. -/
noncomputable def discreteMcLogp {M : ℕ} (Gammas : List (Fin M → Fin M → ℝ)) (gamma_0 : Fin M → ℝ) (states : List (Fin M)) :
    Except Err (List FVal) := do
  let Gs ← mcBroadcast Gammas states.length
  let Gamma_1 ← npIndex Gs 0
  let s1 ← npIndex states 0
  let P_S_1 := ∑ i, gamma_0 i * Gamma_1 i s1
  let P_S_2T := List.zipWith (fun G (st : Fin M × Fin M) => G st.1 st.2) Gs (states.zip states.tail)
  return log (fin P_S_1) :: P_S_2T.map fun p => log (fin p)

end Verif
