import Verif.Model.FVal
import Mathlib.MeasureTheory.Integral.Bochner.Set
import Mathlib.MeasureTheory.Measure.Lebesgue.Basic
import Mathlib.MeasureTheory.Constructions.BorelSpace.Basic

/-!
# Log-probabilities of scalar distributions (`/repo/aeppl/logprob.py`)

Each function evaluates the graph built by the corresponding `_logprob`/`_logcdf`/`_icdf` implementation on
scalar inputs; `inputs[3:]` are the distribution parameters, in the order of the code.
`at.fill(value, x)` is `x` on scalars.  `at.all` over a scalar is the condition itself.
-/

namespace Verif
open FVal

/-- logprob.py:38-39 `betaln`. -/
noncomputable def betaln (x y : FVal) : FVal := gammaln x + gammaln y - gammaln (x + y)

/-- logprob.py:42-43 `binomln`. -/
noncomputable def binomln (n k : FVal) : FVal := gammaln (n + 1) - gammaln (k + 1) - gammaln (n - k + 1)

/-- logprob.py:46-48 `logdiffexp`. -/
noncomputable def logdiffexp (a b : FVal) : FVal := a + log1mexp (b - a)

/-- logprob.py:51-53 `xlogy0`. -/
noncomputable def xlogy0 (m x : FVal) : FVal :=
  switch (eq x 0) (switch (eq m 0) (0 : FVal) ninf) (m * log x)

/-- `0.5`. -/
noncomputable def half : FVal := fin (1 / 2)

/-- logprob.py:127-135 `uniform_logprob`: no parameter check. -/
noncomputable def uniformLogprob (value lower upper : FVal) : Except Err FVal :=
  .ok (switch (ge value lower ∧ le value upper) (-log (upper - lower)) ninf)

/-- logprob.py:138-153 `uniform_logcdf`. -/
noncomputable def uniformLogcdf (value lower upper : FVal) : Except Err FVal :=
  let res := switch (lt value lower) ninf
    (switch (lt value upper) (log (value - lower) - log (upper - lower)) (0 : FVal))
  checkParam res [le lower upper]

/-- logprob.py:156-166 `normal_logprob`. -/
noncomputable def normalLogprob (value mu sigma : FVal) : Except Err FVal :=
  let res := -half * sq ((value - mu) / sigma) - log (sqrt (2 * fin Real.pi)) - log sigma
  checkParam res [gt sigma 0]

/-- The complementary error function (mathematical definition of `at.erfc`). -/
noncomputable def erfcReal (x : ℝ) : ℝ := 2 / Real.sqrt Real.pi * ∫ t in Set.Ioi x, Real.exp (-t ^ 2)

/-- `at.erfc`. -/
noncomputable def erfc : FVal → FVal
  | nan => nan
  | pinf => fin 0
  | ninf => fin 2
  | fin x => fin (erfcReal x)

/-- `at.erfcx x = exp (x²) erfc x`. -/
noncomputable def erfcx : FVal → FVal
  | nan => nan
  | pinf => fin 0
  | ninf => pinf
  | fin x => fin (Real.exp (x ^ 2) * erfcReal x)

/-- logprob.py:169-181 `normal_logcdf`. -/
noncomputable def normalLogcdf (value mu sigma : FVal) : Except Err FVal :=
  let z := (value - mu) / sigma
  let res := switch (lt z (-1))
    (log (erfcx (-z / sqrt 2) / 2) - sq z / 2)
    (log1p (-erfc (z / sqrt 2) / 2))
  checkParam res [gt sigma 0]

/-- logprob.py:184-187 `normal_icdf`; `erfcinv` is passed as a parameter (its contract is stated where it is used). -/
noncomputable def normalIcdf (erfcinv : FVal → FVal) (value loc scale : FVal) : FVal :=
  loc + scale * -sqrt 2 * erfcinv (2 * value)

/-- logprob.py:190-201 `halfnormal_logprob`. -/
noncomputable def halfnormalLogprob (value loc sigma : FVal) : Except Err FVal :=
  let res := -half * sq ((value - loc) / sigma) + log (sqrt (2 / fin Real.pi)) - log sigma
  let res := switch (ge value loc) res ninf
  checkParam res [gt sigma 0]

/-- logprob.py:204-217 `beta_logprob`. -/
noncomputable def betaLogprob (value alpha beta : FVal) : Except Err FVal :=
  let res := switch (eq alpha 1) (0 : FVal) ((alpha - 1) * log value)
    + switch (eq beta 1) (0 : FVal) ((beta - 1) * log1p (-value))
    - (gammaln alpha + gammaln beta - gammaln (alpha + beta))
  let res := switch (ge value 0 ∧ le value 1) res ninf
  checkParam res [gt alpha 0, gt beta 0]

/-- logprob.py:220-227 `exponential_logprob` (`mu` is the scale). -/
noncomputable def exponentialLogprob (value mu : FVal) : Except Err FVal :=
  let res := -log mu - value / mu
  let res := switch (ge value 0) res ninf
  checkParam res [gt mu 0]

/-- logprob.py:230-236 `laplace_logprob`. -/
noncomputable def laplaceLogprob (value mu b : FVal) : Except Err FVal :=
  let res := -log (2 * b) - abs (value - mu) / b
  checkParam res [gt b 0]

/-- logprob.py:239-251 `lognormal_logprob`. -/
noncomputable def lognormalLogprob (value mu sigma : FVal) : Except Err FVal :=
  let res := -half * sq ((log value - mu) / sigma) - half * log (2 * fin Real.pi) - log sigma - log value
  let res := switch (gt value 0) res ninf
  checkParam res [gt sigma 0]

/-- logprob.py:254-263 `pareto_logprob`. -/
noncomputable def paretoLogprob (value alpha m : FVal) : Except Err FVal :=
  let res := log alpha + xlogy0 alpha m - xlogy0 (alpha + 1) value
  let res := switch (ge value m) res ninf
  checkParam res [gt alpha 0, gt m 0]

/-- logprob.py:266-272 `cauchy_logprob`. -/
noncomputable def cauchyLogprob (value alpha beta : FVal) : Except Err FVal :=
  let res := -log (fin Real.pi) - log beta - log1p (sq ((value - alpha) / beta))
  checkParam res [gt beta 0]

/-- logprob.py:275-281 `halfcauchy_logprob`. -/
noncomputable def halfcauchyLogprob (value loc beta : FVal) : Except Err FVal := do
  let res ← cauchyLogprob value loc beta
  let res := log 2 + res
  return switch (ge value loc) res ninf

/-- logprob.py:284-299 `gamma_logprob` (`inv_beta` is the scale; the check is on `beta = 1/inv_beta`). -/
noncomputable def gammaLogprob (value alpha inv_beta : FVal) : Except Err FVal :=
  let beta := reciprocal inv_beta
  let res := -gammaln alpha + xlogy0 alpha beta - beta * value + xlogy0 (alpha - 1) value
  let res := switch (ge value 0) res ninf
  checkParam res [gt alpha 0, gt beta 0]

/-- logprob.py:302-316 `invgamma_logprob`. -/
noncomputable def invgammaLogprob (value alpha beta : FVal) : Except Err FVal :=
  let res := -gammaln alpha + xlogy0 alpha beta - beta / value + xlogy0 (-alpha - 1) value
  let res := switch (ge value 0) res ninf
  checkParam res [gt alpha 0, gt beta 0]

/-- logprob.py:319-324 `chisquare_logprob`. -/
noncomputable def chisquareLogprob (value nu : FVal) : Except Err FVal :=
  gammaLogprob value (nu / 2) 2

/-- logprob.py:327-341 `wald_logprob`. -/
noncomputable def waldLogprob (value mu scale : FVal) : Except Err FVal :=
  let res := half * log (scale / (2 * fin Real.pi)) - fin (3 / 2) * log value
    - half * scale / value * sq ((value - mu) / mu)
  let res := switch (gt value 0) res ninf
  checkParam res [gt mu 0, gt scale 0]

/-- logprob.py:344-351 `weibull_logprob`. -/
noncomputable def weibullLogprob (value c : FVal) : Except Err FVal :=
  let res := log c + (c - 1) * log value - powr value c
  let res := switch (ge value 0) res ninf
  checkParam res [gt c 0]

/-- Modified Bessel function of the first kind of order zero, by its power series (`at.i0`). -/
noncomputable def i0Real (k : ℝ) : ℝ := ∑' m : ℕ, (k / 2) ^ (2 * m) / ((m.factorial : ℝ) ^ 2)

/-- `at.i0`. -/
noncomputable def i0 : FVal → FVal
  | nan => nan
  | fin k => fin (i0Real k)
  | _ => pinf

/-- logprob.py:354-363 `vonmises_logprob`. -/
noncomputable def vonmisesLogprob (value mu kappa : FVal) : Except Err FVal :=
  let res := kappa * cos (mu - value) - log (2 * fin Real.pi) - log (i0 kappa)
  let res := switch (ge value (-fin Real.pi) ∧ le value (fin Real.pi)) res ninf
  checkParam res [gt kappa 0]

/-- logprob.py:366-381 `triangular_logprob`. -/
noncomputable def triangularLogprob (value lower c upper : FVal) : Except Err FVal :=
  let res := switch (lt value c)
    (log (2 * (value - lower) / ((upper - lower) * (c - lower))))
    (log (2 * (upper - value) / ((upper - lower) * (upper - c))))
  let res := switch (le lower value ∧ le value upper) res ninf
  checkParam res [le lower c, le c upper]

/-- logprob.py:384-391 `gumbel_logprob`. -/
noncomputable def gumbelLogprob (value mu beta : FVal) : Except Err FVal :=
  let z := (value - mu) / beta
  let res := -z - exp (-z) - log beta
  checkParam res [lt 0 beta]

/-- logprob.py:394-401 `logistic_logprob`. -/
noncomputable def logisticLogprob (value mu s : FVal) : Except Err FVal :=
  let z := (value - mu) / s
  let res := -z - log s - 2 * log1p (exp (-z))
  checkParam res [lt 0 s]

/-- logprob.py:404-413 `binomial_logprob`. -/
noncomputable def binomialLogprob (value n p : FVal) : Except Err FVal :=
  let res := binomln n value + xlogy0 value p + xlogy0 (n - value) (1 - p)
  let res := switch (le 0 value ∧ le value n) res ninf
  checkParam res [le 0 p, le p 1]

/-- logprob.py:416-429 `betabinomial_logprob`. -/
noncomputable def betabinomialLogprob (value n alpha beta : FVal) : Except Err FVal :=
  let res := binomln n value + betaln (value + alpha) (n - value + beta) - betaln alpha beta
  let res := switch (le 0 value ∧ le value n) res ninf
  checkParam res [lt 0 alpha, lt 0 beta]

/-- logprob.py:432-441 `bernoulli_logprob`. -/
noncomputable def bernoulliLogprob (value p : FVal) : Except Err FVal :=
  let res := switch (truthy value) (log p) (log (1 - p))
  let res := switch (le 0 value ∧ le value 1) res ninf
  checkParam res [le 0 p, le p 1]

/-- logprob.py:444-452 `poisson_logprob`: the last `switch` is applied to the checked graph. -/
noncomputable def poissonLogprob (value mu : FVal) : Except Err FVal := do
  let res := xlogy0 value mu - gammaln (value + 1) - mu
  let res := switch (le 0 value) res ninf
  let res ← checkParam res [le 0 mu]
  return switch (eq mu 0 ∧ eq value 0) (0 : FVal) res

open Classical in
/-- Regularised upper incomplete gamma function `Q(a, x) = Γ(a, x)/Γ(a)` for `a > 0`, `x ≥ 0`
(`at.gammaincc`, `nan` outside that domain). -/
noncomputable def gammaincc : FVal → FVal → FVal
  | fin a, fin x => if 0 < a ∧ 0 ≤ x then
      fin ((∫ t in Set.Ioi x, Real.exp (-t) * t ^ (a - 1)) / Real.Gamma a) else nan
  | _, _ => nan

/-- logprob.py:455-462 `poisson_logcdf`. -/
noncomputable def poissonLogcdf (value mu : FVal) : Except Err FVal :=
  let value := floor value
  let res := log (gammaincc (value + 1) mu)
  let res := switch (le 0 value) res ninf
  checkParam res [le 0 mu]

/-- logprob.py:465-480 `nbinom_logprob`: `switch(n > 1e10, poisson_logprob(mu), res)` evaluates both graphs. -/
noncomputable def nbinomLogprob (value n p : FVal) : Except Err FVal := do
  let mu := n * (1 - p) / p
  let res := binomln (value + n - 1) value + xlogy0 value (mu / (mu + n)) + xlogy0 n (n / (mu + n))
  let res := switch (le 0 value) res ninf
  let res ← checkParam res [lt 0 mu, lt 0 n]
  let pois ← poissonLogprob value mu
  return switch (gt n (fin 10000000000)) pois res

/-- logprob.py:483-492 `geometric_logprob`. -/
noncomputable def geometricLogprob (value p : FVal) : Except Err FVal :=
  let res := log p + xlogy0 (value - 1) (1 - p)
  let res := switch (le 1 value) res ninf
  checkParam res [le 0 p, ge 1 p]

/-- logprob.py:495-502 `geometric_logcdf`. -/
noncomputable def geometricLogcdf (value p : FVal) : Except Err FVal :=
  let res := switch (le value 0) ninf (log1mexp (log1p (-p) * value))
  checkParam res [le 0 p, ge 1 p]

/-- logprob.py:505-508 `geometric_icdf` (the cast to an integer dtype is the identity on integral values). -/
noncomputable def geometricIcdf (value p : FVal) : FVal :=
  ceil (log1p (-value) / log1p (-p))

/-- logprob.py:511-529 `hypergeometric_logprob`: no parameter check. -/
noncomputable def hypergeometricLogprob (value good bad n : FVal) : Except Err FVal :=
  let total := good + bad
  let res := betaln (good + 1) 1 + betaln (bad + 1) 1 + betaln (total - n + 1) (n + 1)
    - betaln (value + 1) (good - value + 1) - betaln (n - value + 1) (bad - n + value + 1)
    - betaln (total + 1) 1
  let lower := switch (gt (n - total + good) 0) (n - total + good) (0 : FVal)
  let upper := switch (lt good n) good n
  .ok (switch (le lower value ∧ le value upper) res ninf)

/-- logprob.py:532-543 `studentt_logprob`. -/
noncomputable def studenttLogprob (value df loc scale : FVal) : Except Err FVal :=
  let res := gammaln ((df + 1) / 2) - gammaln (df / 2) - half * log (fin Real.pi * df * sq scale)
    - (df + 1) / 2 * log1p (sq ((value - loc) / scale) / df)
  checkParam res [ge scale 0]

open Classical in
/-- logprob.py:652-659 `diracdelta_logprob`, with `np.isclose(values, const, rtol, atol)`:
`|v - c| ≤ atol + rtol*|c|` for finite arguments, equality for infinities, false for `nan`. -/
noncomputable def isclose (rtol atol : ℝ) : FVal → FVal → Prop
  | fin v, fin c => |v - c| ≤ atol + rtol * |c|
  | pinf, pinf => True
  | ninf, ninf => True
  | _, _ => False

/-- logprob.py:652-659 `diracdelta_logprob`. -/
noncomputable def diracLogprob (rtol atol : ℝ) (value const : FVal) : FVal :=
  switch (isclose rtol atol value const) (0 : FVal) ninf

end Verif
