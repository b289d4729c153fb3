import Verif.Model.Dists
import Verif.Model.Names

/-!
# The distributions of the library, and calls of `logcdf` and `icdf`

The tables of `_logprob`, `_logcdf` and `_icdf` (`/repo/aeppl/logprob.py:121-543`) for the distributions of single numbers.
-/

namespace Verif.Library
open Verif Cond

/-- The random variable operations of numbers that `_logprob` is registered for (logprob.py:127-543). -/
inductive Lib
  | uniform | normal | halfnormal | beta | exponential | laplace | lognormal | pareto | cauchy | halfcauchy | gamma | invgamma | chisquare | wald | weibull | vonmises | triangular | gumbel | logistic
  | studentt | binomial | betabinomial | bernoulli | poisson | nbinom | geometric | hypergeometric
  deriving DecidableEq

/-- `_logprob(op, (value,), rng, size, dtype, *parameters)` (logprob.py:127-543).  Another number of parameters cannot be unpacked (`ValueError`). -/
noncomputable def Lib.logprob : Lib → FVal → List FVal → Except Err FVal
  | .uniform, v, [lower, upper] => uniformLogprob v lower upper
  | .normal, v, [mu, sigma] => normalLogprob v mu sigma
  | .halfnormal, v, [loc, sigma] => halfnormalLogprob v loc sigma
  | .beta, v, [alpha, bt] => betaLogprob v alpha bt
  | .exponential, v, [mu] => exponentialLogprob v mu
  | .laplace, v, [mu, b] => laplaceLogprob v mu b
  | .lognormal, v, [mu, sigma] => lognormalLogprob v mu sigma
  | .pareto, v, [alpha, m] => paretoLogprob v alpha m
  | .cauchy, v, [alpha, bt] => cauchyLogprob v alpha bt
  | .halfcauchy, v, [loc, bt] => halfcauchyLogprob v loc bt
  | .gamma, v, [alpha, inv_beta] => gammaLogprob v alpha inv_beta
  | .invgamma, v, [alpha, bt] => invgammaLogprob v alpha bt
  | .chisquare, v, [nu] => chisquareLogprob v nu
  | .wald, v, [mu, scale] => waldLogprob v mu scale
  | .weibull, v, [c] => weibullLogprob v c
  | .vonmises, v, [mu, kappa] => vonmisesLogprob v mu kappa
  | .triangular, v, [lower, c, upper] => triangularLogprob v lower c upper
  | .gumbel, v, [mu, bt] => gumbelLogprob v mu bt
  | .logistic, v, [mu, s] => logisticLogprob v mu s
  | .studentt, v, [df, loc, scale] => studenttLogprob v df loc scale
  | .binomial, v, [n, p] => binomialLogprob v n p
  | .betabinomial, v, [n, alpha, bt] => betabinomialLogprob v n alpha bt
  | .bernoulli, v, [p] => bernoulliLogprob v p
  | .poisson, v, [mu] => poissonLogprob v mu
  | .nbinom, v, [n, p] => nbinomLogprob v n p
  | .geometric, v, [p] => geometricLogprob v p
  | .hypergeometric, v, [good, bad, n] => hypergeometricLogprob v good bad n
  | _, _, _ => .error .valueError

/-- The operations that `_logcdf` is registered for (logprob.py:138, 169, 455, 495). -/
def Lib.hasCdf : Lib → Bool
  | .uniform => true
  | .normal => true
  | .poisson => true
  | .geometric => true
  | _ => false

/-- `_logcdf(op, value, rng, size, dtype, *parameters)` (logprob.py:99-107, 138-153, 169-181, 455-462, 495-502). -/
noncomputable def Lib.logcdf : Lib → FVal → List FVal → Except Err FVal
  | .uniform, v, [lower, upper] => uniformLogcdf v lower upper
  | .normal, v, [mu, sigma] => normalLogcdf v mu sigma
  | .poisson, v, [mu] => poissonLogcdf v mu
  | .geometric, v, [p] => geometricLogcdf v p
  | d, _, _ => if d.hasCdf then .error .valueError else .error .notImplemented

/-- `_icdf(op, value, rng, size, dtype, *parameters)` (logprob.py:110-118, 184-187, 505-508).  Simplification: the result for geometric variables is not converted to integers. -/
noncomputable def Lib.icdf (erfcinv : FVal → FVal) : Lib → FVal → List FVal → Except Err FVal
  | .normal, q, [loc, scale] => .ok (normalIcdf erfcinv q loc scale)
  | .geometric, q, [p] => .ok (geometricIcdf q p)
  | .normal, _, _ => .error .valueError
  | .geometric, _, _ => .error .valueError
  | _, _, _ => .error .notImplemented

/-- The data types of Aesara's random variable operations: `float64` (its name begins with `float`) or `int64`. -/
def Lib.kind : Lib → Full.Kind
  | .binomial => .int
  | .betabinomial => .int
  | .bernoulli => .int
  | .poisson => .int
  | .nbinom => .int
  | .geometric => .int
  | .hypergeometric => .int
  | _ => .float

/-- The tables, as they are looked up by the log-probabilities of clipped and rounded variables and mixtures. -/
noncomputable def registry : Full.Registry Lib where
  kernel := Lib.logprob
  cdf := Lib.logcdf

/-- convolutions.py:21-24: the inputs of sums must be `NormalRV`s. -/
instance : IR.Normals Lib := ⟨fun d => d = .normal⟩

/-- logprob.py:68-77 `logcdf(rv_var, rv_value)`: `_logcdf` is registered for random variables only, neither for `ValuedVariable` nor for what graph conversion makes; inputs and constants have no `owner`.  The result is the
graph, written as what it evaluates to with the parameters `ev` and the value `x`, and its name. -/
noncomputable def logcdfCall (nm : ℕ → Option Text) (ev : Full.Expr Lib → FVal) (x : FVal) : Full.Expr Lib → Except Err (Except Err FVal × Option Text)
  | .rv id d n args => if d.hasCdf then .ok (d.logcdf x (List.ofFn fun i => ev (args i)), (Full.truthy (nm id)).map fun s => s ++ "_logcdf".toList) else .error .notImplemented
  | .app .. => .error .notImplemented
  | .valued .. => .error .notImplemented
  | _ => .error .attribute

/-- The operations that `_icdf` is registered for (logprob.py:184, 505). -/
def Lib.hasIcdf : Lib → Bool
  | .normal => true
  | .geometric => true
  | _ => false

/-- logprob.py:80-86 `icdf(rv, value)`. -/
noncomputable def icdfCall (erfcinv : FVal → FVal) (nm : ℕ → Option Text) (ev : Full.Expr Lib → FVal) (q : FVal) : Full.Expr Lib → Except Err (Except Err FVal × Option Text)
  | .rv id d n args => if d.hasIcdf then .ok (d.icdf erfcinv q (List.ofFn fun i => ev (args i)), (Full.truthy (nm id)).map fun s => s ++ "_icdf".toList) else .error .notImplemented
  | .app .. => .error .notImplemented
  | .valued .. => .error .notImplemented
  | _ => .error .attribute

end Verif.Library
