{"id": "C01", "title": "joint_logprob is the total of the conditional terms", "statement": "joint_logprob(*rvs, realized=r) returns the sum, over every entry of the dictionary conditional_logprob(*rvs, realized=r) returns, of the sum of all elements of that entry; it returns None exactly when that dictionary is empty, returns the same value variables otherwise, and it raises exactly when conditional_logprob raises, with the same error.", "quantifier": "for every list of random variables, every realized dictionary, every number and shape of terms", "why_tests_cant": "tests use a handful of two- or three-variable models; the claim is about any number of terms of any shape, including NaN and -inf entries", "anchors": ["aeppl/joint_logprob.py:joint_logprob", "aeppl/joint_logprob.py:conditional_logprob"]}
{"id": "C02", "title": "One term per requested variable, none dropped, none invented", "statement": "When conditional_logprob(*rvs, realized=r) returns, the keys of the returned dictionary are exactly the distinct variables of rvs together with the keys of r, each once.", "quantifier": "for every argument list (with duplicates), every realized dictionary, and every measurable graph whose conversion succeeds", "why_tests_cant": "a dropped or duplicated factor silently changes the density; tests enumerate only small argument lists", "anchors": ["aeppl/joint_logprob.py:conditional_logprob", "aeppl/rewriting.py:construct_ir_fgraph"]}
{"id": "C03", "title": "Value variables come back in argument order", "statement": "The value variables returned by conditional_logprob correspond one-to-one, and in the same order, to the (distinct) random variables passed that are not in realized.", "quantifier": "for every argument list and every assignment of variables to measurable nodes (single- or multi-output)", "why_tests_cant": "callers unpack the value variables positionally; the order depends on dictionary insertion over grouped nodes for arbitrary graphs", "anchors": ["aeppl/joint_logprob.py:conditional_logprob"]}
{"id": "C04", "title": "Realized variables get their given value and no value variable", "statement": "A variable in realized has its term evaluated at the supplied value and contributes no value variable to the result, also when it is passed positionally as well.", "quantifier": "for every argument list and realized dictionary, overlapping or not", "why_tests_cant": "overlap cases form an unbounded family", "anchors": ["aeppl/joint_logprob.py:conditional_logprob"]}
{"id": "C05", "title": "Every term is evaluated at its own variable's value", "statement": "In the dictionary returned by conditional_logprob, the term of variable v is the log-probability of v's output at v's own value, whatever the order in which the variables were passed.", "quantifier": "for every permutation of the arguments and every grouping of the variables into multi-output nodes", "why_tests_cant": "pairing goes through per-node lists; a wrong pairing only shows for particular argument orders", "anchors": ["aeppl/joint_logprob.py:conditional_logprob", "aeppl/scan.py:logprob_ScanRV"]}
{"id": "C06", "title": "No silent partial densities", "statement": "conditional_logprob never returns a result that omits a requested variable: if some requested variable has no measurable conversion it raises DensityNotFound, and if two values are assigned to one single-output measurable node it raises ValueError.", "quantifier": "for every graph, every set of variables without densities and every position of the failing variable", "why_tests_cant": "the failing variable may be at any position in lists of any length", "anchors": ["aeppl/joint_logprob.py:conditional_logprob", "aeppl/joint_logprob.py:DensityNotFound"]}
{"id": "C07", "title": "Terms are conditional on the other variables' values", "statement": "In every term returned by conditional_logprob, each valued ancestor is replaced by its value: evaluated at given values, the term of v equals the log-density of v's distribution with parameters computed from the values of v's valued ancestors, independent of what those ancestors' own distributions are.", "quantifier": "for every model graph (any depth, sharing and deterministic expressions between variables) and all values", "why_tests_cant": "requires quantifying over all graphs and all environments", "anchors": ["aeppl/joint_logprob.py:conditional_logprob", "aeppl/rewriting.py:construct_ir_fgraph", "aeppl/rewriting.py:remove_ValuedVariable"]}
{"id": "C08", "title": "exp(joint_logprob) is the joint density of the model", "statement": "For a model graph whose random variables are all valued, exp of joint_logprob, as a function of the values, is the density (product reference measure) of the joint law obtained by sampling the variables in dependency order.", "quantifier": "for every acyclic model with any number of variables, any conditional densities and any order in which the variables are passed", "why_tests_cant": "it is an identity between measures over all models; numerical tests only compare isolated points", "anchors": ["aeppl/joint_logprob.py:joint_logprob", "aeppl/joint_logprob.py:conditional_logprob"]}
{"id": "C09", "title": "Normal log-density", "statement": "For sigma > 0 the normal log-probability is never NaN and its exponential is the density of the Gaussian law N(mu, sigma^2).", "quantifier": "for all parameter values accepted by the code's own parameter check and all real (integer for discrete distributions) values", "why_tests_cant": "the parameter and value spaces are uncountable (or infinite); a finite table of scipy comparisons cannot show total mass one or correctness at every boundary", "anchors": ["aeppl/logprob.py:normal_logprob"]}
{"id": "C10", "title": "Uniform log-density", "statement": "For lower < upper the uniform log-probability is never NaN, is -inf outside [lower, upper], and its exponential is the density of the uniform law on [lower, upper].", "quantifier": "for all parameter values accepted by the code's own parameter check and all real (integer for discrete distributions) values", "why_tests_cant": "the parameter and value spaces are uncountable (or infinite); a finite table of scipy comparisons cannot show total mass one or correctness at every boundary", "anchors": ["aeppl/logprob.py:uniform_logprob"]}
{"id": "C11", "title": "Half-normal log-density", "statement": "For sigma > 0 the half-normal log-probability is never NaN, is -inf below loc, and its exponential is the density of loc + sigma*|Z| with Z standard normal.", "quantifier": "for all parameter values accepted by the code's own parameter check and all real (integer for discrete distributions) values", "why_tests_cant": "the parameter and value spaces are uncountable (or infinite); a finite table of scipy comparisons cannot show total mass one or correctness at every boundary", "anchors": ["aeppl/logprob.py:halfnormal_logprob"]}
{"id": "C12", "title": "Beta log-density", "statement": "For alpha, beta > 0 the beta log-probability is never NaN, is -inf outside [0, 1], and its exponential is the density of the Beta(alpha, beta) law.", "quantifier": "for all parameter values accepted by the code's own parameter check and all real (integer for discrete distributions) values", "why_tests_cant": "the parameter and value spaces are uncountable (or infinite); a finite table of scipy comparisons cannot show total mass one or correctness at every boundary", "anchors": ["aeppl/logprob.py:beta_logprob"]}
{"id": "C13", "title": "Exponential log-density", "statement": "For mu > 0 the exponential log-probability is never NaN, is -inf for negative values, and its exponential is the density of the exponential law with mean mu.", "quantifier": "for all parameter values accepted by the code's own parameter check and all real (integer for discrete distributions) values", "why_tests_cant": "the parameter and value spaces are uncountable (or infinite); a finite table of scipy comparisons cannot show total mass one or correctness at every boundary", "anchors": ["aeppl/logprob.py:exponential_logprob"]}
{"id": "C14", "title": "Laplace log-density", "statement": "For b > 0 the Laplace log-probability is never NaN and its exponential is the density of the Laplace law: the equal-weight mixture of mu + b*E and mu - b*E with E standard exponential.", "quantifier": "for all parameter values accepted by the code's own parameter check and all real (integer for discrete distributions) values", "why_tests_cant": "the parameter and value spaces are uncountable (or infinite); a finite table of scipy comparisons cannot show total mass one or correctness at every boundary", "anchors": ["aeppl/logprob.py:laplace_logprob"]}
{"id": "C15", "title": "Log-normal log-density", "statement": "For sigma > 0 the log-normal log-probability is never NaN, is -inf for values <= 0, and its exponential is the density of exp(N(mu, sigma^2)).", "quantifier": "for all parameter values accepted by the code's own parameter check and all real (integer for discrete distributions) values", "why_tests_cant": "the parameter and value spaces are uncountable (or infinite); a finite table of scipy comparisons cannot show total mass one or correctness at every boundary", "anchors": ["aeppl/logprob.py:lognormal_logprob"]}
{"id": "C16", "title": "Pareto log-density", "statement": "For alpha, m > 0 the Pareto log-probability is never NaN, is -inf below m, and its exponential is the density of the Pareto law with shape alpha and scale m.", "quantifier": "for all parameter values accepted by the code's own parameter check and all real (integer for discrete distributions) values", "why_tests_cant": "the parameter and value spaces are uncountable (or infinite); a finite table of scipy comparisons cannot show total mass one or correctness at every boundary", "anchors": ["aeppl/logprob.py:pareto_logprob"]}
{"id": "C17", "title": "Cauchy log-density", "statement": "For beta > 0 the Cauchy log-probability is never NaN and its exponential is the density of the Cauchy law with location alpha and scale beta.", "quantifier": "for all parameter values accepted by the code's own parameter check and all real (integer for discrete distributions) values", "why_tests_cant": "the parameter and value spaces are uncountable (or infinite); a finite table of scipy comparisons cannot show total mass one or correctness at every boundary", "anchors": ["aeppl/logprob.py:cauchy_logprob"]}
{"id": "C18", "title": "Half-Cauchy log-density", "statement": "For beta > 0 the half-Cauchy log-probability is never NaN, is -inf below loc, and its exponential is a density of total mass one: that of loc + |C| for C a centred Cauchy variable of scale beta.", "quantifier": "for all parameter values accepted by the code's own parameter check and all real (integer for discrete distributions) values", "why_tests_cant": "the parameter and value spaces are uncountable (or infinite); a finite table of scipy comparisons cannot show total mass one or correctness at every boundary", "anchors": ["aeppl/logprob.py:halfcauchy_logprob"]}
{"id": "C19", "title": "Gamma log-density", "statement": "For alpha > 0 and scale > 0 the gamma log-probability is never NaN, is -inf for negative values, and its exponential is the density of the gamma law with shape alpha and the given scale; every parameter pair the check accepts is a valid one.", "quantifier": "for all parameter values accepted by the code's own parameter check and all real (integer for discrete distributions) values", "why_tests_cant": "the parameter and value spaces are uncountable (or infinite); a finite table of scipy comparisons cannot show total mass one or correctness at every boundary", "anchors": ["aeppl/logprob.py:gamma_logprob"]}
{"id": "C20", "title": "Inverse-gamma log-density", "statement": "For alpha, beta > 0 the inverse-gamma log-probability is never NaN, is -inf for negative values, and its exponential is the density of 1/G with G gamma distributed with shape alpha and rate beta.", "quantifier": "for all parameter values accepted by the code's own parameter check and all real (integer for discrete distributions) values", "why_tests_cant": "the parameter and value spaces are uncountable (or infinite); a finite table of scipy comparisons cannot show total mass one or correctness at every boundary", "anchors": ["aeppl/logprob.py:invgamma_logprob"]}
{"id": "C21", "title": "Chi-square log-density", "statement": "For nu > 0 the chi-square log-probability is never NaN and its exponential is the density of the gamma law with shape nu/2 and scale 2.", "quantifier": "for all parameter values accepted by the code's own parameter check and all real (integer for discrete distributions) values", "why_tests_cant": "the parameter and value spaces are uncountable (or infinite); a finite table of scipy comparisons cannot show total mass one or correctness at every boundary", "anchors": ["aeppl/logprob.py:chisquare_logprob", "aeppl/logprob.py:gamma_logprob"]}
{"id": "C22", "title": "Wald log-density", "statement": "For mu, scale > 0 the Wald (inverse Gaussian) log-probability is never NaN, is -inf for values <= 0, its exponential is the textbook inverse-Gaussian density, and it has total mass one.", "quantifier": "for all parameter values accepted by the code's own parameter check and all real (integer for discrete distributions) values", "why_tests_cant": "the parameter and value spaces are uncountable (or infinite); a finite table of scipy comparisons cannot show total mass one or correctness at every boundary", "anchors": ["aeppl/logprob.py:wald_logprob"]}
{"id": "C23", "title": "Weibull log-density", "statement": "For c > 0 the Weibull log-probability is never NaN, is -inf for negative values, and its exponential is the density of E^(1/c) with E standard exponential.", "quantifier": "for all parameter values accepted by the code's own parameter check and all real (integer for discrete distributions) values", "why_tests_cant": "the parameter and value spaces are uncountable (or infinite); a finite table of scipy comparisons cannot show total mass one or correctness at every boundary", "anchors": ["aeppl/logprob.py:weibull_logprob"]}
{"id": "C24", "title": "Von Mises log-density", "statement": "For kappa > 0 the von Mises log-probability is never NaN, is -inf outside [-pi, pi], and its exponential has total mass one and is proportional to exp(kappa*cos(x - mu)) on [-pi, pi].", "quantifier": "for all parameter values accepted by the code's own parameter check and all real (integer for discrete distributions) values", "why_tests_cant": "the parameter and value spaces are uncountable (or infinite); a finite table of scipy comparisons cannot show total mass one or correctness at every boundary", "anchors": ["aeppl/logprob.py:vonmises_logprob"]}
{"id": "C25", "title": "Triangular log-density", "statement": "For lower <= c <= upper with lower < upper the triangular log-probability is never NaN, is -inf outside [lower, upper], and its exponential is the triangular density with mode c.", "quantifier": "for all parameter values accepted by the code's own parameter check and all real (integer for discrete distributions) values", "why_tests_cant": "the parameter and value spaces are uncountable (or infinite); a finite table of scipy comparisons cannot show total mass one or correctness at every boundary", "anchors": ["aeppl/logprob.py:triangular_logprob"]}
{"id": "C26", "title": "Gumbel log-density", "statement": "For beta > 0 the Gumbel log-probability is never NaN and its exponential is the density of mu - beta*log(E) with E standard exponential.", "quantifier": "for all parameter values accepted by the code's own parameter check and all real (integer for discrete distributions) values", "why_tests_cant": "the parameter and value spaces are uncountable (or infinite); a finite table of scipy comparisons cannot show total mass one or correctness at every boundary", "anchors": ["aeppl/logprob.py:gumbel_logprob"]}
{"id": "C27", "title": "Logistic log-density", "statement": "For s > 0 the logistic log-probability is never NaN and its exponential is the density of the law with CDF 1/(1+exp(-(x-mu)/s)).", "quantifier": "for all parameter values accepted by the code's own parameter check and all real (integer for discrete distributions) values", "why_tests_cant": "the parameter and value spaces are uncountable (or infinite); a finite table of scipy comparisons cannot show total mass one or correctness at every boundary", "anchors": ["aeppl/logprob.py:logistic_logprob"]}
{"id": "C28", "title": "Binomial log-mass", "statement": "For 0 <= p <= 1 and n a natural number the binomial log-probability of every integer value is never NaN, its exponential is C(n,k) p^k (1-p)^(n-k) on 0..n and 0 elsewhere, and the masses add up to one.", "quantifier": "for all parameter values accepted by the code's own parameter check and all real (integer for discrete distributions) values", "why_tests_cant": "the parameter and value spaces are uncountable (or infinite); a finite table of scipy comparisons cannot show total mass one or correctness at every boundary", "anchors": ["aeppl/logprob.py:binomial_logprob", "aeppl/logprob.py:binomln", "aeppl/logprob.py:xlogy0"]}
{"id": "C29", "title": "Beta-binomial log-mass", "statement": "For alpha, beta > 0 and n natural the beta-binomial log-probability is never NaN, its exponential at k in 0..n is the Beta(alpha, beta) average of the binomial mass, and the masses add up to one.", "quantifier": "for all parameter values accepted by the code's own parameter check and all real (integer for discrete distributions) values", "why_tests_cant": "the parameter and value spaces are uncountable (or infinite); a finite table of scipy comparisons cannot show total mass one or correctness at every boundary", "anchors": ["aeppl/logprob.py:betabinomial_logprob", "aeppl/logprob.py:betaln"]}
{"id": "C30", "title": "Bernoulli log-mass", "statement": "For 0 <= p <= 1 the Bernoulli log-probability is log(p) at 1, log(1-p) at 0 and -inf at any other integer, never NaN, and the masses add up to one.", "quantifier": "for all parameter values accepted by the code's own parameter check and all real (integer for discrete distributions) values", "why_tests_cant": "the parameter and value spaces are uncountable (or infinite); a finite table of scipy comparisons cannot show total mass one or correctness at every boundary", "anchors": ["aeppl/logprob.py:bernoulli_logprob"]}
{"id": "C31", "title": "Poisson log-mass", "statement": "For mu >= 0 (including 0) the Poisson log-probability of every integer is never NaN and its exponential is the Poisson mass; the masses add up to one.", "quantifier": "for all parameter values accepted by the code's own parameter check and all real (integer for discrete distributions) values", "why_tests_cant": "the parameter and value spaces are uncountable (or infinite); a finite table of scipy comparisons cannot show total mass one or correctness at every boundary", "anchors": ["aeppl/logprob.py:poisson_logprob"]}
{"id": "C32", "title": "Negative-binomial log-mass", "statement": "For n > 0 and 0 < p < 1 the negative-binomial log-probability of every integer is never NaN and its exponential is the mass of the number of failures before the n-th success; the masses add up to one.", "quantifier": "for all parameter values accepted by the code's own parameter check and all real (integer for discrete distributions) values", "why_tests_cant": "the parameter and value spaces are uncountable (or infinite); a finite table of scipy comparisons cannot show total mass one or correctness at every boundary", "anchors": ["aeppl/logprob.py:nbinom_logprob"]}
{"id": "C33", "title": "Geometric log-mass", "statement": "For 0 < p <= 1 the geometric log-probability of every integer is never NaN and its exponential is (1-p)^(k-1) p for k >= 1 and 0 otherwise; the masses add up to one.", "quantifier": "for all parameter values accepted by the code's own parameter check and all real (integer for discrete distributions) values", "why_tests_cant": "the parameter and value spaces are uncountable (or infinite); a finite table of scipy comparisons cannot show total mass one or correctness at every boundary", "anchors": ["aeppl/logprob.py:geometric_logprob"]}
{"id": "C34", "title": "Hypergeometric log-mass", "statement": "For natural good, bad and n <= good + bad the hypergeometric log-probability of every integer is never NaN and its exponential is C(good,k) C(bad,n-k) / C(good+bad,n); the masses add up to one.", "quantifier": "for all parameter values accepted by the code's own parameter check and all real (integer for discrete distributions) values", "why_tests_cant": "the parameter and value spaces are uncountable (or infinite); a finite table of scipy comparisons cannot show total mass one or correctness at every boundary", "anchors": ["aeppl/logprob.py:hypergeometric_logprob"]}
{"id": "C35", "title": "Student-t log-density", "statement": "For every accepted parameter triple the Student-t log-probability is never NaN and its exponential is the Student-t density with df degrees of freedom, of total mass one.", "quantifier": "for all parameter values accepted by the code's own parameter check and all real (integer for discrete distributions) values", "why_tests_cant": "the parameter and value spaces are uncountable (or infinite); a finite table of scipy comparisons cannot show total mass one or correctness at every boundary", "anchors": ["aeppl/logprob.py:studentt_logprob"]}
{"id": "C36", "title": "Categorical log-mass", "statement": "For every probability vector p (any length) the categorical log-probability of an integer is log of the normalised p[k] for 0 <= k < len(p) and -inf for any other integer; the masses add up to one.", "quantifier": "for all parameter values accepted by the code's own parameter check and all real (integer for discrete distributions) values", "why_tests_cant": "the parameter and value spaces are uncountable (or infinite); a finite table of scipy comparisons cannot show total mass one or correctness at every boundary", "anchors": ["aeppl/logprob.py:categorical_logprob"]}
{"id": "C37", "title": "Multivariate normal log-density", "statement": "For every mean and positive-definite covariance of any dimension the multivariate-normal log-probability is the log of the multivariate Gaussian density (with its determinant normalisation), and its exponential has total mass one.", "quantifier": "for all parameter values accepted by the code's own parameter check and all real (integer for discrete distributions) values", "why_tests_cant": "the parameter and value spaces are uncountable (or infinite); a finite table of scipy comparisons cannot show total mass one or correctness at every boundary", "anchors": ["aeppl/logprob.py:mvnormal_logprob"]}
{"id": "C38", "title": "Dirichlet log-density", "statement": "For every positive concentration vector the Dirichlet log-probability is the log of the Dirichlet density on the probability simplex and -inf for vectors outside the simplex.", "quantifier": "for all parameter values accepted by the code's own parameter check and all real (integer for discrete distributions) values", "why_tests_cant": "the parameter and value spaces are uncountable (or infinite); a finite table of scipy comparisons cannot show total mass one or correctness at every boundary", "anchors": ["aeppl/logprob.py:dirichlet_logprob"]}
{"id": "C39", "title": "Multinomial log-mass", "statement": "For every n and probability vector p accepted by the check, the multinomial log-probability of every integer vector is never NaN, its exponential is n!/prod(k_i!) * prod(p_i^k_i) when the counts are non-negative and add up to n and 0 otherwise, and the masses add up to one.", "quantifier": "for all parameter values accepted by the code's own parameter check and all real (integer for discrete distributions) values", "why_tests_cant": "the parameter and value spaces are uncountable (or infinite); a finite table of scipy comparisons cannot show total mass one or correctness at every boundary", "anchors": ["aeppl/logprob.py:multinomial_logprob"]}
{"id": "C40", "title": "Dirac delta log-mass", "statement": "The DiracDelta log-probability is 0 exactly at values within tolerance (|v - c| <= atol + rtol*|c|) of the constant and -inf everywhere else; with zero tolerances it is the point mass at c.", "quantifier": "for all parameter values accepted by the code's own parameter check and all real (integer for discrete distributions) values", "why_tests_cant": "the parameter and value spaces are uncountable (or infinite); a finite table of scipy comparisons cannot show total mass one or correctness at every boundary", "anchors": ["aeppl/logprob.py:diracdelta_logprob", "aeppl/dists.py:DiracDelta"]}
{"id": "C41", "title": "Discrete Markov chain log-probability matches its sampler", "statement": "For transition matrices Gammas and initial law gamma_0, the exponential of the summed log-probability of a state sequence equals the probability that the sampler built by discrete_markov_chain(Gammas, gamma_0) produces that sequence.", "quantifier": "for every number of states, every sequence length, every (time-varying or constant) stack of transition matrices and every state sequence", "why_tests_cant": "paths are exponentially many and of unbounded length", "anchors": ["aeppl/logprob.py:discrete_mc_logp", "aeppl/dists.py:discrete_markov_chain"]}
{"id": "C42", "title": "Invalid parameters raise, valid ones do not", "statement": "Evaluating the log-probability (log-CDF) of a distribution whose parameters are outside the domain stated in its check raises ParameterValueError for every value, whatever the value and even if only one element of a parameter array is invalid (or NaN); with all parameters inside the domain it never raises it.", "quantifier": "for all parameters (including NaN and infinities), all values, all array sizes", "why_tests_cant": "the invalid region is infinite and the check must survive the later switch operations", "anchors": ["aeppl/logprob.py:CheckParameterValue", "aeppl/logprob.py:ParameterValueError"]}
{"id": "C43", "title": "Normal log-CDF is the log of the normal CDF", "statement": "For sigma > 0, exp(logcdf(normal(mu, sigma), v)) = P(X <= v), in both numerical branches, and it is consistent with the integral of exp(logprob).", "quantifier": "for all mu, sigma > 0 and v", "why_tests_cant": "two branches with different special functions must agree with one integral everywhere", "anchors": ["aeppl/logprob.py:normal_logcdf"]}
{"id": "C44", "title": "Uniform log-CDF is the log of the uniform CDF", "statement": "For lower < upper, exp(logcdf(uniform(lower, upper), v)) = P(X <= v) for every v, -inf below the support, 0 above.", "quantifier": "for all lower < upper and v", "why_tests_cant": "uncountable domain", "anchors": ["aeppl/logprob.py:uniform_logcdf"]}
{"id": "C45", "title": "Poisson log-CDF is the log of the summed masses", "statement": "For mu > 0 and every real v, exp(logcdf(poisson(mu), v)) is the sum of exp(logprob(poisson(mu), k)) over integers k <= v.", "quantifier": "for all mu > 0 (and mu = 0) and v", "why_tests_cant": "relates an incomplete-gamma closed form with sums of every length", "anchors": ["aeppl/logprob.py:poisson_logcdf", "aeppl/logprob.py:poisson_logprob"]}
{"id": "C46", "title": "Geometric log-CDF is the log of the summed masses", "statement": "For 0 < p <= 1 and every integer v, exp(logcdf(geometric(p), v)) is the sum of exp(logprob(geometric(p), k)) over k <= v.", "quantifier": "for all p and v", "why_tests_cant": "sums of every length", "anchors": ["aeppl/logprob.py:geometric_logcdf", "aeppl/logprob.py:geometric_logprob"]}
{"id": "C47", "title": "Normal icdf inverts the CDF", "statement": "For sigma > 0 and 0 < q < 1, the CDF of normal(mu, sigma) at icdf(q) is q, and icdf of the CDF of x is x.", "quantifier": "for all mu, sigma > 0, q in (0,1) and x", "why_tests_cant": "uncountable domain; erfcinv round trip", "anchors": ["aeppl/logprob.py:normal_icdf", "aeppl/logprob.py:normal_logcdf"]}
{"id": "C48", "title": "Geometric icdf is the generalised inverse of the CDF", "statement": "For 0 < p < 1 and 0 < q < 1, icdf(geometric(p), q) is the least integer k with P(X <= k) >= q.", "quantifier": "for all p and q", "why_tests_cant": "off-by-one errors sit exactly at the jump points of the CDF", "anchors": ["aeppl/logprob.py:geometric_icdf"]}
{"id": "C49", "title": "Value transforms are invertible", "statement": "For each transform (loc, scale, log, exp, reciprocal, interval, log-odds, simplex, circular and chains of them), backward(forward(x)) = x for every x in the constrained domain and forward(backward(y)) = y for every y in the transform's range.", "quantifier": "for all parameters satisfying the transform's own conditions and all values, chains of any length", "why_tests_cant": "round trips over the reals and over chains of any length", "anchors": ["aeppl/transforms.py:RVTransform", "aeppl/transforms.py:ChainedTransform"]}
{"id": "C50", "title": "log_jac_det is the log absolute Jacobian of backward", "statement": "For each elementwise transform, log_jac_det(y) equals log |d backward(y)/dy| at every y in the transform's range.", "quantifier": "for all parameters and all y", "why_tests_cant": "derivative identities over the reals including negative values", "anchors": ["aeppl/transforms.py:RVTransform.log_jac_det"]}
{"id": "C51", "title": "Transformed densities keep their probability", "statement": "For a density f and a transform t applied through TransformValuesRewrite (use_jacobian true), the exponential of the transformed log-probability is the density of t.forward applied to the variable: it gives every event the same probability, hence total mass one is preserved.", "quantifier": "for every base density, every listed transform and every measurable event", "why_tests_cant": "a measure identity over all events", "anchors": ["aeppl/transforms.py:transformed_logprob", "aeppl/transforms.py:TransformValuesRewrite"]}
{"id": "C52", "title": "Default transforms map the real line onto the support", "statement": "For every distribution with a default transform, backward maps every real number into the support of the distribution (log-probability not -inf there) and forward maps the interior of the support onto the whole real line.", "quantifier": "for all distribution parameters and all unconstrained values", "why_tests_cant": "samplers explore every real number; finite tests hit only few parameters", "anchors": ["aeppl/transforms.py:_default_transformed_rv"]}
{"id": "C53", "title": "Chained transforms compose in order with summed log Jacobians", "statement": "A chain of transforms applies forward left to right and backward right to left, and its log_jac_det is the log absolute derivative of the whole backward map.", "quantifier": "for chains of every length and any transforms", "why_tests_cant": "unbounded chain length", "anchors": ["aeppl/transforms.py:ChainedTransform"]}
{"id": "C54", "title": "Simplex transform Jacobian", "statement": "For every dimension N, the simplex transform's backward lands in the open probability simplex, forward inverts it, and log_jac_det equals the log absolute determinant of the Jacobian of (free coordinates) backward.", "quantifier": "for all dimensions and all points", "why_tests_cant": "determinants of every size", "anchors": ["aeppl/transforms.py:SimplexTransform"]}
{"id": "C55", "title": "Which values get transformed", "statement": "TransformValuesRewrite transforms exactly the values whose entry is a transform (or DEFAULT for a distribution with a default); entries None, missing entries and DEFAULT without a registered default leave the value untouched, and a requested value that is not among the valued variables raises.", "quantifier": "for every dictionary of requested transforms and every set of valued variables", "why_tests_cant": "dictionaries of any size and content", "anchors": ["aeppl/transforms.py:TransformValuesMapping", "aeppl/transforms.py:transform_values", "aeppl/transforms.py:TransformValuesRewrite"]}
{"id": "C56", "title": "Elementwise functions of a random variable get the pushforward density", "statement": "For any composition of x+a, a-x, a*x (a nonzero), x/a, a/x, exp(x) and log(x) applied to a continuous random variable with density f, the exponential of the derived log-probability is the density of the transformed variable.", "quantifier": "for every composition depth, all constants and all base densities (supported where the functions are invertible)", "why_tests_cant": "towers of unbounded depth over arbitrary densities", "anchors": ["aeppl/transforms.py:measurable_elemwise_logprob", "aeppl/transforms.py:construct_elemwise_transform"]}
{"id": "C57", "title": "Derived densities are -inf off their support", "statement": "For a transformed variable such as exp(X) the derived log-probability at values that cannot occur (for instance negative values) is -inf.", "quantifier": "for every base distribution, transform and impossible value", "why_tests_cant": "impossible values form an uncountable set", "anchors": ["aeppl/transforms.py:measurable_elemwise_logprob", "aeppl/transforms.py:ExpTransform"]}
{"id": "C58", "title": "Only one source of randomness is inverted", "statement": "An elementwise expression is given an invertible-transform density only if exactly one of its direct inputs is an unvalued measurable variable, that input is not integer-typed, and no unvalued measurable variable is reachable from the remaining inputs; otherwise the expression is left without a density (or handled elsewhere).", "quantifier": "for every expression graph", "why_tests_cant": "graphs of any depth and sharing", "anchors": ["aeppl/transforms.py:construct_elemwise_transform", "aeppl/utils.py:walk_model"]}
{"id": "C59", "title": "Clipped continuous variables", "statement": "For a continuous X with log-density and log-CDF, the derived log-probability of clip(X, a, b) is the log-density of clip(X, a, b) with respect to Lebesgue measure plus unit atoms at a and b (one-sided when a bound is constant infinite): every event gets P(clip(X, a, b) in event).", "quantifier": "for every base law, all bounds a <= b accepted by the code and all events", "why_tests_cant": "a measure identity with atoms at the boundaries", "anchors": ["aeppl/censoring.py:clip_logprob"]}
{"id": "C60", "title": "Clipped discrete variables", "statement": "For an integer-valued X the derived log-probability of clip(X, a, b) at every integer is the log of P(clip(X, a, b) = k).", "quantifier": "for every base mass function, all integer bounds a <= b and all integers k", "why_tests_cant": "boundary terms must be right for every base law", "anchors": ["aeppl/censoring.py:clip_logprob"]}
{"id": "C61", "title": "Rounded variables", "statement": "For a continuous X, the exponential of the derived log-probability of round(X), floor(X), ceil(X) at v is P(round(X) = v) (resp. floor, ceil): the interval probability at integers and 0 elsewhere.", "quantifier": "for every base law and every v", "why_tests_cant": "interval conventions and non-integer arguments", "anchors": ["aeppl/censoring.py:round_logprob", "aeppl/censoring.py:MeasurableRound"]}
{"id": "C62", "title": "Scalar-index mixtures pick the indexed component", "statement": "For stack([X0..Xk-1])[i] with a scalar index, the derived log-probability at v given index i is the log-probability of component X_i at v.", "quantifier": "for every number of components, every index valid for NumPy indexing of the stack and all values", "why_tests_cant": "any number of components", "anchors": ["aeppl/mixture.py:logprob_MixtureRV", "aeppl/mixture.py:mixture_replace"]}
{"id": "C63", "title": "Array-index mixtures pick the indexed component elementwise", "statement": "For stack of components indexed with an integer array along the mixing axis, element j of the derived log-probability is the log-probability of component I[j] at v[j].", "quantifier": "for all numbers of components, all array lengths and all in-range index arrays", "why_tests_cant": "index arrays of every length", "anchors": ["aeppl/mixture.py:logprob_MixtureRV", "aeppl/mixture.py:expand_indices"]}
{"id": "C64", "title": "switch(c, X, Y) picks X when c is true", "statement": "For a mixture written at.switch(c, X, Y), the derived log-probability given c is that of X when c is true and that of Y when c is false.", "quantifier": "for all conditions, components and values", "why_tests_cant": "needs both branches for arbitrary components", "anchors": ["aeppl/mixture.py:switch_mixture_replace"]}
{"id": "C65", "title": "expand_indices preserves NumPy indexing", "statement": "For every array shape and every valid combination of slices, newaxis, integers and integer arrays, indexing with expand_indices(indices, shape) selects the same elements, in the same output positions and shape, as indexing with indices.", "quantifier": "for all shapes and all index tuples", "why_tests_cant": "combinatorial explosion of mixed basic and advanced indexing", "anchors": ["aeppl/mixture.py:expand_indices"]}
{"id": "C66", "title": "Cumulative sums", "statement": "For a vector (of any length) or an axis of an array, the derived log-probability of cumsum(X) at v is the log-probability of X at first differences of v; differences and cumulative sums are inverse to each other and the map preserves volume.", "quantifier": "for all lengths, axes and values", "why_tests_cant": "arrays of every length and rank", "anchors": ["aeppl/cumsum.py:logprob_cumsum"]}
{"id": "C67", "title": "Stacked and joined variables", "statement": "The derived log-probability of stack/concatenate of independent variables at v is the concatenation of the variables' log-probabilities at the corresponding pieces of v, in the same positions.", "quantifier": "for every number of pieces, piece sizes, axes and base variables", "why_tests_cant": "any number of pieces of any sizes, univariate or multivariate", "anchors": ["aeppl/tensor.py:logprob_make_vector", "aeppl/tensor.py:logprob_join"]}
{"id": "C68", "title": "Dimension shuffles", "statement": "For every permutation, insertion and removal of broadcastable dimensions, the derived log-probability of X.dimshuffle(order) at v.dimshuffle(order) is the log-probability of X at v, dimshuffled the same way.", "quantifier": "for every rank and every legal order", "why_tests_cant": "orders grow factorially with the rank", "anchors": ["aeppl/tensor.py:logprob_dimshuffle"]}
{"id": "C69", "title": "Sums and differences of normal variables", "statement": "The derived log-probability of a sum (or difference) of unvalued normal variables is the log-density of the law of that sum.", "quantifier": "for any number of summands, all means and standard deviations", "why_tests_cant": "requires the convolution identity for every number of summands; and independence of the summands", "anchors": ["aeppl/convolutions.py:add_independent_normals"]}
{"id": "C70", "title": "Deterministic values commute with basic operations", "statement": "Lifting a unary elementwise operation, broadcast, dimshuffle or indexing operation through a Dirac delta does not change what the expression evaluates to nor its log-probability; multi-input elementwise operations are left alone.", "quantifier": "for every supported operation and every value", "why_tests_cant": "arbitrary operations and nesting", "anchors": ["aeppl/rewriting.py:local_lift_DiracDelta", "aeppl/rewriting.py:local_remove_DiracDelta"]}
{"id": "C71", "title": "Partially observed variables", "statement": "For Y[idx] = data, the derived log-probability at y is the log-probability of Y at y with the elements selected by idx replaced by data.", "quantifier": "for every index expression, array shape, data and value", "why_tests_cant": "index expressions of every kind", "anchors": ["aeppl/rewriting.py:incsubtensor_rv_replace", "aeppl/utils.py:indices_from_subtensor"]}
{"id": "C72", "title": "Scan values are read at the right time offsets", "statement": "When the log-probability of a scan is derived, at step t the inner function reads, for each lag k used by the recursion, the value at time t-k of the outer value sequence (counting initial values).", "quantifier": "for every set of lags, every sequence length and every step", "why_tests_cant": "lag sets and lengths are unbounded", "anchors": ["aeppl/scan.py:convert_outer_out_to_in"]}
{"id": "C73", "title": "walk_model visits exactly the model's own variables", "statement": "walk_model yields each variable at most once, and yields exactly the variables reachable from the given ones through inputs without passing beyond measurable variables (unless walk_past_rvs) or stop variables.", "quantifier": "for every acyclic graph, start list and stop set", "why_tests_cant": "arbitrary graphs with sharing", "anchors": ["aeppl/utils.py:walk_model"]}
{"id": "C74", "title": "rvs_to_value_vars substitutes values", "statement": "The graphs returned by rvs_to_value_vars evaluate to the original graphs with every listed random variable fixed at its value.", "quantifier": "for every graph, every set of replacements and every environment", "why_tests_cant": "arbitrary graphs", "anchors": ["aeppl/utils.py:rvs_to_value_vars", "aeppl/utils.py:replace_rvs_in_graphs"]}
{"id": "C75", "title": "change_rv_size changes only the batch size", "statement": "change_rv_size(rv, n) gives a variable of the same distribution and parameters whose batch shape is n; with expand=True the new batch shape is n followed by the previous batch shape.", "quantifier": "for every distribution, previous size (given or implied by parameters) and new size", "why_tests_cant": "sizes of every rank", "anchors": ["aeppl/utils.py:change_rv_size"]}
{"id": "C76", "title": "Unmeasurable marking is idempotent and isolated", "statement": "After assign_custom_measurable_outputs(node) the returned node's op reports the custom measurable outputs; repeating it on the result with the same function returns the same node, with a different function raises ValueError, and operations never passed to it keep their measurable outputs.", "quantifier": "for every history of calls on any operations", "why_tests_cant": "the registry is global mutable state; the claim is about all call histories", "anchors": ["aeppl/abstract.py:assign_custom_measurable_outputs", "aeppl/abstract.py:get_measurable_outputs", "aeppl/abstract.py:UnmeasurableMeta"]}
{"id": "C77", "title": "Automatic names are fresh", "statement": "Pretty-printing gives every unnamed variable a name different from all names already used in the graph and from all other automatic names, and a variable keeps its name throughout, as long as free letters remain.", "quantifier": "for every graph and every order in which variables are printed", "why_tests_cant": "any number and order of names", "anchors": ["aeppl/printing.py:PreamblePPrinter"]}
{"id": "C78", "title": "Preamble lines lose nothing", "statement": "The preamble printed above an expression contains every declaration exactly once in order, and a line holds more than one declaration only while its earlier declarations stay under the width limit.", "quantifier": "for every list of declaration strings of any lengths", "why_tests_cant": "string lists of any length", "anchors": ["aeppl/printing.py:PreamblePPrinter"]}
{"id": "C79", "title": "Printed index expressions match the graph", "statement": "For an indexing expression, the printed indices are the index expressions in the order in which they appear in the indexing.", "quantifier": "for every index list with any number of integers and slices", "why_tests_cant": "index lists of any length", "anchors": ["aeppl/printing.py:GenericSubtensorPrinter"]}
{"id": "C80", "title": "Values of the wrong type are rejected", "statement": "conditional_logprob returns only if every requested or realized variable is produced by a node and every realized value has the dtype of its variable; otherwise it raises for the first variable at fault, AttributeError if it is not produced by a node, TypeError if its value has another dtype.", "quantifier": "for every set of requested variables and realized values and every position of the offending one", "why_tests_cant": "dictionaries of any size", "anchors": ["aeppl/rewriting.py:construct_ir_fgraph", "aeppl/abstract.py:ValuedVariable"]}
{"id": "C81", "title": "Printing again prints the same preamble", "statement": "The declarations printed above an expression are those made while printing that expression, whatever the same printer has printed before.", "quantifier": "for every sequence of calls and every printer configuration", "why_tests_cant": "any call history", "anchors": ["aeppl/printing.py:PreamblePPrinter"]}
{"id": "C82", "title": "The log-probability of a scan is the density of its series", "statement": "For a scan whose steps draw random outputs from distributions with parameters computed from lagged values, sequences and earlier outputs of the same step, exp of joint_logprob, as a function of the series of values, is the density of the series drawn step by step from the initial values.", "quantifier": "for every number of outputs, lags, steps, sequences, initial values and distributions", "why_tests_cant": "any number of steps and outputs; densities over all series", "anchors": ["aeppl/scan.py:logprob_ScanRV", "aeppl/scan.py:convert_outer_out_to_in"]}
{"id": "C83", "title": "Values for a part of a scan determine its log-probability", "statement": "When a value is given for a slice of a scan's output (e.g. everything except the initial values), the log-probability is that of the series made of the initial values and the given values, and depends on nothing else.", "quantifier": "for every slice, number of steps, initial values and given values", "why_tests_cant": "uninitialised memory; any slice", "anchors": ["aeppl/scan.py:update_scan_value_vars"]}
{"id": "C84", "title": "Variables derived from a shared source are not treated as independent", "statement": "Whenever joint_logprob returns for several variables, each an invertible elementwise function of a random variable without a value, exp of it is the joint density of these variables.", "quantifier": "for every number of variables, all sources, all compositions of elementwise functions and all values", "why_tests_cant": "joint laws over all values; any number of variables", "anchors": ["aeppl/transforms.py:construct_elemwise_transform", "aeppl/joint_logprob.py:conditional_logprob"]}
{"id": "C85", "title": "switching_process selects the component of the state", "statement": "switching_process(comps, states) has, at every place i, the entry at place i of the component whose number is states[i].", "quantifier": "for every number of components, every shape of the components and every series of states", "why_tests_cant": "shapes and numbers of components are unbounded", "anchors": ["aeppl/dists.py:switching_process"]}
{"id": "C86", "title": "Components selected several times are not treated as independent", "statement": "Whenever joint_logprob returns for a stack of independent scalar variables indexed by a vector of integers, exp of the sum of the log-probabilities is the joint density of the selected vector.", "quantifier": "for every number of components, all their distributions and all vectors of indices", "why_tests_cant": "joint laws over all values; any number of components", "anchors": ["aeppl/mixture.py:logprob_MixtureRV"]}
{"id": "C87", "title": "Scans with outputs that are not random", "statement": "In a scan with random and other outputs, every random output gets the log-probability computed at its own value, and an output that is not random needs no value.", "quantifier": "for every number and order of outputs and all values", "why_tests_cant": "any number and order of outputs", "anchors": ["aeppl/scan.py:logprob_ScanRV", "aeppl/scan.py:get_random_outer_outputs"]}
{"id": "C88", "title": "The log-probability of a mixture is the density given its index", "statement": "An indexed stack of random variables becomes a mixture exactly if all components are random variables without values, and then exp of its log-probability for the index i is the density of the mixture given that its index is i; with a value for the index, exp of the joint log-probability is the joint density of index and mixture.", "quantifier": "for every number of components, all laws of components and index, and all values", "why_tests_cant": "laws over all values; any number of components", "anchors": ["aeppl/mixture.py:mixture_replace", "aeppl/mixture.py:get_stack_mixture_vars", "aeppl/mixture.py:switch_mixture_replace"]}
{"id": "C89", "title": "Mixtures of the same components are not treated as independent", "statement": "Whenever joint_logprob returns for several mixtures of the same components, exp of it is their joint density given their indices.", "quantifier": "for every number of mixtures and components, all laws and all values", "why_tests_cant": "joint laws over all values", "anchors": ["aeppl/mixture.py:mixture_replace", "aeppl/joint_logprob.py:conditional_logprob"]}
{"id": "C90", "title": "Elementwise functions of arrays", "statement": "For elementwise functions of an array of random numbers, with parameters of any shape, every entry of the derived log-probability is the scalar one at that entry, and whenever joint_logprob returns, exp of it is the joint density of the transformed array.", "quantifier": "for every shape, every tower of functions, all parameters and values", "why_tests_cant": "all shapes and broadcasting patterns; densities over all values", "anchors": ["aeppl/transforms.py:measurable_elemwise_logprob", "aeppl/transforms.py:LocTransform", "aeppl/transforms.py:ScaleTransform"]}
{"id": "C91", "title": "Stacks of dependent variables", "statement": "Whenever a stack of random numbers gets a joint log-probability, exp of it is the joint density of the stacked variables.", "quantifier": "for every number of variables, all joint laws and all values", "why_tests_cant": "joint laws over all values", "anchors": ["aeppl/tensor.py:find_measurable_stacks", "aeppl/tensor.py:logprob_make_vector"]}
{"id": "C92", "title": "Clipping arrays", "statement": "The log-probability of an array of independent numbers clipped at (broadcast, possibly one-sided per entry) bounds is the log-density of the clipped array with respect to Lebesgue measure plus an atom at each bound; bounds in the wrong order raise.", "quantifier": "for all array laws, bound arrays and value arrays", "why_tests_cant": "laws of arrays with atoms, over all values", "anchors": ["aeppl/censoring.py:clip_logprob", "aeppl/censoring.py:find_measurable_clips"]}
{"id": "C93", "title": "Which derived variables have a density", "statement": "On graphs of random variables and elementwise operations, conditional_logprob returns if every variable with a value is a random variable, a sum or difference of normal variables without values (nested in any way), or a supported function with exactly one input that is so derived and has no value, while all other inputs follow from values given; otherwise it raises DensityNotFound. The order in which the rewriter visits the nodes makes no difference, and it always stops.", "quantifier": "for every graph, every choice of variables with values and every order of rewriting", "why_tests_cant": "all graphs and all schedules of the rewriter", "anchors": ["aeppl/transforms.py:construct_elemwise_transform", "aeppl/convolutions.py:add_independent_normals", "aeppl/rewriting.py:construct_ir_fgraph", "aeppl/joint_logprob.py:conditional_logprob"]}
{"id": "C94", "title": "Joint density of models with derived variables", "statement": "If every requested variable is a random variable or an invertible function of a random variable of its own, and everything else that they depend on follows from other requested variables, joint_logprob returns and exp of the result is the joint density of the requested variables under forward sampling of the model.", "quantifier": "for every model, all towers of functions, all distributions, all values and every order of rewriting", "why_tests_cant": "joint laws over all values, for all graphs", "anchors": ["aeppl/transforms.py:construct_elemwise_transform", "aeppl/transforms.py:measurable_elemwise_logprob", "aeppl/joint_logprob.py:joint_logprob", "aeppl/rewriting.py:construct_ir_fgraph"]}
{"id": "C95", "title": "Joint density of models with transformed values", "statement": "With TransformValuesRewrite, for every choice of transforms that are invertible with the right Jacobian term on the values that a variable can take (they may depend on the parameters of the variable), exp of joint_logprob is the joint density of the requested variables on their transformed scales under forward sampling; with use_jacobian=False it is the density without transforms at the values taken back. The value variables are returned in the order of the arguments. A transform for a variable without value raises KeyError; the first variable without density raises.", "quantifier": "for every model, all towers of functions, all distributions, transforms and values, every order of rewriting and of visiting the nodes", "why_tests_cant": "joint laws over all values and all orders", "anchors": ["aeppl/transforms.py:transform_values", "aeppl/transforms.py:_create_transformed_rv_op", "aeppl/rewriting.py:construct_ir_fgraph", "aeppl/joint_logprob.py:conditional_logprob"]}
{"id": "C96", "title": "Realized values are used when the variable has a transform", "statement": "The value given in realized is the value at which the joint log-density is computed, whether or not a transform is requested for the variable.", "quantifier": "for every model, all transforms and all values", "why_tests_cant": "all models and values", "anchors": ["aeppl/transforms.py:transform_values", "aeppl/joint_logprob.py:conditional_logprob"]}
{"id": "C97", "title": "Transformed values that are vectors", "statement": "For a vector of random numbers or a random vector with an elementwise transform of its value, exp of joint_logprob is the density of the transformed vector.", "quantifier": "for every length, all transforms, all laws and all values", "why_tests_cant": "laws of vectors over all values", "anchors": ["aeppl/transforms.py:transformed_logprob", "aeppl/transforms.py:transform_values", "aeppl/joint_logprob.py:joint_logprob"]}
{"id": "C98", "title": "Functions of variables with atoms", "statement": "For an elementwise function of a clipped or rounded variable (or of any variable with atoms), exp of the derived log-probability is the density of the function of the variable: probabilities at the images of the atoms, density elsewhere.", "quantifier": "for every tower of invertible functions, every law with countably many atoms and all values", "why_tests_cant": "laws with atoms over all values", "anchors": ["aeppl/transforms.py:measurable_elemwise_logprob", "aeppl/transforms.py:construct_elemwise_transform", "aeppl/censoring.py:clip_logprob", "aeppl/censoring.py:round_logprob"]}
{"id": "C99", "title": "Which variables with clipping, rounding and mixtures have a density", "statement": "On graphs of random variables, elementwise operations, clip, ceil/floor/round, switch and indexed stacks, conditional_logprob returns if every variable with a value is derived from random variables without values in a supported way (elementwise functions, clips and roundings are not applied to mixtures; rounding is applied to floating point variables; functions to no integer variables; sums and differences of several random inputs are possible if all of them are normal variables without values, or such sums) and what is clipped or rounded is a sum of normal variables or a random variable with a known CDF. It raises DensityNotFound for variables that are not so derived and NotImplementedError for a missing CDF. The order of rewriting makes no difference, and rewriting always stops.", "quantifier": "for every graph, every choice of variables with values and every order of rewriting", "why_tests_cant": "all graphs and all schedules of the rewriter", "anchors": ["aeppl/censoring.py:find_measurable_clips", "aeppl/censoring.py:construct_measurable_rounding", "aeppl/mixture.py:mixture_replace", "aeppl/mixture.py:switch_mixture_replace", "aeppl/transforms.py:construct_elemwise_transform", "aeppl/convolutions.py:add_independent_normals", "aeppl/rewriting.py:construct_ir_fgraph"]}
{"id": "C100", "title": "Joint density of models with clipping, rounding and mixtures", "statement": "If every requested variable is a random variable, an invertible function of one, a clipped or rounded one, an invertible function of slope 1 or -1 of a clipped or rounded one, or the entry of a stack of such variables selected by an index counted from the front, each with random variables of its own, and everything else that they depend on (parameters, bounds, indices, other inputs) follows from other requested variables, then joint_logprob returns and exp of the result is the joint density of the requested variables under forward sampling of the model, with respect to Lebesgue measure and unit atoms.", "quantifier": "for every model, all such compositions, all laws, every order of rewriting and all values", "why_tests_cant": "joint laws over all values and models of any size", "anchors": ["aeppl/joint_logprob.py:joint_logprob", "aeppl/rewriting.py:construct_ir_fgraph", "aeppl/censoring.py:clip_logprob", "aeppl/censoring.py:round_logprob", "aeppl/mixture.py:logprob_MixtureRV", "aeppl/transforms.py:measurable_elemwise_logprob"]}
{"id": "C101", "title": "Scans with hidden draws", "statement": "A scan gets a log-probability only if every variable that is drawn in its body, and that its outputs depend on, is itself an output of the scan; in every step the outputs are then determined by what the step reads and the outputs that are drawn. A scan whose outputs depend on nothing drawn is converted as well and its log-probability raises.", "quantifier": "for all bodies of scans, all draws and all inputs", "why_tests_cant": "all graphs", "anchors": ["aeppl/scan.py:find_measurable_scans"]}
{"id": "C102", "title": "Observed data and masks", "statement": "extract_obs_data of a variable made of a constant or shared array by assignments or increments at integer indices returns an array masked exactly at the entries assigned to, with the entries of the variable elsewhere; it raises TypeError for other variables.", "quantifier": "for all arrays, all indices and any number of nested assignments", "why_tests_cant": "all shapes, indices and depths", "anchors": ["aeppl/utils.py:extract_obs_data"]}
{"id": "C103", "title": "Definitions in the printed preamble", "statement": "The preamble printed for outputs defines every random variable that an output is or depends on through parameters and operations exactly once, defines nothing else, and defines it after the random variables that it depends on itself. Printing fails only if unnamed variables run out of letters or the shape information of a random variable contains a percent sign.", "quantifier": "for all graphs and all outputs", "why_tests_cant": "all graphs, sharing and depths", "anchors": ["aeppl/printing.py:process"]}
{"id": "C104", "title": "Text of definitions", "statement": "Every output is printed as one string used for it everywhere, named variables as their names; the preamble has the shape information of every other variable that an output depends on, and the definition of a random variable is its name, the distribution, the strings of its parameters and the space.", "quantifier": "for all graphs, names and outputs", "why_tests_cant": "all graphs and names", "anchors": ["aeppl/printing.py:process", "aeppl/printing.py:process_shape_info", "aeppl/printing.py:process_variable_name"]}
{"id": "C105", "title": "Transformed values of discrete variables and variables with atoms", "statement": "With a transform for the value of an integer variable, or of a clipped or rounded variable, exp of the transformed log-probability is the density of the transformed variable: probabilities at the images of the atoms, density elsewhere.", "quantifier": "for all invertible transforms, all laws with countably many atoms and all values", "why_tests_cant": "laws with atoms over all values", "anchors": ["aeppl/transforms.py:transformed_logprob", "aeppl/transforms.py:transform_values"]}
{"id": "C106", "title": "Joint density of models with array variables", "statement": "For a model of array-valued random variables (arrays of numbers with broadcast parameters, vectors of multivariate normal vectors, in any shapes and hierarchies), exp of joint_logprob at given values, summed over all entries of all terms, is the density of the law obtained by sampling the variables one after the other.", "quantifier": "for all models, shapes, broadcast parameters and values, requested or realized", "why_tests_cant": "a measure identity for every model and all shapes", "anchors": ["aeppl/joint_logprob.py:joint_logprob", "aeppl/joint_logprob.py:conditional_logprob", "aeppl/logprob.py:mvnormal_logprob"]}
{"id": "C107", "title": "Joint density of models with transformed array variables", "statement": "For a model of array-valued random variables some of which are transformed (entry by entry, or vectors on the simplex), exp of joint_logprob under TransformValuesRewrite, summed over all entries of all terms including the Jacobian terms, is the density of the transformed variables at the given values; without Jacobian terms it is the untransformed joint at the values transformed back; a transform for a variable that is not requested is a KeyError.", "quantifier": "for all models, shapes, broadcast parameters, assignments of transforms and values", "why_tests_cant": "a measure identity for every model, all shapes and all assignments of transforms", "anchors": ["aeppl/transforms.py:transform_values", "aeppl/transforms.py:TransformValuesRewrite", "aeppl/joint_logprob.py:joint_logprob", "aeppl/logprob.py:dirichlet_logprob"]}
{"id": "C108", "title": "Derived array variables in models", "statement": "For a variable of a model that is a tower of elementwise functions of an array of random variables, a cumulative sum of one along an axis, a clipped one, or an indexed stack of several (no element taken twice, indices not negative), with the parameters of the operation broadcast and possibly themselves random, exp of the sum of its log-probability array is the joint density of its entries, so that joint_logprob of the model is its joint density.", "quantifier": "for all shapes, towers, axes, bounds, indices and parameters", "why_tests_cant": "measure identities for arrays of every shape and towers of every height; entries of cumulative sums are dependent", "anchors": ["aeppl/transforms.py:measurable_elemwise_logprob", "aeppl/cumsum.py:logprob_cumsum", "aeppl/censoring.py:clip_logprob", "aeppl/mixture.py:logprob_MixtureRV"]}
{"id": "C109", "title": "Scans as variables of models", "statement": "For a scan with one random output (not recurrent, with lag one, or with symmetric lags), valued through the slice aesara.scan returns, in a model whose other variables may be its sequences (vectors) and non-sequences (scalars), exp of the sum of its log-probability terms is the density of the series drawn step by step from its initial values, whatever the memory of the padding contains, so that joint_logprob of the model is its joint density. The value of the scan that other variables are given is the user's value.", "quantifier": "for all numbers of steps, lags, sequences, step laws and models", "why_tests_cant": "arbitrarily many dependent steps; measure identities; uninitialised memory", "anchors": ["aeppl/scan.py:logprob_ScanRV", "aeppl/scan.py:update_scan_value_vars", "aeppl/joint_logprob.py:joint_logprob"]}
{"id": "C110", "title": "Log-probabilities at values that are not finite", "statement": "For valid parameters, the log-probability of every scalar distribution is -inf at plus and minus infinity, the log-CDF is 0 at plus infinity and -inf at minus infinity, and at NaN the result is NaN or -inf, never a finite number.", "quantifier": "for all parameter values of all scalar distributions", "why_tests_cant": "the parameter space is infinite and the special values are rarely tested; the result is NaN only in part of the parameter space", "anchors": ["aeppl/logprob.py:gamma_logprob", "aeppl/logprob.py:wald_logprob", "aeppl/logprob.py:gumbel_logprob", "aeppl/logprob.py:normal_logcdf", "aeppl/logprob.py:uniform_logcdf"]}
{"id": "C111", "title": "Integer variables clipped at real bounds", "statement": "For an integer-valued X and real bounds a < b the derived log-probability of clip(X, a, b) at every real value x is the log of P(clip(X, a, b) = x).", "quantifier": "for every base mass function and CDF, all real bounds a < b and all real values", "why_tests_cant": "bounds that are not integers are untested, and whether the CDF formula steps at integers only depends on the distribution", "anchors": ["aeppl/censoring.py:clip_logprob", "aeppl/logprob.py:poisson_logprob", "aeppl/logprob.py:geometric_logcdf"]}
{"id": "C112", "title": "Derived array variables on transformed scales", "statement": "When a transform that is invertible on the values of a derived array variable (a tower of elementwise functions, also on top of cumulative sums) is requested for it, the joint term is the density of the model with that variable on the transformed scale.", "quantifier": "for all shapes, towers, laws, transforms and models", "why_tests_cant": "towers, shapes and laws of any size in combination with the value rewriter", "anchors": ["aeppl/transforms.py:transform_values", "aeppl/transforms.py:transformed_logprob", "aeppl/transforms.py:measurable_elemwise_logprob", "aeppl/cumsum.py:logprob_cumsum"]}
{"id": "C113", "title": "Arrays of categorical variables", "statement": "For every array of probability vectors p of shape B + (K,) and every array of integer values whose shape broadcasts with B, the categorical log-probability has the broadcast shape, and at every position it is the log of the normalised probability of the value there (-inf outside 0..K-1).", "quantifier": "for all shapes, weights and arrays of values", "why_tests_cant": "ranks and shapes are unbounded; tests use a few fixed ones and skip the natural one of a value per vector", "anchors": ["aeppl/logprob.py:categorical_logprob"]}
{"id": "C114", "title": "Conversions of un-valued variables are undone", "statement": "After conditional_logprob has built its graph, a derived variable that has no value (and was rewritten to a measurable one on the way) is computed by the user's own graph again, from the values given for the other variables on their original scale, and no node put in by such a rewrite is left.", "quantifier": "for all graphs, all sequences of rewrites and transforms", "why_tests_cant": "the order of rewrites and the nodes left outside of the graph are internal to a mutable graph; tests check values for a few models with one such variable", "anchors": ["aeppl/rewriting.py:construct_ir_fgraph", "aeppl/rewriting.py:MeasurableConversionTracker.on_change_input"]}
{"id": "C115", "title": "Joined, stacked, shuffled and rounded arrays have their densities in whole models", "statement": "In a model of arrays, a variable made by joining independent measurable arrays along an axis, by stacking independent random numbers, by permuting, dropping and adding dimensions, or by rounding every entry, has a log-probability whose exponential is the joint density (for rounding: the probability of the integer array) of that variable, and such variables can be followed by further derivations and used as parameters of others.", "quantifier": "for all shapes, axes (also negative), numbers and lengths of pieces, dimension orders, rounding modes and base densities", "why_tests_cant": "the density of a joined or reordered array is a statement about a product measure on arrays of every shape; tests compare numbers for a few shapes", "anchors": ["aeppl/tensor.py:logprob_join", "aeppl/tensor.py:logprob_make_vector", "aeppl/tensor.py:logprob_dimshuffle", "aeppl/censoring.py:round_logprob"]}
{"id": "C116", "title": "Sums of arrays of normal variables", "statement": "The log-probability of a sum of two or more independent arrays of normal variables, or of a difference of two, of any shapes that can be broadcast together, has the shape of the sum, and every entry of it is the log-density of that entry of the sum. Jointly, its exponential is the density of the sum exactly when broadcasting repeats no entry of any of the arrays.", "quantifier": "for all numbers of summands, shapes, sizes given or not, means and positive standard deviations", "why_tests_cant": "whether the entries of a sum are independent cannot be seen from any of their values, and the tests only look at the parameters of the new variable", "anchors": ["aeppl/convolutions.py:add_independent_normals"]}
{"id": "C117", "title": "Batches of Markov chains", "statement": "Samples of discrete_markov_chain have the shape of the size, the batch axes that the parameters have together, and the number of steps. At every place they are a chain with the parameters that broadcasting puts there, as documented: the first state is drawn from gamma_0 and state t from row state[t-1] of Gammas[t]. Chains at different places are independent. Parameters that cannot be broadcast together are refused.", "quantifier": "for all sizes, batch shapes, numbers of steps and states, parameters and results of the draws", "why_tests_cant": "the tests draw a few chains, most of them deterministic; broadcasting, indexing by state and transposition are only tried on two or three shapes", "anchors": ["aeppl/dists.py:create_discrete_mc_op", "aeppl/dists.py:discrete_markov_chain"]}
{"id": "C118", "title": "Data types and infinite bounds in clipping", "statement": "The log-probability of a clipped discrete variable is the log of the probability that the clipped variable takes the value, whatever integer data type its draws have (signed or unsigned). A clip whose upper bound is below the lower bound is refused, also when the upper bound is minus infinity.", "quantifier": "for all data types, discrete base distributions with their log-CDFs, bounds, values", "why_tests_cant": "the tests clip one Poisson variable of type int64; unsigned types and infinite bounds are not tried", "anchors": ["aeppl/censoring.py:clip_logprob", "aeppl/censoring.py:find_measurable_clips"]}
{"id": "C119", "title": "Values of other shapes than the variable", "statement": "A log-probability is given only for values that have the shape of the variable's draws, with one factor for each independent entry; values of all other shapes are refused.", "quantifier": "for all sizes, shapes and parameters of array variables, for joined and stacked variables, and for values of all shapes", "why_tests_cant": "the tests always give values of the right shape", "anchors": ["aeppl/abstract.py:ValuedVariable", "aeppl/logprob.py:normal_logprob", "aeppl/logprob.py:mvnormal_logprob", "aeppl/tensor.py:logprob_join", "aeppl/tensor.py:logprob_make_vector"]}
{"id": "C120", "title": "Several sums of the same normal variables", "statement": "When the variables of a model are sums and differences of normal variables that have no values themselves, joint_logprob is the log-density of the joint law of the sums, also when they share normal variables.", "quantifier": "for all numbers of normal variables and of sums, all means and standard deviations, all choices of which variables occur in which sums (also several times), all values", "why_tests_cant": "the tests look at one sum at a time", "anchors": ["aeppl/convolutions.py:add_independent_normals", "aeppl/joint_logprob.py:joint_logprob"]}
{"id": "C121", "title": "Requested variables made in the same way", "statement": "Two requested variables that are different Python objects but were made by the same operation from the same inputs become one node: conditional_logprob then raises ValueError, it never binds two values to one density or drops one of them. All other requests of variables whose densities can be derived return, and the joint density is right when the variables share no random variables.", "quantifier": "for all graphs of random variables, elementwise functions, clipping, rounding and mixtures, all requests, all orders of rewriting", "why_tests_cant": "the tests have two copies of one clipped variable only", "anchors": ["aeppl/joint_logprob.py:conditional_logprob", "aeppl/rewriting.py:construct_ir_fgraph"]}
{"id": "C122", "title": "Basic indexing of stacks", "statement": "When arrays of random variables are stacked along a new axis and indexed by integers and slices, every element of the derived log-probability is the log-probability of the selected element of the selected component at its value, or the derivation declines.", "quantifier": "for all numbers and shapes of components, all integers and slices of the index tuple, all values", "why_tests_cant": "the tests index stacks by a single scalar or by arrays", "anchors": ["aeppl/mixture.py:mixture_replace", "aeppl/mixture.py:logprob_MixtureRV"]}
{"id": "C123", "title": "Sums of normal variables in models", "statement": "When a requested variable is a sum or difference, nested in any way, of normal variables without values, the log-probability term returned for it is the log-density of that variable given the values of the others; if it cannot be, no term is returned.", "quantifier": "for all graphs, nestings of sums and differences, parameters, requested variables, orders of rewriting and values", "why_tests_cant": "all graphs and nestings; the tests add up to three independent variables with constant parameters", "anchors": ["aeppl/convolutions.py:add_independent_normals", "aeppl/joint_logprob.py:conditional_logprob"]}
{"id": "C124", "title": "One term, given the draws left in it", "statement": "When a parameter, clipping bound or mixture index of a requested variable depends on random variables without values, these are drawn when the term is evaluated. Given the draws (and values that agree with them), the exponential of the term is the density of the requested variable.", "quantifier": "for all graphs of scalar variables made from random variables, invertible functions, clipping, rounding and stacks indexed by a variable, all requested variables, orders of rewriting, draws and values", "why_tests_cant": "all graphs and draws; the tests give values to everything that bounds and indices depend on, or use constants", "anchors": ["aeppl/censoring.py:find_measurable_clips", "aeppl/mixture.py:mixture_replace", "aeppl/joint_logprob.py:conditional_logprob"]}
{"id": "C125", "title": "Joint density of models with sums of normal variables", "statement": "When the requested variables are random variables, sums and differences of normal variables, and invertible functions, clipped or rounded values and selected entries of stacks of these, no random variable belongs to two of them, and everything else they depend on follows from other requested variables, exp(joint_logprob) is the joint density of the requested variables under forward sampling.", "quantifier": "for all such graphs of scalar variables, orders of rewriting, orders of the requested variables and values", "why_tests_cant": "all nestings and dependencies; the tests check one sum of two or three variables at a time", "anchors": ["aeppl/convolutions.py:add_independent_normals", "aeppl/joint_logprob.py:joint_logprob"]}
{"id": "C126", "title": "Indexed arrays of random numbers", "statement": "For an array of independent random numbers indexed with slices, newaxis and integers or integer arrays (which may be computed from other variables), exp(joint_logprob) is the joint density of the selected elements; when several requested variables are parts of one array, exp(joint_logprob) is the joint density of all of them.", "quantifier": "for all arrays, indices, parameters and values, and any number of parts", "why_tests_cant": "all indices into arrays of any shape; the tests compare the log-probability with the same lifted parameters and never check a joint density of elements selected twice", "anchors": ["aeppl/mixture.py:rv_pull_down", "aeppl/joint_logprob.py:joint_logprob"]}
{"id": "C127", "title": "Reading printed expressions", "statement": "The text pprint and latex_pprint print for an expression of sums, products, matrix products, conjunctions, disjunctions and comparisons, read with the usual precedences, stands for that expression, so different expressions are not printed alike.", "quantifier": "for all expressions of any depth and number of operands, as text and in LaTeX", "why_tests_cant": "all expressions; the tests compare a few printed texts with expected ones and none has a comparison inside another operation", "anchors": ["aeppl/printing.py:PreamblePPrinter", "aeppl/printing.py:RandomVariablePrinter"]}
{"id": "C128", "title": "Joint log-probability depends only on the values given", "statement": "Two calls of joint_logprob that give the same variables the same values, in any order of the arguments and with any of them passed in realized instead, return graphs of the same value, or both raise; and so do the terms of conditional_logprob.", "quantifier": "for all models, all requests, all permutations of the arguments, all divisions into arguments and realized values and all values", "why_tests_cant": "all models, permutations and values; the tests use one order per model", "anchors": ["aeppl/joint_logprob.py:conditional_logprob", "aeppl/joint_logprob.py:joint_logprob", "aeppl/rewriting.py:construct_ir_fgraph"]}
{"id": "C129", "title": "Terms are local and separate parts add up", "statement": "The term of a variable depends only on its own value, the values of the variables met first on the way back from it and the inputs: requesting or valuing other variables does not change it. If no variable of one request is requested in, or met on the way back from, the other, joint_logprob of both together returns exactly if it does for each, and is then the sum of the two.", "quantifier": "for all models, all requests, all pairs of separate requests, all values and all inputs", "why_tests_cant": "all models and all other variables that could be requested; the tests request one fixed set per model", "anchors": ["aeppl/joint_logprob.py:conditional_logprob", "aeppl/joint_logprob.py:joint_logprob", "aeppl/rewriting.py:construct_ir_fgraph"]}
{"id": "C130", "title": "Realized values give the conditional density", "statement": "If every variable of the model is requested or realized, exp of joint_logprob(*rvs, realized=r), as a function of the values of rvs, is the density of the conditional distribution of rvs given that the realized variables have the values in r.", "quantifier": "for all models, all divisions into requested and realized variables, all values and all functions of the variables", "why_tests_cant": "a statement about conditional distributions for every model; tests compare single numbers", "anchors": ["aeppl/joint_logprob.py:joint_logprob"]}
{"id": "C131", "title": "logprob agrees with conditional_logprob", "statement": "logprob(X, x) of a variable X of the model is the term of X in conditional_logprob, evaluated with the draws of X's parents equal to the values that conditional_logprob gives them.", "quantifier": "for all models, requests, variables and values", "why_tests_cant": "the two results are graphs over different variables; agreement for all models cannot be sampled", "anchors": ["aeppl/logprob.py:logprob", "aeppl/logprob.py:_logprob", "aeppl/logprob.py:valued_variable_logprob"]}
{"id": "C132", "title": "Names of log-probabilities and values", "statement": "The log-probability of a variable named X is named X_logprob, its value variable X_vv, and its value variable on a transformed scale X_vv-trans.", "quantifier": "for all models, requests, names and transforms", "why_tests_cant": "names depend on which rewrites apply to a variable, and there are unboundedly many models", "anchors": ["aeppl/joint_logprob.py:conditional_logprob", "aeppl/rewriting.py:construct_ir_fgraph", "aeppl/mixture.py:mixture_replace", "aeppl/transforms.py:transform_values"]}
{"id": "C133", "title": "Variables without value are averaged out", "statement": "Averaged over the draws of the random variables that are neither requested nor realized, made given the values of the others, exp of joint_logprob is the density of the variables that have a value: integrating it against any function of their values gives that function's expectation when the whole model is sampled. It is also exp of joint_logprob of all variables, integrated over the variables without value.", "quantifier": "for all models whose variables are random variables (deterministic functions between them included), all requests and realized values, all samplers and all functions of the values", "why_tests_cant": "a statement about the distribution of a random result, for every model; tests compare single numbers", "anchors": ["aeppl/joint_logprob.py:joint_logprob", "aeppl/joint_logprob.py:conditional_logprob", "aeppl/rewriting.py:construct_ir_fgraph"]}
{"id": "C134", "title": "All distributions, in any model", "statement": "For every distribution of numbers in the library, and for multivariate normal, Dirichlet, multinomial and categorical variables, and all parameters in range, exp of logprob is the density (or mass function) of the distribution that the random variable is drawn from, with -inf off the support; and exp of joint_logprob of any model made of them - with parameters that depend on other variables, transformed, clipped, rounded, mixed and realized variables, or arrays - is the joint density of the model's variables.", "quantifier": "for all 31 distributions, all parameters in range, all models whose reachable parameters are in range, all array shapes, all values", "why_tests_cant": "Each distribution has its own parameterisation (scale or rate, number of failures or trials); a test compares a few points per distribution and cannot reach every model that combines them.", "anchors": ["aeppl/logprob.py:_logprob", "aeppl/logprob.py:_logcdf", "aeppl/joint_logprob.py:joint_logprob", "aeppl/joint_logprob.py:conditional_logprob"]}
{"id": "C135", "title": "Calls of logcdf and icdf", "statement": "logcdf(rv, x) evaluates to the log of the probability that rv is at most x, and icdf(rv, q), for 0 < q < 1, to the least number that rv does not exceed with probability q. They are defined for exactly the random variables with a registered implementation (uniform, normal, Poisson and geometric; normal and geometric) and raise NotImplementedError for every other variable made by an operation, among them variables with a given value and clipped, rounded, transformed or mixed ones. The results are named X_logcdf and X_icdf after a variable with a non-empty name X.", "quantifier": "for all distributions, all parameters in range, all x and q, all variables and names", "why_tests_cant": "Quantiles of discrete variables and values between integers are the edge cases of these calls; tests check a few integers and interior parameters.", "anchors": ["aeppl/logprob.py:logcdf", "aeppl/logprob.py:icdf", "aeppl/logprob.py:geometric_logcdf", "aeppl/logprob.py:geometric_icdf"]}
{"id": "C136", "title": "Default transforms give densities on the whole line", "statement": "When TransformValuesRewrite asks for the default transform of variables of a model made of the library's distributions, the exponential of joint_logprob is the joint density of the draws on the transformed scales, and every continuous random variable for which the default was asked takes all real numbers as values: samplers that move freely on the line (such as HMC) see a density of total mass one, without holes or edges.", "quantifier": "for all models of random variables of the library and invertible functions of them, or of arrays of random variables of any shape (numbers, vectors and categories), all parameters in range, all sets of variables with default transforms, all orders of the arguments, all runs of the rewriters", "why_tests_cant": "A wrong bound or transform of one distribution shows only as missing or infinite mass, which no pointwise comparison of log-probabilities sees; models nest parameters, so the bounds are themselves random.", "anchors": ["aeppl/transforms.py:_create_transformed_rv_op", "aeppl/transforms.py:TransformValuesRewrite", "aeppl/transforms.py:IntervalTransform", "aeppl/joint_logprob.py:joint_logprob"]}
{"id": "C137", "title": "Different ways of writing a function of a variable agree", "statement": "A function applied to a random variable and then undone gives the log-probability of the variable itself, and two ways of writing the same function (X - a and X + (-a), a - X and a + (-1)*X, one sum of three terms and two nested ones, X / a and X * (1/a), and so on) give the same log-probability and the same errors.", "quantifier": "for all random variables with any log-probability, all real constants and all real values", "why_tests_cant": "equality for every base log-probability and every value; tests compare single towers with closed formulas", "anchors": ["aeppl/transforms.py:measurable_sub", "aeppl/transforms.py:measurable_true_divide", "aeppl/transforms.py:measurable_elemwise_logprob", "aeppl/transforms.py:construct_elemwise_transform"]}
{"id": "C138", "title": "Functions of library variables agree with the library's own distributions", "statement": "When a function of a random variable of one family is distributed as another family of the library, the derived log-probability equals the library's own: a + c*X for location-scale families, c*X for families of positive numbers, 1 - Beta, -VonMises, exp(Normal) = LogNormal, log(LogNormal) = Normal, log(Pareto), exp(Exponential) = Pareto, -log(Exponential) = Gumbel, -log(Uniform) = Exponential, 1/Gamma = InverseGamma, 1/LogNormal, 1/Cauchy.", "quantifier": "for all parameters, constants and real values", "why_tests_cant": "equality of two functions on the whole line for every parameter; tests compare exp(Normal) with LogNormal at a few points", "anchors": ["aeppl/transforms.py:measurable_elemwise_logprob", "aeppl/transforms.py:construct_elemwise_transform", "aeppl/logprob.py:lognormal_logprob", "aeppl/logprob.py:gamma_logprob", "aeppl/logprob.py:invgamma_logprob"]}
{"id": "C139", "title": "Distributions that are special cases of one another agree", "statement": "Where one distribution of the library is a special case of another, the two log-probabilities are equal: Gamma(1, s) and ChiSquare(2) are Exponential, Beta(1, 1) is Uniform, Weibull(1) is Exponential, Student's t with one degree of freedom is Cauchy, Binomial(1, p), BetaBinomial(1, a, b) and one hypergeometric draw are Bernoulli, NegativeBinomial(1, p) is Geometric less one, a categorical variable with two categories is Bernoulli, a multinomial one with two is Binomial, a Dirichlet vector of two entries is Beta, a normal vector of one entry is Normal.", "quantifier": "for all parameters and all values", "why_tests_cant": "equality at every value and parameter of formulas written separately; tests compare each distribution with scipy at a few points", "anchors": ["aeppl/logprob.py:gamma_logprob", "aeppl/logprob.py:chisquare_logprob", "aeppl/logprob.py:beta_logprob", "aeppl/logprob.py:studentt_logprob", "aeppl/logprob.py:binomial_logprob", "aeppl/logprob.py:nbinom_logprob", "aeppl/logprob.py:hypergeometric_logprob", "aeppl/logprob.py:categorical_logprob", "aeppl/logprob.py:multinomial_logprob", "aeppl/logprob.py:dirichlet_logprob", "aeppl/logprob.py:mvnormal_logprob", "aeppl/logprob.py:weibull_logprob"]}
{"id": "C140", "title": "Different ways of writing a series of random numbers agree", "statement": "A vector of random numbers, the stack of the numbers drawn one by one, the concatenation of its pieces and a scan that draws one entry per step have the same log-probability terms; so have a + cumsum(eps) and a scan that starts at a and adds eps in each step, and a + cumsum(normal(drift, sigma)) and a scan that draws from normal(x + drift, sigma).", "quantifier": "for all numbers of entries, distributions, parameters, initial values and values", "why_tests_cant": "equality of five implementations (array broadcasting, make_vector, join, scan, cumsum) for every length, distribution and value; tests check each against scipy at a few sizes", "anchors": ["aeppl/tensor.py:logprob_make_vector", "aeppl/tensor.py:logprob_join", "aeppl/scan.py:logprob_ScanRV", "aeppl/cumsum.py:logprob_cumsum", "aeppl/transforms.py:measurable_elemwise_logprob"]}
{"id": "C141", "title": "Different ways of writing a Markov chain agree", "statement": "discrete_markov_chain(Gammas, gamma_0) started in a known state, and a scan that starts at this state and draws the next state with categorical(Gammas[t, state]) in step t, have the same log-probability terms. If all rows of all matrices are equal, the chain has the log-probability of a vector of categorical variables.", "quantifier": "for all numbers of states and steps, transition matrices and sequences of states", "why_tests_cant": "equality of three implementations (discrete_mc_logp, scan, categorical) for every length, number of states and matrix; tests check each against a hand-written loop at a few sizes", "anchors": ["aeppl/logprob.py:discrete_mc_logp", "aeppl/logprob.py:categorical_logprob", "aeppl/scan.py:logprob_ScanRV", "aeppl/dists.py:discrete_markov_chain"]}
{"id": "C142", "title": "Different ways of writing a censored variable or a mixture agree", "statement": "clip has the same log-probability whether a bound is a constant or an expression, and whether a bound that does not matter is the variable itself or infinite; without bounds, and strictly between the bounds, it is the log-probability of the variable. floor at k, ceil at k+1 and rounding X+1/2 to the nearest integer at k+1 agree. Mixtures with reordered or repeated components, switch(c, X, Y) and switch(1-c, Y, X), switch(c, X, Y) and stack([Y, X])[c], and scalar and array indices agree.", "quantifier": "for all base variables, bounds, components, indices and values", "why_tests_cant": "equality of different graphs for every base log-probability and log-CDF, every bound and index; tests compare single forms with references", "anchors": ["aeppl/censoring.py:clip_logprob", "aeppl/censoring.py:find_measurable_clips", "aeppl/censoring.py:round_logprob", "aeppl/mixture.py:logprob_MixtureRV", "aeppl/mixture.py:switch_mixture_replace"]}
{"id": "C143", "title": "Parameters in printed definitions", "statement": "In the definition of a random variable that pprint prints, the text of a parameter stands for the parameter: a parameter that is a number is printed as the nearest number with six significant digits, which is the number itself if it has no more, names and other texts are printed as they are, and the standard deviation of a normal variable is printed exactly, with a square.", "quantifier": "for all texts and all decimal numbers", "why_tests_cant": "reading and rounding of every decimal number and of every text; tests print a few short constants", "anchors": ["aeppl/printing.py:RandomVariablePrinter", "aeppl/printing.py:NormalRVPrinter"]}
{"id": "C144", "title": "LaTeX texts of quotients, roots, powers and negations", "statement": "The LaTeX text that latex_pprint prints for an expression with operators, comparisons, negations, quotients, roots and powers stands for one expression only: expressions with the same text are the same.", "quantifier": "for all expressions", "why_tests_cant": "all nestings of all operators; tests print a few expressions and compare the texts", "anchors": ["aeppl/printing.py:latex_pprint"]}
{"id": "C145", "title": "Lines of the preamble", "statement": "A line of the preamble printed by pprint or latex_pprint tells the shape of its variable: two shape lines, or two definitions of random variables, whose names have no blanks are the same text only if the variables have the same printed name, the same kind of numbers (signed integers, unsigned integers, real numbers, others) and the same shape, with the same axes of known length and the same of unknown length.", "quantifier": "for all names without blanks, all types, all shapes, all distributions and parameters, plain and LaTeX", "why_tests_cant": "all texts of names and all shapes with any number of axes; tests compare a few printed strings", "anchors": ["aeppl/printing.py:VariableWithShapePrinter.process_shape_info", "aeppl/printing.py:RandomVariablePrinter.process"]}
{"id": "C146", "title": "Order of the arguments with transformed values", "statement": "Two calls of joint_logprob with TransformValuesRewrite that give the same variables the same values on the same transformed scales, with the arguments in different orders or passed in realized, return graphs of the same value.", "quantifier": "for all models, all orders of the arguments, all transforms and values", "why_tests_cant": "all models and all orders; the repository tests transforms in one order of the arguments each", "anchors": ["aeppl/transforms.py:transform_values", "aeppl/rewriting.py:construct_ir_fgraph", "aeppl/joint_logprob.py:conditional_logprob"]}
{"id": "C147", "title": "Realized values computed from other variables", "statement": "If the value given for a variable in realized is an expression of other variables of the model, joint_logprob is the joint log-probability at the number that the expression has when the variables with values have these values.", "quantifier": "for all models, all requests, all expressions given as values, all values", "why_tests_cant": "the repository tests one expression, 2 * y of a variable that is not in the model, and looks at the inputs of the graph only", "anchors": ["aeppl/rewriting.py:construct_ir_fgraph", "aeppl/joint_logprob.py:joint_logprob", "aeppl/joint_logprob.py:conditional_logprob"]}
{"id": "C148", "title": "Keyword arguments reach the distributions", "statement": "Extra keyword arguments of conditional_logprob, joint_logprob and logprob are handed to the log-probability and log-CDF functions of every distribution that the variables are made from, however the variables are made; use_jacobian and warn_missing_rvs are for aeppl itself.", "quantifier": "for all variables, all distributions and functions registered for them, all arguments, all values", "why_tests_cant": "the repository tests pass use_jacobian and warn_missing_rvs only; no test has a distribution with an argument of its own", "anchors": ["aeppl/logprob.py:logprob", "aeppl/logprob.py:logcdf", "aeppl/joint_logprob.py:conditional_logprob", "aeppl/cumsum.py:logprob_cumsum", "aeppl/mixture.py:logprob_MixtureRV", "aeppl/tensor.py:logprob_make_vector", "aeppl/tensor.py:logprob_join", "aeppl/tensor.py:logprob_dimshuffle", "aeppl/scan.py:logprob_ScanRV"]}
{"id": "C149", "title": "Transforms of other calls and classes", "statement": "Transforms requested for values in one call, in any number of calls, change neither the log-probability of any variable nor what any later request for its value gives; every request, with a given or the default transform, gives the variable's own log-probability at the value taken back plus the Jacobian term.", "quantifier": "for all classes of variables and functions registered for them, all sequences of requests and of classes derived by users", "why_tests_cant": "tests make each transformed class once in a fresh process; no test has a class derived from one with a default transform", "anchors": ["aeppl/transforms.py:_create_transformed_rv_op", "aeppl/transforms.py:_default_transformed_rv", "aeppl/transforms.py:transform_values"]}
{"id": "C150", "title": "Partially observed variables in models", "statement": "In a model with array variables some of which are partially observed (at.set_subtensor(Y[idx], data)), every term is the log-probability at the values with the data put in at the observed entries, also where such a variable is a parameter of another one, and what is passed at the observed entries has no effect.", "quantifier": "for all models, numbers of variables, shapes, data, sets of requested and realized variables, and values", "why_tests_cant": "tests observe one variable at a time, none of which is a parameter of another variable", "anchors": ["aeppl/rewriting.py:incsubtensor_rv_replace", "aeppl/rewriting.py:construct_ir_fgraph", "aeppl/joint_logprob.py:conditional_logprob"]}
