# Formal model of aeppl: design

Target: `/repo/aeppl` (Aesara probabilistic programming library).  The code is read as text only.
Everything machine-checked lives in `lean/Verif`.

## 1. Shape of the model

The library turns a graph of random variables into log-density graphs.  It has three kinds of code,
each modelled at the level at which its behaviour is decided:

| layer | code | Lean model |
|---|---|---|
| numbers | formulas in `logprob.py`, `transforms.py`, `censoring.py`, `mixture.py` | functions on `FVal` (`Verif/Model/FVal.lean`): real numbers extended with `nan`, `-inf`, `+inf`, IEEE rules for the special values, exceptions as `Except` |
| arrays | `tensor.py`, `cumsum.py`, `mixture.py`, `scan.py`, index handling | lists / functions on index lists with explicit shapes |
| graphs and bookkeeping | `joint_logprob.py`, `rewriting.py`, `utils.py`, `abstract.py`, `printing.py` | association lists with Python `dict` semantics, explicit graphs with node identities, expression trees |

Directory layout (`lean/Verif`):

* `Model/` - transcriptions of the code, one file per area, each definition citing file and lines.
* `Spec/`  - small specifications that do not mention the model (laws as Mathlib measures, mass functions,
  NumPy index semantics, reachability, ...).
* `Lemmas/` - helper lemmas.
* `Props/` - the property theorems `Cnn_...`, each with an `example` showing its hypotheses can be met.

### `FVal`: what the numeric model keeps and drops

Kept: `nan`, `-inf`, `+inf` and how they travel through `+ - * / log exp pow switch` and comparisons
(comparison with NaN is false, `0*inf = nan`, `inf-inf = nan`, `x/0 = +-inf`, `0/0 = nan`, `log 0 = -inf`,
`log(negative) = nan`), evaluation of both branches of `switch`, `CheckParameterValue` raising.
Dropped: rounding error, overflow/underflow of finite results, and the sign of zero (there is one zero and `1/0 = +inf`).

Array-valued formulas are elementwise, so a density formula is modelled on scalars; arrays are lists of
broadcast elements and an array evaluation is `mapM` of the scalar kernel in `Except` (`at.all(check)` fails iff one element fails).

## 2. Trusted base

* Lean 4.33 kernel; Mathlib; the axioms `propext`, `Classical.choice`, `Quot.sound` (checked with `#print axioms`
  for every property theorem).  No other axiom, no `sorry`, no `native_decide`, no `bv_decide`.
* The transcriptions in `Model/` (checked by reading only; the code is never run).
* Aesara/NumPy behaviour taken from their documentation, because the dependency sources are not available:
  * scalar functions: `switch`, `clip`, `log1mexp`, `logaddexp`, `isclose`, `round` (half to even);
  * arrays: broadcasting (`bshape`, `project`, `Arr.op2` in `Model/Nd`, `Model/ElemwiseArray`), `diff`, `cumsum`, `take`, `split`, `concatenate`, `stack`,
    `DimShuffle` and its argument checks, `set_subtensor`/`inc_subtensor`, basic and advanced indexing (`npSelect`, `get_canonical_form_slice`, `is_basic_idx`),
    `at.empty` (arbitrary content);
  * graphs: `walk`, `clone_replace`/`replace_all`, `FunctionGraph.replace`, `singledispatch`, `Subtensor.idx_list`, and that canonicalisation and
    merging preserve the meaning of expressions; `in2out` visits the outputs of a `FunctionGraph` in their order, each after the nodes below it, and canonicalization merges nodes that are equal with equal inputs
    (which `ValuedVariable` node is transformed, C95, C107, C146); `Variable.clone` has no owner, `copy` has one (C147);
  * `Scan`: one step reads the sequences at its step and the recurrent outputs at `t + tap` (`stepEnv`, `run` in `Model/Scan`);
  * Python: `functools.singledispatch` along one line of base classes (C149); insertion-ordered dictionaries, shallow copies, exceptions; different functions have different hashes (C76).
* Special functions are their mathematical definitions: `gammaln x = log |Gamma x|`, `erfc`, `erfcx`, `i0`,
  `gammaincc`; `erfcinv` is the inverse of `erfc`.
* Random generation: a random variable is modelled by its law (a measure); `size`, parameters and independence of the draws of one `RandomVariable` are as documented.

## 3. Per property: model, method, outcome

Outcomes: *proved* = the full statement; *partial* = the statement as a user would read it is false of this code (or proved on a part only).
In the first case the negation is proved with a witness (theorems with `_wrong`, `_raises`, `_nan`, ... in their names) and the claim is proved on the largest natural
sub-domain (`_partial`).  `MANIFEST.json` lists the theorems.

### Core API (C01-C08, C80)
Model: `Model/CondLogprob.lean` transcribes `conditional_logprob`/`joint_logprob` (dict merge, grouping by node,
length checks, zip pairing), with graph conversion and `_logprob` as parameters; `Model/Graph.lean` is an expression-tree
model of model graphs with `construct_ir_fgraph`'s substitution of valued variables.

* C01, C02, C06, C80 proved by induction over the grouping loop, for every conversion and every per-node log-probability.
  C06 (`Props/CoreOutcome.lean`): the first incomplete node decides which error is raised, and a result is returned exactly if there is none.
* C03, C04, C05 partial: false for nodes with several outputs (scan) whose outputs are requested in another order (`*_scan_order_wrong`).
* C07 proved by a substitution lemma (induction on expressions) and on top of it the pipeline.
* C08 proved: sampler semantics as iterated kernels; Tonelli by induction on the list of variables.

### Distributions (C09-C42, C110, C113, C117, C134, C139)
* C117 (`Model/MarkovSampler.lean`, `Props/MarkovSampler.lean`): `discrete_markov_chain` and the function that `create_discrete_mc_op` scans, on arrays of any shape: the broadcasting of the parameters, the
  indexing `Gammas[..., state, :]` with `at.ogrid`, the scan and the final transposition.  The categorical draws are a function of the number of the call, the place and the probabilities.  Every place holds a
  single chain with the parameters broadcasting puts there (`C117_batch_partial`), and if the draws are independent the whole array has the product of the laws of the single chains (`C117_law`;
  `source_exists` shows that such draws exist).  **Finding:** the first state returned is not drawn from `gamma_0` as documented but one transition later (`C117_documented_wrong`).
Each formula is transcribed to `FVal`; each theorem says: for accepted parameters evaluation does not raise, is not NaN,
and `withDensity (exp logprob)` (or the mass function) *equals an independently defined law*: a Mathlib measure
(`gaussianReal`, `gammaMeasure`, `expMeasure`, `paretoMeasure`, `betaMeasure`, ...), the image of one under the defining map
(log-normal, half-normal, Weibull, Gumbel, inverse gamma, Dirichlet from Gammas, multivariate normal from a factor of the covariance, ...), or a textbook mass
function with sum one.

Refutations: gamma accepts scale 0 (C19); Weibull NaN at 0 for shape 1 (C23); triangular NaN at value = c = upper (C25); negative binomial switches to a Poisson mass above
1e10 (C32); Student-t accepts scale 0 and any df (C35); categorical raises IndexError for out-of-range values (C36); Dirichlet does not check the sum and is -inf on
the boundary (C38); multinomial accepts negative p (C39); the Markov chain is off by one for time-varying transition matrices (C41), and negative numbers are taken as states counted from the end (`C41_markov_negative_wrong`).

C113 (`Model/ArrCategorical.lean`) follows `categorical_logprob` on arrays of any rank step by step: normalisation along the last axis, the padding of the value or of the probabilities, the move of the
last axis to the front, `take_along_axis`, the mask and the check.  When the value has no more axes than the batch of vectors - one value for each vector - the result has an extra leading axis of length
one (`C113_extra_axis_wrong`); sums over it, hence joint log-probabilities, are right (`C113_model`).  `C39_model_partial` does the same for arrays of multinomial vectors.  Trusted: the NumPy rules of
`take_along_axis` and of integer indexing.
C42: decision logic over all `FVal` parameters, lifted to arrays (`ArrayEval`); partial because of the missing checks (`C42_unchecked`).
C110 (`Spec/NonFinite.lean`, `Props/NonFinite.lean`): the values at `±inf` and NaN, with the IEEE rules of `FVal`.  Partial: `inf - inf` and `0 * inf` make it NaN at infinity for
gamma and Weibull with shape at least one, chi-square, Wald, Poisson with mean at least one, negative binomial, and at minus infinity for Gumbel and logistic; each answer is proved exactly.
`gammaincc` at infinite arguments is not modelled, so nothing is said about the Poisson log-CDF at infinity.

* **C134** `Model/Library.lean` has the tables `_logprob`, `_logcdf` and `_icdf` of all 27 distributions of numbers, with their parameters in the order in which the code unpacks them, and their data types; `Spec/Library.lean` has
  their laws, supports and the parameters in range.  `C134_densities` collects the theorems of this section into one statement over the table; `C134_joint_density` and `C134_arrays_joint_density` put it into the joint density theorems
  C100 and C106, so that only the parameters' ranges are left as hypotheses.  `Props/LibraryDemo.lean` shows that models with several distributions meet them.
  `Model/VecLibrary.lean` and `Spec/VecLibrary.lean` add the distributions of vectors and categories (arrays of multivariate normal, Dirichlet and multinomial vectors, arrays of categories); `C134_vectors` collects C36-C39 and their
  array versions, `C134_vectors_joint_density` has models that mix them with arrays of numbers.  `Props/VecLibraryDemo.lean`: a mixture model with any number of observations.
- **C139** (`Props/SpecialCases.lean`, lemmas in `Lemmas/SpecialCases.lean`): pairs of formulas of Model/Dists and Model/VecDists.  The discrete ones follow from the mass functions of C28-C34, C39 and the fact that a log-probability without NaN is
  determined by its exponential.  False at zero for Weibull(1), at the edge of the simplex and away from the categories (`C139_weibull_wrong`, `C139_dirichlet_wrong`, `C139_categorical_wrong`).

### CDFs and quantiles (C43-C48, C135)
Proved.  C43 defines `erfc` by integrals and links both branches with the Gaussian CDF. C45 by induction on the incomplete gamma function.
C46, C48 geometric sums and monotonicity. C47 by bijectivity of the CDF.

* **C135** `logcdfCall`, `icdfCall` in `Model/Library.lean`: the calls with dispatch, errors and names; `Spec/LibraryCalls.lean`: quantiles as least elements.  Two negations: `geometric_logcdf` does not round its value down, so between
  integers it is not the distribution function (`C135_geometric_logcdf_wrong`), and `geometric_icdf` gives 0 at `p = 1`, where the variable is always 1 (`C135_geometric_icdf_wrong`).

### Transforms and graph conversion (C49-C58, C84, C90, C93-C100, C105-C108, C112, C114, C121, C124, C125, C128, C129, C130, C131, C132, C133, C136, C137, C138, C146, C147, C148, C149, C150)
* C136 (`Model/LibraryDefaults.lean`, `Spec/LibraryDefaults.lean`, `Props/LibraryDefaults.lean`) partial: C95 with the registered default transforms and the laws of C134.  `C136_transforms_partial` and `C136_no_transform`: one case per
  distribution, from C49 and C50; `C136_joint_density_partial` then replaces the ranges of C95 by the whole line (`valid_lines`, induction over the variables).  `C136_mass` gives the mass that reaches the line when a transform
  does not fit.  **Findings:** Pareto variables lose mass if the shape is larger than the scale (`C136_pareto_mass`), half-Cauchy variables if the location is negative (`C136_halfcauchy_mass`), von Mises variables have infinite mass
  (`C136_vonmises_infinite`).  Arrays: `C136_array_partial` (entry by entry, from `C107_entrywise` and `C134_arrays`) and `C136_arrays_joint_density_partial` (from `C107_joint_density_partial`); example `Props/LibraryDefaultsArrDemo.lean`.
  Vectors: `C136_vectors_partial` (Dirichlet variables have the simplex transform, from `C107_simplex`) and `C136_vectors_joint_density_partial`; example `Props/VecLibraryDemo.lean`.
- **C137** (`Spec/SameVariable.lean`, `Props/SameVariable.lean`): agreement of derived log-probabilities (`derivedLogprob` of Model/Elemwise) on a set of real numbers, errors included.  Undoing a function and rewriting it as
  another tower give the same log-probability, for every base log-probability.  False at negative values of reciprocals (`C137_reciprocal_wrong`).
- **C138** (`Props/SameLibrary.lean`, lemmas in `Lemmas/SameLibrary.lean`): towers over the formulas of Model/Dists against the formulas of other distributions of the same file.  False at values that the exponential or reciprocal
  does not take or takes with the other sign (`C138_exponential_wrong`, `C138_reciprocal_wrong`).
* C133 (`Spec/Marginal.lean`, `Props/Marginal.lean`) proved, on `Model/Graph.lean`: `sampleE` over the variables without value, the others having their values, is the average over the draws.  That the graph asks the samplers for
  draws at the parameters computed from the values given is part of the proof (`evalGiven_draws`: a sampler may answer anything at other parameters).  Induction over the variables in dependency order turns draws into integrals (`sampleE_free`), also where
  the values given have density zero and parameters are invalid; Tonelli's theorem orders the integrals (`C133_marginal`).
  `Spec/ArrMarginal.lean`, `Props/ArrMarginal.lean` prove both for array variables on `Model/ArrGraph.lean` (`C133_arrays_average`, `C133_arrays_marginal`); there values on null sets may give invalid parameters, as the
  scale 0 in the eight-schools model of the examples.  The same file has `C130_arrays_partial`.
  `Spec/FullMarginal.lean`, `Props/FullMarginal.lean` prove the average for models with functions, clipping, rounding and mixtures on `Model/Full.lean` (`C133_functions_average`): `drawE` draws the variables without value given
  the values of all others.  There is no marginal theorem for these: the measure against which a clipped variable or a mixture has its density may itself depend on a variable without value.
* C131 (`Model/Names.lean`, `Spec/Names.lean`, `Props/Names.lean`) partial: `logprob` called by the user, on the graph as written, without conversion.  Its result has random parameters; it is compared with the term of
  `conditional_logprob` for draws that equal the values given (`DrawsAgree`).  The induction is over the expression (`eval_given`).  **Finding:** `logprob` raises `NotImplementedError` for every function of random variables
  (`C131_function_wrong`).
* C132 (same files) partial: the names of terms and values next to the model of graph conversion (`conditionalNamed`).  Which rewrite converted a node follows from `Derived`, so the four theorems cover every variable for which
  there is a term.  **Findings:** mixtures get `X-mixture_logprob`, sums of normal variables `None_logprob`, and all transformed values the same name `val_clone-trans`, since the copy that is transformed is called `val_clone`
  (rewriting.py:250); the documentation (transforms.py:299-300) shows `A_vv-trans`.
* C130 (`Spec/Posterior.lean`, `Props/Posterior.lean`, on `Model/Graph.lean` and `Model/Full.lean`) partial: the specification averages a function over the variables that are not realized, weighted by `exp` of the joint
  log-probability (`averageE`).  `C130_posterior_partial`: replacing every function of all variables by this average does not change its expectation under forward sampling, which characterises the conditional distribution given
  the realized values; and the factor divided by is almost surely positive and finite.  `C130_functions_partial`: the same with invertible functions, clipping, rounding and stacks, if what is integrated over does not depend on
  other variables (`FixedRange`).  Both rest on C08 and C100, now proved with realized values too (`C08_realized_density`, `C100_realized_density`), and on Tonelli's theorem; measurability of the density is a hypothesis.
  **Finding:** the documentation (joint_logprob.py:282-285) says that the result is the conditional density; the factor is missing (`C130_normalised_wrong`), and with a clipped variable whose bound is random it is not
  the conditional density up to a factor either, since the bound then equals the realized value with positive probability (`C130_clip_wrong`).
* C129 (`Spec/Local.lean`, `Props/Local.lean`, on `Model/Full.lean` and `Model/Merge.lean`) partial: the specification says which nodes are met on the way back from a variable, stopping at the first variables with a value
  (`Reads`, `Parent`), and when two requests are separate (`Separate`).  `C129_term`: two requests that agree on a variable and its parents give it terms of the same value, whatever else they contain.
  `C129_separate_outcome_partial`, `C129_separate_sum_partial`: separate requests together return exactly if each does, with the sum of the two.  `C129_term_merged`, `C129_merged_outcome`, `C129_merged_sum`: the same with
  Aesara's merging of equal nodes, where the outcome needs in addition that no variable of one is made in the same way as one of the other.  **Finding:** without that, two requests that work alone raise `ValueError` together
  (`C129_twins_wrong`).
* C128, C129, C131 for models with array variables (`Model/ArrLocal.lean`, `Spec/ArrLocal.lean`, `Props/ArrLocal.lean`, on `Model/ArrGraph.lean`): `C128_arrays` (terms and joint log-probability of two requests that give
  the same variables the same arrays), `C129_arrays_term` (locality), `C129_arrays_separate_sum` (separate requests), `C131_arrays` (`logprob` against the term, when the draws agree with the values).
* C128 (`Spec/SameValues.lean`, `Props/SameValues.lean`, on `Model/Full.lean`) partial: the specification says which value a request gives to a variable (`Given`) and when two requests give the same (`SameValues`,
  `SameInputs`).  `C128_terms_partial` and `C128_joint_partial`: such requests both return or both raise, and term by term the values are equal, for any two orders of rewriting.  `C128_permuted_partial` and
  `C128_realized_partial` are the cases of a permutation and of a value passed in `realized`.  The proof puts the numbers in place of the value variables (`pin`) in both clones, which makes them the same graph, and shows that
  conversion and terms do not depend on it.  **Finding:** with scans of several outputs the order of the arguments decides which output gets which value (`C128_scan_wrong`).
* C49 proved, C50 partial: real analysis (`HasDerivAt`) per transform; NaN for the reciprocal at negative values (`C50_reciprocal_negative`).
* C51, C56: one change-of-variables lemma for densities, applied to each transform and by induction to towers of nodes.  C51 partial: the circular transform has infinite
  mass on the line.  C56 partial: reciprocals of variables that may be negative.
* C52 partial: Pareto (uses `alpha` as the bound), half-Cauchy with a location, von Mises.
* C53 partial: induction on the chain; false on vectors when a scalar scale is chained with an entrywise transform.  `Props/ChainSimplex.lean`: chains on
  vectors that begin with the simplex transform (diagonal times simplex determinant), and C49 for the simplex and for chains of vector transforms.  C54 proved: matrix determinant lemma.
* C55 partial: decision table over dictionaries; ignored after `incsubtensor_rv_replace`.
* C57 partial (NaN instead of -inf).  C58 partial: decision logic with graph reachability; unsigned and boolean types pass.
* C84 partial: `Model/SharedSource.lean`, several derived variables in one model.  Proved for different independent sources (integrals over boxes by induction),
  refuted for every pair of different invertible functions of one source (curves are null sets); the same function twice raises (equal nodes are merged), and so does a function of a
  requested variable.
* C90 partial: `Model/ElemwiseArray.lean`, elementwise nodes on arrays with broadcasting and `ndim_supp`.  Entry-by-entry theorem for all shapes; density for independent numbers;
  refuted when a parameter enlarges the array and for vector-valued variables.
* C93 proved: `Model/IR.lean` is graph conversion on graphs of random variables and elementwise operations, with the rewrites of `transforms.py` and `add_independent_normals`.  The equilibrium rewriter is a step relation that
  converts any node whose rewrite applies; `C93_converted` says which nodes are converted at the end of any run, `C93_any_order` that all runs end in the same
  graph, `C93_terminates` that there are no infinite runs, `C93_outcome` when `conditional_logprob` returns and when it raises.
* C94 proved: `C94_joint_density`, by induction over the requested variables in dependency order (`Props/IRDensity.lean`); the change of variables for a tower of
  functions is in `Lemmas/Tower.lean`.  Requested variables that are sums of several random variables are not covered (C69, C116, C120 are about these).  Sharing of random variables between requested variables is excluded (`hsrc`): C84 shows that the claim is false then.
* C121 proved: `Model/Merge.lean` adds to the model of C99/C100 that canonicalization merges equal nodes before graph conversion.  `Spec/Merge.lean` says when two variables are made in the same way.
  `C121_outcome`: when `conditional_logprob` returns; `C121_value_error`: `ValueError` when everything is derived but two requested variables are made in the same way; `C121_joint_density`: C100 with
  merging.  C93, C95 and C99 themselves are about graphs in which nothing is merged; by C121 that makes a difference only for such requests.
* C95 partial: `Model/IRTransform.lean` adds `TransformValuesRewrite` to the model of C93/C94.  The visits of the rewriter are substitutions in graphs; `eval_visitAll` shows
  that after all visits, in any order, a graph computes what it did at the values taken back.  `C95_joint_density_partial` is the change of variables for the whole model,
  `C95_without_jacobian` and `C95_outcome` (errors) the rest.  **Finding:** `construct_ir_fgraph` (rewriting.py:246-274) makes two `ValuedVariable` nodes for a variable: the output, a clone below which
  variables are replaced by values, and the node put into the graphs of other variables, which is not a clone and has the user's variables below it.  They are equal, and merged by canonicalization, only
  if nothing is replaced below.  `transform_values` (transforms.py:211-240) replaces the value variable everywhere, so that only the node visited first is transformed (`innerFirst`, `ChildFirst`).  If it is not the
  output, no Jacobian term is added (`C95_child_first`, `C95_order_counterexample`: `joint_logprob(Y, X, W)` with `X` between `W` and `Y`), and a transform that depends on parameters uses random variables in place of
  their values (`C95_random_counterexample`).
* C150 (`Model/ArrObserved.lean`, `Spec/ArrObserved.lean`, `Props/ArrObserved.lean`) partial: `incsubtensor_rv_replace` in whole models with array variables.  Every term is the distribution's log-probability at the
  values with the data put in, for the variable itself and wherever it is a parameter (`C150_terms_partial`, by induction over the graphs); the joint is their product (`C150_joint`) and equals the joint of the model without the statements at the values with the data put in (`C150_plain_partial`); values at observed entries are not read
  (`C150_observed_unused`).  False for `at.inc_subtensor` (`C150_adding`, with the witness `C150_adding_wrong`) and for the indices of C71.  Not modelled: data with random variables, base variables used elsewhere; a partially observed variable without value
  is drawn by `ω` with its data in place.
* C149 (`Model/TransformClasses.lean`, `Spec/TransformClasses.lean`, `Props/TransformClasses.lean`) partial: the classes and registry entries that `_create_transformed_rv_op` makes, as a state machine over classes,
  `_logprob.registry` and `_default_transformed_rv.registry`.  By induction over any sequence of requests and user-derived classes nothing changes for the classes that exist (`C149_history`, `C149_made`).  **Finding:** a
  class derived from one with a default transform takes over the default, but with the log-probability of the op that the default was registered with (the closure variable `rv_op` of transforms.py:875), not its own
  (`C149_default_subclass`, `C149_default_wrong`); a given transform is right (`C149_explicit`).  Not modelled: several base classes, names, `cls_dict_extra`.
* C148 (`Model/Keywords.lean`, `Spec/Keywords.lean`, `Props/Keywords.lean`) partial: extra keyword arguments.  **Finding:** cumsum.py:42, tensor.py:32, 56, 69 and 150, mixture.py:396 and 402 and scan.py:279 call
  `logprob`/`conditional_logprob` without the `**kwargs` that they accept, so that an argument of a user's distribution counts for the variable and not for a stack, sum, mixture, ... of it (`C148_dropped_wrong`,
  `C148_dropped_default`).  Clipping, rounding, elementwise functions and transforms of values hand them on (`C148_reach_partial`, `C148_conditional_partial`); `C148_exact` says for every variable which distributions get them.  The model is about the calls: which registered function
  calls which one with which arguments; values and arithmetic are arbitrary, parameters belong to the distribution.  `logcdf` adds `name=rv.name` of its own (`C148_logcdf_name_raises`).
* C147 (`Model/RealizedExpr.lean`, `Spec/RealizedExpr.lean`, `Props/RealizedExpr.lean`) partial: realized values that are graphs.  **Finding:** `val.clone()` (rewriting.py:249) has no owner, and the graph of the user
  comes back at the end (rewriting.py:289-292), after the replacement of variables by values (rewriting.py:270-274); variables that it mentions are drawn anew.  The example of the documentation
  (`y_obs = Y_rv.copy()`, joint_logprob.py:88-89, 279-280) therefore has a random result (`C147_copy_wrong`, `C147_random`), and `realized={Y: X}` does not use the value of `X` (`C147_computed_wrong`,
  `C147_values_unused`).  `C147_computed_partial` and `C147_passed_partial` have the graphs that mention no variable with a value.
  `Model/ArrRealized.lean` has array variables, with the replacement written out on graphs: `C147_arrays_drawn` (what is computed, for all models and graphs), `C147_arrays_copy_wrong` (a copy, for all models),
  `C147_arrays_partial`.  Not modelled: canonicalization of these graphs (rewriting.py:184 runs before they come
  back); a copy is the variable itself.
* C146 (`Props/TransformOrder.lean`) partial: the order of the arguments.  False by the same finding (`C146_jacobian_lost` for every model); `C146_order_partial` and `C146_without_jacobian` say when it makes no
  difference.
* C96 partial: `C96_realized_ignored` (every model) and a counterexample; the claim holds without transforms of realized variables.
* C97 partial: `Model/TransformVec.lean`, `transformed_logprob` on vectors.  One change of variables on `ℝⁿ` with a diagonal derivative; true when every entry has a term of its own,
  and for random vectors with one log-probability exactly if the density is one almost everywhere.  `Props/TransformRows.lean`: `m` random vectors of length `n` on the arrays of `Model/ArrTransform.lean`
  (`transformedArr`): broadcasting fails for all other numbers than `m = n`, `m = 1` and `n = 1`; in the first two cases the same condition as for one vector (`power_iff` is the common part of the proofs).
* C98 partial: elementwise functions of clipped, rounded and other variables with atoms (`Props/Atoms.lean`, on the models of C56, C59 and C61).  `C98_value` gives the derived
  value over any base; `C98_iff` characterises when it is a log-density with respect to Lebesgue measure plus the images of the atoms: slope 1 or -1 at every atom.
* C99 proved: `Model/Full.lean` is graph conversion on graphs that also have clip, rounding, switch and indexed stacks, in two passes as in the code (measurable conversions, then mixtures).
  `C99_converted`, `C99_any_order`, `C99_terminates` and `C99_outcome` are as in C93; `Derived` (Spec/Full) is the independent description of the variables that get a density, `Buildable` of those
  for which the log-CDF exists.  Sums and differences of normal variables without values are converted as in `convolutions.py`; that the normal distribution has a log-CDF is the hypothesis `hN`.  Everything is scalar; a stack is the list of its components.
* C100 proved: `C100_joint_density` (`Props/FullDensity.lean`), the analogue of C94 on the model of C99.  `Lemmas/Described.lean` has one change of variables for each kind of node, against a reference
  measure that is Lebesgue measure, unit atoms, or both; the log-probability of a tree is shown to describe the expectations of functions of its value, and forward sampling to compute these.
  Functions of variables with atoms need slope 1 or -1 (C98 shows that this is necessary); `switch` is not covered, its branches are swapped (C64).
* C124 (`Spec/DrawnTerm.lean`, `Props/DrawnTerm.lean`) partial: one term at a time, when parameters, bounds and indices may depend on random variables without values; the sampler of the evaluated graph returns the
  draws `σ`.  `C124_given_draws_partial` for the trees of C100, if no other input uses the variable's own random variables.  **Findings:** `find_measurable_clips` and `mixture_replace` ask nothing of bounds and
  index, so `at.clip(X, -X, inf)` (which is `|X|`) gets half of its density (`C124_own_bound_wrong`), and `at.stack([X, -X])[X < 0]` gives negative numbers probability 1/2 (`C124_own_index_wrong`), without error.
  `C124_sums_partial` (`Spec/SumDrawn.lean`, `Props/SumDrawn.lean`) is the same for variables made from sums and differences of normal variables: what is drawn are the normal variables of the sum, which must be distinct and
  have laws `gaussianReal m s^2`; test functions are measurable.
* C114 partial (`Model/Undo.lean`, `Props/Undo.lean`): the mutable `FunctionGraph` itself - nodes whose inputs are overwritten, nodes that have left the graph and keep their inputs - with
  `MeasurableConversionTracker` and the step of `construct_ir_fgraph` that undoes conversions of un-valued variables.  The meaning of a graph is an assignment of values that agrees with all nodes;
  replacements between variables of equal meaning keep it (induction over any sequence of rewrites, transforms and replacements).  `C114_undo_partial` also shows that nothing converted is left
  when the recorded variables do not depend on each other's conversions.  When they do, the undoing of the inner one finds it outside of the graph and does nothing, and the undoing of the outer one
  brings it back: `exp(switch(I, A, B))` with latent `A` and `B` as a parameter gives a graph with a `MixtureRV`, which raises when run.  Trusted: `FunctionGraph.replace`, `replace_all` and pruning in
  `aesara` as written in the model; rewrites are sequences of new nodes and replacements that keep meanings; nodes have one output.
* C105 partial (`Props/TransAtoms.lean`): `transformed_logprob` adds the Jacobian term whatever the type of the variable.  `C105_iff` says for which laws and transforms the result is the
  log-density.  aeppl registers no default transforms for discrete variables but accepts explicit requests for them.
* C106 proved (`Model/ArrGraph.lean`, `Props/ArrGraph.lean`): as C08, with arrays as values.  A variable takes values in any measurable space laid out as arrays (`numbers s`: arrays of numbers of
  shape `s`; `rows s n`: arrays of vectors).  The joint is the sum over all entries of all terms.  `C106_entries` reduces arrays of independent numbers to the scalar properties
  C09-C36, for parameters that broadcast into the shape of the variable; `C106_mvnormal` does the same with C37.  Trusted: broadcasting (`bshape`, `project`) and that elementwise graphs act entry by
  entry; zero-length axes with parameters out of range are not modelled.  `C106_terms`: the terms of
  `conditional_logprob`, with the variables that are not requested sampled.
* C107 partial (the order of the arguments, as C95: `C107_child_first`, and `C107_order_counterexample` and `C107_random_counterexample` in `Props/ArrTransformOrder.lean`) (`Model/ArrTransform.lean`, `Props/ArrTransform.lean`, `Props/ArrTransformGood.lean`, `Props/ArrTransformSimplex.lean`): C106 with `TransformValuesRewrite`.  `GoodT` says what one
  variable needs: its transform undoes itself almost surely and the term with the Jacobian added has the right density.  `C107_entrywise` derives it from the scalar transforms, `C107_simplex` for
  arrays of Dirichlet vectors (the Dirichlet law is the image of a density on the scale of the transform, `Lemmas/DirichletSimplex.lean`).  Trusted: the default transform chosen for a variable is an
  input of the model; the Jacobian term is added by broadcasting to the term (`addArr`).
* C108 proved (`Model/ArrDerived.lean`, `Spec/ArrDerived.lean`, `Props/ArrDerived.lean`, `Props/ArrDerivedJoint.lean`, `Props/ArrDerivedMixture.lean`): derived variables as variables of the
  models of C106.  `EntryDensity` (independent entries) and `JointDensity` (any joint law) are preserved by elementwise functions; `JointDensity` by cumulative sums, by transporting the
  volume-preserving difference map of C66 to the entries; clipping reduces entry by entry to C59/C92, mixtures to C63 and the law of different elements of an independent array.
  The variables below a derived one have no values and are used once (`Model/IR.lean` has sharing).  Values off the support count: the formulas must vanish there,
  except at countably many numbers (the exponential density at zero is not zero).  `Props/ArrDerivedDemo.lean`: a geometric random walk observed after clipping.  `Props/ArrDerivedHmm.lean`: a hidden
  Markov model, with `Model/ArrMarkov.lean` for the chain.
* C112 proved (`Props/ArrDerivedTransform.lean`): a derived variable with a density, on the scale of a requested elementwise transform that does not look at the inputs of its node, meets the
  hypothesis of `C107_joint_density_partial`.

### Censoring (C59-C61, C92, C111, C118)
* C118 (`Model/ClipDtype.lean`, `Props/ClipDtype.lean`): the test `dtype.startswith("int")` of `clip_logprob` over all data types.  **Findings:** for unsigned and boolean draws the log-probability at the upper
  bound leaves out the mass of the bound itself, and is right exactly when that mass is zero (`C118_clip_iff`); a constant upper bound of minus infinity counts as no bound, so crossed bounds are accepted
  (`C118_minus_inf_wrong`).
Measure identity with atoms. C59, C60 partial: equal bounds.  C111 (`Props/ClipReal.lean`) partial: an integer variable at a non-integer upper bound gets `P(X > u)` plus the mass formula at `u` (mass formulas do not vanish at non-integers), a non-integer between the bounds gets a positive mass, and the geometric log-CDF is not a step function.  C61 partial: non-integers, and values where both log-CDFs are -inf.
C92 partial: arrays (`Model/ClipArray.lean`): every entry is the scalar clip, joint density for independent entries; `C92_only_independent` shows that the
result is never a density of dependent entries.

### Mixtures (C62-C65, C85, C86, C88, C89, C122, C142)
* C122 (`Model/MixtureBasic.lean`, `Props/MixtureBasic.lean`) partial: stacks indexed by integers and slices only.  `mixing_indices = node.inputs[1:]` are then the integers and the bounds of the slices without their
  places (Aesara's `Subtensor` keeps these in `op.idx_list`).  `C122_leading_partial`: integers followed by full slices are right.  **Findings:** `stack[:k]` is scored as component `k` (`C122_slice_wrong`),
  `stack[:, i]` as component `i` (`C122_column_wrong`); `stack[i, a:b]` (`C122_bounds_raises`) and single elements `stack[i, j]` (`C122_element_raises`, `at.nonzero` of a scalar) raise.
  The join axis is ignored here: of vectors stacked along axis 1, `[:, i]` is right (`C122_column_partial`), and the row `[i]` is scored as component `i` (`C122_row_wrong`).  Trusted about Aesara: the
  inputs of `Subtensor` and `AdvancedSubtensor`, `ifelse` and `nonzero`; rewrites that remove slices which select everything are not modelled.
* C62, C63 partial: index semantics on lists and arrays (C63: at least one index with a dimension); negative indices, other axes, concatenations and slices along the joined axis are wrong.  With a join axis counted from
  the end (`at.stack(.., axis=-1)`, kept as it is written by Aesara's `Join`: trusted) array indices always raise (`C63_negative_axis_raises`).
  Axes other than the first (`Props/MixtureAxis.lean`): `rv[0]` drops the first axis of the component, so element `(0, i₀, .., iₖ₋₁, iₖ₊₁, ..)` is used for `(i₀, .., iₖ₋₁, 0, iₖ₊₁, ..)` if it exists (`C63_shifted`,
  silently wrong: `C63_axis_counterexample`), and the derivation raises if it does not (`C63_shifted_raises`).
* C64 partial: `switch` takes the branches in the wrong order.  C65 partial: NumPy mixed indexing specified by coordinates and compared with the broadcast
  semantics of the expanded indices; descending slices and 0-d arrays are wrong.
* C85 partial: `switching_process`; wrong or raising for components with two axes.
* C86, C89 partial: a component selected twice, or by two mixtures, has no joint density, but a value is returned.
* C88 partial: decision logic of the rewrite exact; conditional and joint density for an independent index; false when the index is computed from a component.
- **C142** (`Props/SameCensoring.lean`, lemmas in `Lemmas/SameCensoring.lean`): `measurableClip` and `roundLogprob` (Model/Censoring), `stackMixtureLogprob`, `switchMixtureLogprob` (Model/Mixture) and `arrayMixtureLogprob` (Model/MixtureArray).
  Clipping is brought to a normal form that only depends on the bounds as numbers (`clip_normal_form`).

### Arrays (C66-C69, C91, C115, C116, C119, C120, C123, C126), rewriting (C70, C71), scan (C72, C82, C83, C87, C101, C109, C140, C141)
* C126 (`Spec/Selected.lean`, `Props/Selected.lean`, `Props/SelectedDemo.lean`) partial: arrays of random numbers indexed by any NumPy index, which rewriting.py:179 replaces by fresh arrays of the same distribution.
  `Derived.index` in `Model/ArrDerived.lean`; the integer arrays of the index may be inputs of the node (`Filled`).  `C126_indexed_iff_partial`, `C126_once_iff_partial`: right exactly if no element that is not constant is
  selected twice; `C126_basic`: always right with slices, `newaxis` and integers; `C126_parts_iff_partial`: several requested parts of one array, right exactly if they have no element in common.  **Findings:** `X[[0, 0]]` is
  taken for two independent variables (`C126_repeated_wrong`), and so are overlapping parts (`C126_slices_iff_partial`).  Taken from Aesara: `local_subtensor_rv_lift` gives every selected entry the parameters of the
  element it selects, and applies to integer arrays (mixture.py:394 needs this).
* C123 (`Spec/SumTree.lean`, `Props/SumTree.lean`) partial: sums and differences of normal variables nested in any way, as requested variables of the graphs of C93; `SumOf` lists what is added, with signs.
  `C123_sum_partial` characterises when the returned term is the log-density given the other values, for every run of the rewriter; `C123_distinct`.  **Findings:** `(X - V) + V` is accepted and counts the variance
  of `V` twice (`C123_repeated_wrong`); `X + Y` with `Y ~ N(X, 1)` is accepted, with a draw of `X` left in the mean, and is wrong for every draw (`C123_dependent_wrong`): `add_independent_normals` does not look
  at what the parameters depend on.
* C120 (`Model/NormalSums.lean`, `Spec/NormalSums.lean`, `Props/NormalSums.lean`): any number of sums and differences of the same independent normal variables as the variables of one model.  `C120_joint_partial` is an
  equivalence: the sum of the terms is the joint log-density if and only if the sums are pairwise uncorrelated and each has the variance the code gives it (proved with Mathlib's theory of Gaussian vectors).
  **Finding:** nothing checks this (`C120_shared_wrong`, `C120_sum_and_difference`); `C120_disjoint` is the case that is always right.  Scalar variables; sums handled by other rewrites are outside this model.
* C119 (`Model/ValueShape.lean`, `Props/ValueShape.lean`; `mvnormalWith` in `Model/VecDists.lean`): which shapes of values are accepted.  **Findings:** the size of a variable is never compared with its value.
  Every array of numbers accepts values with further axes, taken for independent copies (`C119_extra_axis_wrong`); with scalar parameters it accepts all shapes (`C119_size_ignored_wrong`); a value of length 1 for a
  normal vector of length n is broadcast but gets the constant of one dimension (`C119_vector_short_wrong`); batches of normal vectors with two or more axes are refused (`C119_vector_axes_wrong`; `SolveTriangular`
  takes at most two axes); stacked numbers accept values that are too long (`C119_stack_partial`).  Joins check the length along their axis (`C119_join_refuses`).  Simplification: the variable is not used elsewhere
  in the graph (there the types would be compared when the value is put in its place).
* C116 (`Model/NormalSum.lean`, `Props/NormalSum.lean`): `add_independent_normals` on arrays, with sizes, broadcasting of parameters and the axes that `aesara` adds to shorter inputs.  Entry by entry the
  density is right for all shapes (`C116_entries`).  Jointly it is right if and only if no entry is repeated by broadcasting (`C116_joint_iff`).  **Finding:** the sum of a vector and a single normal variable
  is given the density of independent entries, although all of them contain the single variable; the proof compares the variance of the difference of two entries.
* C115 (`Model/RoundArray.lean`, `Model/ArrDerived.lean`, `Props/ArrJoin.lean`, `Props/ArrJoinDemo.lean`): the log-probabilities of joins, stacks, dimension shuffles and roundings as kernels of array
  variables in the graphs of C106/C108.  The core is measure-theoretic (`Lemmas/Gather.lean`): an array whose entries are, in some order, the entries of independent arrays has the product of their densities;
  `Lemmas/JoinEntries.lean` and `Lemmas/ShuffleEntries.lean` show that `IsJoin` and `IsDimshuffle`, the specifications of C67-C68, are such reorderings.  Pieces of a join may be any measurable arrays
  (`C115_join_any`).  `ArrJoinDemo` puts a join, a cumulative sum and a rounding in one model of any length.
* C66 partial: inverse and determinant one; the law for any shape and axis (axes are named by `AxisIs` of `Spec/Axis.lean`, not by the model); other axes are refused (`C66_axis_raises`).  C67 partial: split/concat; batched multivariate joins and negative axes.
* C68 proved: permutation algebra for all orders.  C69 partial: convolution of Gaussians by induction; independence is not checked.
* C70 proved: termination measure and semantics of the Dirac rewrites.  C71 partial: exact condition on the indices; several entries are wrong.
* C72 partial: exact characterisation of the lags that work.  C82 partial: density of the series by iterated integrals over the draws in the order of the scan.
* C83 partial: values for a part of a series are completed with uninitialised memory.  C87 partial: outputs of a scan that are not random.
* C125 (`Spec/SumJoint.lean`, `Props/SumJoint.lean`): C100 for requested variables that may be, or be made from, sums and differences of normal variables.  Forward sampling draws the normal variables of a sum one by one
  (`SItem.draws`), while the density describes the sum as one normal variable.  The values of the parameters of a requested sum are read with the sum's own value left out (`readOthers`), since its mean is a graph at the same
  node.  Induction over the requested variables as in C100; the convolution needs the rest of the integral to be a measurable function of the sum's value, which follows from measurable terms and integrals by a second
  induction.
* C101 proved: `Model/ScanFind.lean`, the decision of `find_measurable_scans` on any inner graph.  `visitedVars` is the set of variables that `io_toposort` reaches from the outputs;
  `C101_converted_iff` compares it with the independent `Needed`, `C101_no_hidden_draws` runs the body twice with different draws.
* C91 partial: stacks; a density only of independent variables.
* C109 partial (`Model/ArrScan.lean`, `Spec/ArrScan.lean`, `Props/ArrScan.lean`, `Props/ArrScanDemo.lean`): a scan with one random output takes the place of a distribution in the models of
  C106, built on `scanLogprob` (C82) and `padScanValue` (C83).  `seriesLaw` is the law of the series drawn step by step (`Measure.bind`), with no reference to the scan's code.
  `scan.py:470-485` replaces the `ValuedVariable` of `out[lag:]` by one with the padded value, wherever it is used (`replaceScan`), not only in the scan's own term: `C109_used_wrong` and
  `C109_sequence_wrong` state what other variables then compute, for every number of steps.  Whether canonicalization merges the copies of the scan made by `construct_ir_fgraph` is not
  modelled (if it did, `del replacements[full_out]` at line 482 would run twice for the same output).  Random initial values are not claimed (the repository's own test of them is marked as failing);
  sequences are vectors, non-sequences scalars, the number of steps is a constant.
- **C140** (`Props/SameSeries.lean`, spec in `Spec/SameSeries.lean`, lemmas in `Lemmas/SameSeries.lean`): `derivedKernel` (Model/ArrDerived) for arrays, stacks, joins and cumulative sums, and `scanKernel` (Model/ArrScan), all characterised
  by the same list of terms (`IsTerms`), so that any two of them have the same result (`SameResult`).
- **C141** (`Props/SameChain.lean`, spec in `Spec/SameChain.lean`, lemmas in `Lemmas/SameChain.lean`): `markovArr` (Model/ArrMarkov), `scanKernel` (Model/ArrScan) and `categoricalKernel` (Model/ArrCategorical), compared by their terms as for
  C140. False for matrices that change with time; the exact shift is proved.

### Utilities and printing (C73-C79, C81, C102-C104, C127, C143, C144, C145)
* C127 (`Model/PrintExpr.lean`, `Spec/PrintExpr.lean`, `Props/PrintExpr.lean`) partial: the operators and comparisons assigned in printing.py:622-694.  `render` prints an expression tree; the specification is an independent reader
  (`lex`, `readAt`, `reading`) with the usual precedences (`or`, `and`, comparisons, `+`, `*`, `@`).  `C127_reading_iff_partial`: the printed text is read as the expression exactly if it is `Plain`; `C127_injective`: plain
  expressions that are printed alike are the same.  **Finding:** comparisons get no parentheses, so `(a > b) + c` is printed as `(a > b + c)` (`C127_sum_wrong`) and all ways to nest a row of comparisons are printed alike
  (`C127_row_wrong`).  Taken from Aesara: `OperatorPrinter` always writes parentheses, `PatternPrinter` never does.
C73 proved: invariant of the worklist loop. C74 partial: substitution lemma on graphs; keys inside earlier values. C75 partial: shape algebra; batched parameters without size.
C76 proved: invariant over call histories. C77, C78 proved: invariants of the printing loops. C79 partial (indices are popped from the end). C81 partial: preset categories.
C102 proved: `Model/ObsData.lean`, induction over nested assignments; the mask is compared with `Touched`, the data with the value of the variable itself (`Var.eval`).
C103 proved, C104 partial: `Model/Definitions.lean`, the recursion of the printers over a graph with sharing.  One invariant of the printer state (`Inv` in `Props/Definitions.lean`) with the set of
random variables whose definition is being printed; the definitions are compared with reachability in the graph.  C104 says exactly which definitions are right: it is false for names with blanks, and for vectors with a percent sign in the name, whose shape
information ends up in a format string (`percent`).  Both in plain text and in LaTeX.  `C78_latex`: the layout of the LaTeX text (environments, label, indentation by `textwrap.indent`) line by line.
- **C143** (`Model/PrintNumber.lean`, `Spec/PrintNumber.lean`, `Props/PrintNumber.lean`) partial: printing.py:164-180 and 636-647, the texts of parameters.  `float(text)` and the format `2g` are Python's; they are modelled on exact decimal
  numbers (`pyFloat`, `showFloat`).  **Findings:** a variable whose name can be read as a number is printed as this number; integers with more than six digits are rounded.
- **C144** (`Model/PrintLatex.lean`, `Spec/PrintLatex.lean`, `Props/PrintLatex.lean`) partial: the LaTeX patterns of printing.py:680-694 with quotients, roots, powers and negations, which C127 leaves out.  `C144_alike` says exactly which
  expressions have the same text.  **Finding:** `\lnot` is printed without parentheses, so `~(a > b)` and `(~a) > b` have the same text.
- **C145** (`Model/ShapeText.lean`, `Spec/ShapeText.lean`, `Props/ShapeText.lean`): the text that process_shape_info prints (printing.py:354-417) for types and axes of known or unknown length.  Two lines, or two definitions, are
  the same text only for the same name, kind of numbers and shape.  This fills in the parameter `space` of `Model/Definitions.lean`.

## 4. Not modelled

Compilation and execution by Aesara, gradients, `test_value`, names of variables (except in printing and of terms and values, C132), the rewriting engine's
scheduling (equilibrium order), merging of equal nodes other than requested variables (`Model/Merge.lean`), dtype promotion, performance, randomness generation (samplers are modelled by their laws).

Functions of `/repo/aeppl` without a definition of their own in the model: `_default_transformed_rv` (transforms.py:51-63; its table is `Lib.default`), which only looks up
the implementation for an operation; `register_measurable_ir` and `NoCallbackEquilibriumDB.query`, which fill the rewrite databases; `remove_TransformedVariables` (the value it returns is what the model uses from the
start); `MixtureRV.make_node`, `_get_measurable_outputs_DiscreteMarkovChainFactory`; `add_opts_to_inner_graphs` (scan.py:491-526, optimisation of the inner graph by Aesara); `get_constant_value` (constant folding by Aesara);
`non_constant` (dists.py:56-68), `IgnorePrinter.process` and `latex_print_array`.
