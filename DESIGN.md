# Formal model of probayes: design

The properties are listed in `properties.jsonl`; the Lean development is in
`lean/Verif`.  `MANIFEST.json` maps properties to theorems.

## 1. Trusted base

* Lean 4.33.0's kernel and the installed Mathlib (single modules imported).
* Axioms: every theorem depends at most on `propext`, `Classical.choice`,
  `Quot.sound` (checked with `#print axioms`).  No axioms are added; no
  `sorry`/`admit`, `native_decide` or `bv_decide` is used.
* The reading of the Python source as Lean definitions.  Every definition cites
  the file and lines it models and says what it simplifies.

### Global simplifications

* **Floating point**: probabilities and weights are exact reals (`ℝ`), values
  of variables are exact rationals/reals.  Rounding, NaN, signed zero and
  overflow are not modelled; the explicit clamping constants
  (`NEARLY_POSITIVE_ZERO`, `NEARLY_POSITIVE_INF`, ...) are modelled as the exact
  decimal numbers in `constants.py`.
* **numpy**: an array is a shape (list of sizes) with an entry for each index
  list.  `reshape` (row-major), `moveaxis`, `sum(axis=..)`, `argsort`,
  `digitize`, `linspace`, `cumsum`, broadcasting of elementwise operations are
  written from the numpy documentation.
* **Randomness**: the outcome of a random generator is a parameter; theorems
  quantify over all outcomes in the generator's documented range.
* **Python exceptions** are values (`Except Err _`), with one constructor per
  exception class used by the code.
* **sympy, networkx, scipy, h5py**: symbolic evaluation, graph storage, normal
  cdf/ppf and the file format are parameters or abstracted to the operations
  the code calls.

### Not modelled

* `apps/`, `examples/`, plotting, `sympy` expression construction beyond the
  call protocol, multivariate normal integration (`mvn.mvnun`, scipy), pickling.

## 2. Method

* `Verif/Base/*` – Python/numpy substrate (ordered dictionaries, strings,
  n-d arrays) and lemmas.
* `Verif/Model/*` – the code, function by function.
* `Verif/Spec/*` – small independent specifications (what the probability of an
  assignment is, what a sum over a variable is, ...).
* `Verif/Lemmas/*` – helper lemmas.
* `Verif/Props/*` – the property theorems, each with an `example` showing its
  hypotheses are met non-trivially.

Where the code violates a property the full statement is kept as a Lean
`def ..._claim : Prop` or stated in the docstring, its negation is proved with a
concrete witness (`..._fails`), and what does hold is proved under the suffix
`_partial`.

## 3. Plan per property

| id | model | proof |
|----|-------|-------|
| C01 | `rescale` and its four branches over ℝ | case analysis + exp/log lemmas, clamp hypotheses explicit |
| C02 | `log_prob`, `exp_logp` | monotonicity of log/exp around the clamp |
| C03 | `eval_pscale` on a sum type of specifications | case analysis; the code maps the log scale `1+0j` to linear 1 – refuted, partial |
| C04 | `prod_pscale` | list induction for linear lists; log offsets are logged a second time – refuted and characterised (holds iff offsets sum to 0) |
| C05 | `prod_rule` | list induction; requested-scale branch refuted |
| C06 | `div_prob` | from C01 |
| C07 | `uniform`, `linspace` | closed form of grid points |
| C08 | `vset` setter, `_eval_vlims`, `_eval_ulims` | case analysis on bound kinds and order |
| C09 | `evaluate` of continuous variables | C07 + monotone transform |
| C10 | `evaluate` of discrete variables | counting residues, permutation invariance |
| C11 | `apply_delta` | case analysis; scalar half-open bounce refuted |
| C12 | `apply_delta` unbounded | algebra, transform inverse |
| C13 | `Distribution.dims` setter, `PD.prob` setter | loop invariant; shared axes of unequal size refuted |
| C14 | `str2key`, `str_margcond`, `margcond_str` on character lists | split/join lemmas; parentheses refuted |
| C15–C16 | `PD.marginalise`, `PD.marginal` | induction on axes; assignment semantics |
| C17 | `PD.conditionalise` | the new axes are a permutation iff the conditioned arrays are last (or first); group sums along it; middle keys and scalar-only remainders refuted |
| C18 | `PD.__call__` | axis selection |
| C19–C20 | `product` | axis permutation + reshape lemmas; common array conditions, scalar mismatch and tolerance refuted |
| C21 | `PD.__truediv__` | loop invariant for the moved variables, reshape lemma; composition with C15, C17, C19 (Bayes' rule); array conditions, order and values of the divisor refuted |
| C22 | `PD.expectation` | weighted mean inequalities |
| C23 | `PD.sorted` | argsort is a permutation |
| C24 | `PD.remarginalise` | fibre sums, digitize intervals |
| C25 | `PD.rescaled` | C01 |
| C26 | `summate` | list induction |
| C27 | `PD.prod` | algebra; non-unit scales refuted |
| C28 | `rekey`, `rekey_dict` | ordered dictionary lemmas; order dependent duplicate check refuted |
| C29 | `serialise`, `deserialise`, `write_serialised`, `read_serialised` with an explicit heap cell for `dims` | record equality; in-place mutation and name collisions refuted |
| C30–C31 | `_default_prob`, `uniform_prob`, `bernoulli_prob` | finite sums |
| C32–C33 | `matrix_cond_sample`, `lookup_square_matrix` | prefix sums |
| C34, C37–C39 | `SP` sampler state machine, generators | induction over operation histories |
| C35–C36 | `metropolis_scores`, `hastings_scores`, `reval_tran` | algebra; Hastings refuted for asymmetric proposals |
| C40 | `eval_tfun` cursor | arithmetic of the cursor, induction |
| C41–C44 | `Field` | list/dictionary induction |
| C45 | `Dependence._refresh` | graph predicate case analysis |
| C46 | `Expression._call`, `_check_mapping` | list/dictionary induction |
| C47 | `Functional.add_func` | state machine; non-atomic failure refuted |
| C48–C49 | `int_to_bin`, `bin_to_int`, `bool_perm_freq` | digit induction, counting |
| C50 | `CondCov` sampling with abstract cdf/ppf | normal equations and completing the square; monotonicity; limits refuted off the mean |
| C51 | `desuffix`, `get_suffixed` | dictionary induction; unsuffixed input refuted |
| C52 | `ismonotonic` | list characterisation; refuted for ties in decreasing and single elements |
| C53 | `PD.quantile` | prefix sums |
| C54–C55 | `apply_delta`, `eval_delta`, `set_delta` | case analysis |
| C56 | `RV.eval_tran` default | case analysis; log scale refuted |
| C57 | `rv_prod_rule` with predecessor and successor | product algebra; scales other than one refuted |
| C58 | `eval_delta` for floats and integers | reachable moves over all draws; integer ranges refuted |
| C59 | `SP.next` and `SD._sample_prop` with a proposal distribution | invariant over operation histories; verdict of rejected samples refuted |
| C60 | `RV.__call__`, `RV.eval_prob`, `Prob.eval_prob` for discrete variables (number, array, callable) | construction of one-variable distributions; array probabilities refuted |
| C61 | `RV.step`, `RV.eval_step`, `RV.eval_tran` for discrete variables with number, matrix, pair of matrices or no transition | rank of a value in the sorted set, permutation of a column, C32 and C33 |
| C62 | `Distribution.lookup`, `redim`, `singleton`, `PD.redim` | induction over the variables with the invariant that groups already given are closed; construction lemmas of C13; `PD.redim` and `singleton(name)` refuted |
| C63 | `RF.__call__`, `RF.propose`, `RF.eval_prob`, `Field.evaluate`, `Field.parse_args`, `rv_prod_rule` on arrays, discrete variables | every successful call of a variable is inverted into its parts; induction over the variables for axes and layout; broadcasting lemmas and arithmetic of C05/C19 |
| C64 | `slice_by_keyvals`, the function returned by `bool_perm_freq` | the loop as repeated assignments; row-major position is unchanged by axes of size one, so reshaping is compared on the remaining (size, position) pairs in order; other orders refuted |
| C65 | `parse_as_str_dict` | fold over arguments and items; the result compared with the list of (name, value) pairs given: first-seen names, last-given values |
| C66 | `sort_ordered_dict` | argsort any sorting permutation; invariant of the placement loop |
| C67 | `Expr.__call__`: positional and named values, substitution, array function (broadcast), the `meshgrid` fallback | the expression is any real function of its symbols; folds of shapes of any ranks shown to be the broadcast shape; fallback for one vector and for row/column |
| C68 | `Expression.set_expr` checks, `_set_partials`, `__getitem__`, `__len__`; `Func.__getitem__`/`_call` as a state machine | induction over sequences of indexing and calling; `Func` refuted |
| C69 | `Prob.eval_prob` and `RF.eval_prob` for scipy multivariate distributions, `Func._call_scipy` (density and log density) | the density is any function of a point; entries of coordinate grids read off by position, squeezing undone on the axes of size one; any number of variables |
| C70 | scale handling of `Prob.set_prob`, `Prob.rescale`, `Prob.eval_prob`, `RF.set_prob`, `RF._refresh` | induction over sequences of settings; C01 and C03 |
| C71 | `SD.__init__`, `SD.set_prob`, `arch_prob`, `RF.set_prob`, `RF.eval_prob` for dependences composed of dependences (probabilities any function of values and axes) | arrangement from leafs and roots (C45); restriction of dictionaries; broadcasting and arithmetic of C05; series and neither refuted |
| C72 | `RF.step`, `RF.eval_step`, `RF.eval_tran`, `Field.eval_step` (variables discrete, asked for one by one; transitions, deltas and sampling functions any function of the values; deltas passed as arguments and unit float sets not modelled) | names and dimensions from C13/C14; inversion of a successful step for the refusals; field of one variable refined to C61; geometric mean from C57; arrays refuted |
| C73 | `SD.__call__`, `RF.__call__` with `iid`, `RF._eval_iid`, `Dependence.eval_dist_name` (probability any function of values and axes; no functions added to the dependence) | layout of leafs and roots as in C63; `iid` reduced to C27, `joint` to C63 and C19; roots left to all values and functions returning the product of several leafs refuted |
| C74 | `Variable.__init__`, `vset` and `vtype` setters, `_eval_vlims`, membership without transforms, `eval_vtype`, arguments of `RV.__init__` (Python numbers and sympy infinities; containers of other contents and rounding not modelled) | loop over the entries by induction with the type found so far; case analysis on containers and positions; random variables by type alone and arrays refuted |
| C75 | `Functional.__init__`, names given to `add_func`, `_set_partials`, `__getitem__`, `collate_vertices`, `parse_identifiers`, calls of the functions (single functions without order or delta of their own; the function called is identified by its number and the arguments it receives) | invariant over sequences of additions: every function discards exactly the inputs it does not depend on; induction over the discarded keywords; own inputs alone refuted |
| C76 | `and_op`, `or_op`, `RV.__and__`, `RV.__or__`, with `Dependence.def_deps` and the fields they build (variables as numbers with names and a flag of randomness; functions, deltas and explicit dependences not) | case analysis on the kinds of operand, from the theorems on fields (C44) and dependences (C45); a variable united with a dependence refuted |
| C77 | assignments to a discrete `RV`: `vset`, `set_prob` (`_default_prob`, Bernoulli functions of Boolean variables), `set_tran`, `pscale`, as a state with operations that may be refused half way (transforms, `set_tfun` and sampling functions other than the Bernoulli one not modelled) | invariants of the state by induction over the sequence of operations, calls by C60; refuted where a set or scale is assigned under others, and for what refused assignments leave behind |
| C78 | `set_prop`, `set_tran`, `set_tfun`, `set_delta`, `leafs_roots`, `set_prop_obj`, `propose`, `step` and the choices of `sample` of `SD`, with those of `RF` and `Field` (functions, pairs, numbers and fields as values; arrays, distribution objects and conditional functions not modelled; the step of the object chosen is C72) | state of a process and all random fields, induction over sequences of settings; refuted for None, for functions set after a subfield, and for refused values |
| C79 | `set_scores`, `set_thresh`, `set_update`, `eval_expr` and the verdict of `next` of `SP` with the table `MCMC_SAMPLERS` (functions of the user are parameters; values that cannot be hashed are one kind; tuples of functions and symbolic expressions not modelled) | state of three parts and the scale, induction over sequences of settings, scores from C35 and C36; refuted for scales assigned later, names of no sampler and refused values |
| C80 | `RV.__call__`, `evaluate`, `eval_prob`, `eval_dist_name` and the default probability for float variables, with `Variable.evaluate` and the limits of `_eval_ulims` (symbolic functions and transforms without change of variables not modelled; the constructor of the distribution for its shape check and texts only) | laws of samples as Lebesgue measures of sets of draws, quantiles from C07, density from C08 and integrals over the declared set; refuted for `rv()` with cumulative functions, unbounded variables, `{p}` and default densities with a transform |
| C81 | `RV.step`, `eval_step`, `eval_tran` for float variables (as C80; the delta is a function of the value; transforms keep infinite limits) | outer arrays of pairs, conditional cumulative functions on extended reals, law by squeezing the set of draws; refuted for `{p}` |
| C82 | `next` of a process of one integer variable with Metropolis scores, threshold and update (C34, C79), whose step is `Variable.eval_delta`, `apply_delta` (C11, C58) through `Field` for one variable; the transition is a number, the probability a function of the value | law after n steps as iterated Lebesgue integrals over the draws, reduced to a finite operator that keeps the weights by detailed balance, induction over steps; refuted for bounded steps of two or more, and for reaching all values with `[1]` |
| C83 | as C82 for a field of n float variables, each stepping by its own `eval_delta`, `apply_delta` with transform and bounding (C11); spherised deltas and expressions as deltas not modelled | law after n steps as iterated Lebesgue integrals over unit cubes; moves that bounce are a measure-preserving involution of values and draws, coordinate by coordinate, hence reversible; Tonelli and detailed balance, induction over steps; refuted for limits that are included, and for the density of the values under a transform |
| C84 | `RF.set_tran`/`set_tfun` for `None` and arrays as state changes (RFCov.lean), with `np.linalg.cholesky` a parameter that meets its documentation (`Spec.Cholesky`, shown to exist), `RF.eval_delta`, spherised and own deltas of float variables (C43), `RF.step` by them; callable transitions and sampling functions are in C72/C73 | existence of factors from Mathlib's LDL decomposition; means and covariances by measure-preserving flips and exchanges of draws; histories of calls; scales and shapes that are refused pinned down (`C84_scaled`, `C84_refused_shape`); partial: see section 4 |
| C85 | as C83 with the spherised deltas and covariances of C84 in place of the deltas of the variables; expressions as deltas not modelled | the coordinates that move and those that bounce partition the draws; for each part a shear is measure preserving and flipping the signs of the draws inverts it (WalkJoint.lean), so that steps are reversible; reach by two steps for every displacement up to 2d; refuted for bounded steps with a covariance that is not diagonal by the exact mass of a quadrant after a step, and for the reach of a single variable |
| C86 | `sample_cond_cov`, the conditional sampler of C50, `RF.eval_step` and its cursor, `SD.sample`/`SP.next` with the gibbs functions (Gibbs.lean); the distribution function is a parameter that is the normal one (`Spec.IsNormal`, shown to exist) | invariance of the normal distribution under resampling a variable by characteristic functions; convergence from the contraction of the difference of two copies in the metric of the inverse covariance, and the total variation of moved normals; law of a draw by the quantile transform; refuted for limits and for the order of the start |
| C87 | `SD.sample` for a field with the transition of its only variable, `SP.next`, samplers and summaries (Markov.lean) over the models of C32, C61, C71-C72, C26 and C39 | the interval of the draw decides on the next value (C61); law of the path as the volume of a box of draws, summed to the entries of the powers; convergence by the contraction of the spread of the rows; the example's formula by the recurrence of its characteristic polynomial |
| C88 | the process of C87 with the rules of C35 and C36 (`matrixWalk`, Markov.lean) | law of a sample by splitting the unit interval at the sums of the column and at the ratio; invariance by detailed balance (C35), convergence by C87's limit for the matrix of accepted moves; refuted for Hastings with matrices that are not symmetric |
| C89 | proposals at `{0}` with suffixed keys, the probability at the values proposed, scores, thresholds and update of the example (Reject.lean), in the sampler of SP.lean | every sample from its own draws by induction along the sampler; change of variables from the unit cube to the box; Fubini for the threshold; strong law of large numbers on the product of the draws |
| C90 | function deltas as returned objects (the field's Delta, a tuple, anything else), single and paired transition functions, with and without reverse proposals, in the sampler of SP.lean (DeltaFn.lean) | step lemma for next() by cases of the value returned; reversibility of symmetric displacements under any score that is a ratio of targets; iterated integrals over draws; a witness law of increasing deltas for the negation |
| C91 | a probability object as state: scale, what it was set to, mappings, partial functions by name, cumulative and sampling functions; distributions as their functions by name (DistObj.lean). Symbolic distributions, pairs of functions and states after exceptions are not modelled | inversion of set_prob for each kind of argument; induction over sequences of calls; a concrete distribution for the negations |
| C92 | `Model/Symbolic.lean`: symbols (name and assumptions), expressions as free symbols with a value for every assignment, substitution one symbol after the other in any order, `collate_symbols`, `subre`, `resub`, `simplify`, the search for the object with a cumulative function over trees, the expression dictionary and `__getitem__` of `SympyProb`, `sympy_sfun`. Sympy's `simplify` and `solve` are parameters; random symbols inside expressions are not modelled. | The substitutions are followed symbol by symbol: as targets are never sources, each symbol goes to its real equivalent and back; values follow since an expression depends on its symbols only (`forth_back`). Search by mutual induction on trees. Zero as argument and symbols named `__x__` are the exceptions (`C92_restored_claim_fails`, `C92_captured`). |
| C93 | `Model/OMC.lean`: calls of fields and dependences with keys joined by commas and with float variables (`parse_args`, `eval_dist_name`, `evaluate`, lookups passed on to the roots), then `product` and `expectation` of the models of C19 and C22. Variables are named o, x and y; region, densities, draws and number of samples are arbitrary. | The calls are computed step by step for any number of samples (shapes [2, n] and [n], axes moved by the product), the expectation by `C22_expectation_partial`, limits by the strong law of large numbers and variances of pairwise independent indicators. The example does not ask for o, which is then drawn once: `C93_claim_fails`, `C93_omitted`. |
| C94 | `Model/Infer.lean`: the sequences of calls of examples/dgei/dgei_norm1d.py:36-41 and examples/checks/bern_bayes.py:26-30 as compositions of the models of C73 (dependence called, iid), C63 (field of roots called), C19 (product), C20 (marginal) and C21 (quotient). | The specification is Bayes' rule on points of a grid (`Spec.gridPoints`, functions from names to values), without indices. `C94_posterior_partial` follows entries of likelihood, prior, product and quotient to points by `Spec.Product`, `Spec.Quotient` and `Spec.Called`, and the marginal by a bijection between entries and points (`massGiven_grid`). Variables are those of C60 (finite value sets, any rational values in the grid); the float variables of the first example are not covered. |
| C95 | `Model/Evolve.lean`: the loop of examples/markov/markov_norm.py:26-34 as a recursion over rounds with the models of C28 (rekey), C19 (product), C15 (marginalise) and C25 (rescaled); the first conditional distribution by the model of C61 (step). | `Spec.Kernel` describes a conditional distribution of one array variable given another by a matrix. `C95_chain_*_partial`: entries of the product by `Spec.Product` (with the order of its axes), the sum over the common variable by `Spec.sumAt`, matched with the matrix product by a bijection of indices. `C95_linear_partial`, `C95_log_partial`: induction over rounds; on the logarithmic scale a lower bound of the transition probabilities holds for all powers of a matrix with columns summing to one. `C95_matrix` joins it with the step of a variable with a transition matrix. |
| C96 | The models of C19 (product), C16 (marginal), C17 (conditionalise) and C63 (call of a field). | `Spec.Independent`: unconditional distributions with no variable in common. `Spec.Independent.choice`: the entries of the product correspond one to one to choices of an entry of each factor, so the sums over the entries compatible with given ones factorise (`Finset.prod_univ_sum`). `C96_marginal_partial`, `C96_own_partial` for `product`, `C96_field_partial` for a call of a field, `C96_conditional_partial` for the first or the last of the distributions. |
| C97 | The models of C10 (`FloatVar.evaluate`, `evaluateD`, `uniform`) and C80 (`CRV.evaluate` with cumulative functions); the draws are a point of `Spec.streamLaw`, the product of countably many uniform laws on [0, 1). `np.random.permutation(n)` is a permutation of `Fin n`, all equally likely. | `through_le`: by the intermediate value theorem a sample is at most `t` exactly when its draw is at most the portion of `t`; then `Measure.infinitePi_pi` (`C97_joint`, `C97_one`, `C97_cumulative`) and the strong law of large numbers (`C97_limit`). `perm_position`: each place of a random permutation is equally likely to hold each number (double counting), hence `C97_finite_partial`, `C97_any_partial`; `C97_equally` for `{0}`. |
| C98 | `Model/Container.lean`: `pyIndex`, `FieldState.getitem`, `len`, `name`, `subfield`, `FieldObj.eqMethod/eq/ne` (with `NotImplemented` as `none`), `makeNames` (`variables`, `RVs`); the state of a field is that of C44. Not modelled: keys of other types, SymPy random fields indexed by their expressions. | From `Spec.Holds` of C44: `C98_len`, `C98_index`, `C98_index_end`, `C98_index_refused`, `C98_name`, `C98_names`, `C98_subfield_partial`, `C98_whole_partial`, `C98_equal_partial`; refusals and deviations as separate theorems. |
| C99 | `Model/StepChain.lean`: the loop of `markov_rw_norm.py` over `CRV.step` of C80 (`CRV.simulate`), with one draw for each step. Without transform of the variable and without delta. | `Spec.pathLaw` is the law of a Markov chain as an iterated integral, `Spec.Truncated` says what its kernel is in terms of the cumulative function. One step has the quantile of the draw as successor; two laws that agree up to every point between the limits are equal (`ext_limits`, a π-system), and induction over the steps with Fubini gives `C99_path`; `C99_start`, `C99_keeps`; `C99_chain` for the steps whatever the draws; `C99_density` by the same uniqueness. |
| C100 | `Model/RVContState.lean`: the state of a continuous random variable with finite limits (`CState`: set, transform, limits and length as stored, scale, probability and its flag, cumulative functions, transition and its functions) and its operations, exceptions with the state they leave. Not modelled: symbolic transforms, distribution objects, arguments that are no pairs of functions. | `Spec.newest` picks the last setting of a kind out of the sequence of calls. Induction over the calls from the end: `C100_settings`, `C100_values_partial` (refinement to the variable of C80), `C100_members_partial`, `C100_transition_partial`, `C100_exclusive_partial`; from the beginning with the invariant `CInv`: `C100_probability`, `C100_default_partial`, `C100_transition_given_partial`. |
| C101 | `Model/Importance.lean` (on Model/OMC.lean, Model/PDCond.lean): the call of a dependence with `iid=True` and `joint=True`, the posterior by `conditionalise` and its expectations, as examples/omc/omc_rs_norm1d.py; variables named `o` (data), `x`, `y` (parameters); the likelihood is any elementwise function. Not modelled: priors given by cumulative functions, more variables, the medians by `sorted` and `quantile` (C23, C53). | The specification is `Spec.likelihood` (a product over the data), `Spec.sampleWeight` and `Spec.weightedMean`. Each stage is computed for all sizes (`fit_call`, `fit_prod`, `fit_product`, `fit_condProb`, `fit_conditionalise`): `C101_posterior_partial`, `C101_estimate_partial` (by C22); the strong law of large numbers gives `C101_limit`. |
| C102 | `Model/WalkMean.lean` (on Model/RFCov.lean): the values of repeated calls of `step` of a random field with a spherised delta, from a start drawn by `{0}`, and the estimate, as examples/omc/omc_rw_circle.py. Not modelled: transforms, the probabilities of the steps (C72). | Runs are lists of predecessors, means over them iterated integrals over independent draws (`Spec.overRuns`). Steps keep the uniform measure on the box (C85's reversibility), also over the draws that are not refused (`kept_on`), so visits add up by induction over the steps (`visits_box`): `C102_unbiased_partial`, `C102_circle`. Refuted for limits that are included. |
| C103 | `Model/FieldCall.lean` (on the joint evaluation of Model/OMC.lean): calling a field. Requests one by one; keys naming several variables are in the model but not in the theorem. | `Spec.Grid` says what a grid is in terms of the distribution returned; evaluation is followed through parsing, defaults, axes and layout: `C103_grid_partial`, `C103_combinations` (each combination at exactly one place), `C103_refused`. Refuted when `{0}` is asked for some variable and others are left out. |
| C104 | `Model/RVDraw.lean` (on Model/RVState.lean): random draws and calls of a Boolean variable after any settings; scipy's Bernoulli draws are a parameter `coin`, of which `Spec.Coins` says independence and chances. | The state after the last probability is computed for all histories, then the law of finitely many draws from independence and the fraction of True from the strong law of large numbers: `C104_law_partial`, `C104_called`, `C104_frequency`; `stream_coins` gives such coins. Refuted for a probability of one half set after another one (`C104_claim_fails`); `C104_log_raises`. |
| C105 | `revtype` in `Model/IntDelta.lean`, on the numbers and types of Model/VarInit.lean. | By cases on containers and types, with truncation characterised independently (`Spec.Rounds`): `C105_converts_partial`, `C105_twice`, `C105_exact`. Refuted for sets and mixed lists: `C105_sets`, `C105_mixed`, `C105_claim_fails`. |
| C106 | `IntVar.apply`, `IntVar.applyAll` in `Model/IntDelta.lean`: apply_delta of integer variables with numbers or `(d,)` of any rational size. | `C106_whole`, `C106_rounds`, `C106_bounded`; `C106_reversible_iff` characterises the deltas that are undone by their opposite; walks by `(d,)` with d below one by induction over the draws (`C106_walk`) and the second Borel-Cantelli lemma (`C106_absorbed`). |
| C107 | `DRV.simulate`, `DRV.simulateAll`, `proportion` in `Model/MatrixSim.lean`: the loops of examples/markov/markov_matrix.py over the model of `RV.step`. | Runs by induction over the draws, the law as the sum over paths (`C107_law`), the proportions by the strong law of large numbers (`C107_limit`); for the matrix of the example the limit is the formula it plots (`C107_example`). |
| C108 | `FuncState` with `setFunc`, `callRef`, `use`, `act` in `Model/FuncRef.lean`: `Func` and `CF` as state machines whose pending index and unknown are shared by all references. Scipy objects and `passdims`/`passprob` are left out. | Invariants over histories of any length: `C108_latest_partial`, `C108_spent`, `C108_out_of_range`; `C108_alone`, `C108_order_partial` for the arguments; refuted for references that are held: `C108_claim_fails`, `C108_two_held`. |
| C109 | the processes of C90 (`Model/DeltaFn.lean`, `Model/MCMC.lean`), with displacements whose law has a density; the shifted normal law and the target of mcmc_prob6.py written out in `Props/DeltaFnShiftUp.lean`. | Refuted for every target: the flows between any two points are compared and integrated, so that one side of any bound gains (`C109_drift`, `C109_normal`); `C109_example`, `C109_lost`, `C109_claim_fails` for the example. Without shift `C109_keeps_partial`. |
| C110 | the processes of C90 (`Model/DeltaFn.lean`, `Model/MCMC.lean`) on targets that are constant on a set; displacements have a density bounded below on differences of points of the set. Numbers are real: the underflow of floats is not modelled. | The chance after k samples is computed by a recursion (`arrives_flat`); its deviation from the portion of the volume contracts because the mean over the target is kept (C90) and every point is proposed at a positive rate: `C110_rate`; starts outside: `C110_tends`; normal steps in boxes: `C110_box`; the examples: `C110_prob3`, `C110_prob4b`. Proportions of samples: `C110_proportions`, `C110_box_proportions`, `C110_prob3_proportions`, by induction over the run with the mean of the square of the sum of deviations as the invariant (the states after the samples are counted). |
| C111 | the processes of C90 (`Model/DeltaFn.lean`, `Model/MCMC.lean`), with one density or none stated, on any target of finite, non-zero integral. Numbers are real; transformed variables tend to the target as a density of the transformed values (`Spec.partOf`). | The step is symmetric with respect to the target, also below the smallest normal float (`C35_detailed_balance`, `afterF_symm`), so the mean square of the chance to be in a set decreases and the chances at even times are a Cauchy sequence in L²; the limit has no spread under accepted moves and so is constant (`scatter_zero`); from each start, what is not yet moved shrinks geometrically (`chanceIn_point`). `C111_tends`, `C111_normal`; the examples: `C111_prob2`, `C111_prob4a`. Proportions: the correlation of two samples m apart is at most the mean distance, at the first, of the chance to be in the set m samples later from its limit (`devBound_step`); these distances tend to their mean over the target, which vanishes as m grows (`mean_of_square`, Cesàro). `C111_proportions`, `C111_normal_proportions`, `C111_prob2_proportions`, `C111_prob4a_proportions`. |
| C112 | `IconObj`, `VarObj` in `Model/Icon.lean`: `Icon` and the parts of `Variable` that wrap a symbol. Sympy objects are their members, their truth value and whether they can be called; members whose reading raises anything but AttributeError are left out, as are `__repr__` and `__hash__`. | Induction over the members and over the calls: a member is that of the first accepted object that had it (`C112_members_partial`), so the claim fails from the second call on (`C112_claim_fails`) and holds for the first (`C112_first`); `C112_getitem`, `C112_refused`, `C112_default`, `C112_renamed`, `C112_dexpr`; reading dexpr gives the name (`C112_dexpr_claim_fails`). |
| C113 | `CFState` with `setOut`, `setInp` in `Model/CondFn.lean`. Variables and fields are their names; objects of other types (which raise UnboundLocalError in line 35) and fields without variables are left out. | By cases, the conditions of dictionaries stated apart (`Spec.Covers`, `covers_iff`): `C113_field_partial`, `C113_dict`, `C113_none`, `C113_refused`, `C113_outputs`; tuples and lists are refused as inputs, and as outputs if they hold a field (`C113_claim_fails`, `C113_tuples`). |
| C114 | `ExplState.addDeps`, `evalDeps` in `Model/ExplicitDeps.lean`, over the conditional functions of C113. Networkx is its list of edges, with RuntimeError when edges are removed while its view of them is gone through; the call of a dependence is a parameter. | By cases and induction over entries and dependences: add_deps always raises (`C114_raises`, `C114_edges`), eval_deps never gives anything but the values it was called with (`C114_values`, `C114_evaluated`), hence `C114_claim_fails`; what stays after the exception: `C114_dropped`, `C114_refused`, `C114_kept_partial`, `C114_dict`; which outputs are taken: `Spec.DepTaken`, `C114_outputs`. |
| C115 | `ExprHeld` in `Model/ExprSet.lean`: which expression the evaluation functions of an `Expr` were made from. Expressions are real functions of their symbols; arrays of one shape are followed entry by entry; the members copied are those of C112; other shapes and the conversion of values are left to Model/Expr.lean. | Induction over the expressions set (`held_fields`): numbers are put into the first expression (`C115_numbers`), arrays, by position, into the first of which a function of arrays could be made (`C115_arrays`), hence `C115_claim_fails`; `C115_entries`, `C115_once_partial`, `C115_shown`. |
| C116 | the processes of C110 and C111; `Spec.counts` counts the samples in the set and takes the chance, over the draws one after the other, that the number is among given ones (`Spec.Far`, `Spec.Near`). It is an iterated Lebesgue integral; that the chances of a set of numbers and of its complement add up to one (`C116_adds_up`) shows that it is the probability. | Chebyshev's inequality by induction on the samples (`strays_squared`) from the mean squares of C110 and C111; by place, the chances are measurable functions (`counts_eq`, `countF_measurable`). `C116_any_target`, `C116_any_target_near`, `C116_normal`, `C116_prob2`, `C116_prob4a`, `C116_box`, `C116_prob3`. |
| C117 | `iterdict` in `Model/IterDict.lean`; the order in which a set is iterated is a parameter that permutes its members; dictionaries have distinct keys. | Keys of the union by induction on the dictionaries (`iterdict_run`). `C117_keys`, `C117_values`, `C117_none`; the i-th value is not that of the i-th dictionary if one lacks the key: `C117_claim_fails`, `C117_read_back_partial`. |
| C118 | `isfiniteVar` in `Model/Finite.lean`; a number is finite, infinite or not a number; arrays are of numbers, and of any shape by their entries; objects other than numbers, texts, arrays, tuples, lists, sets of numbers and numbers of Sympy are left out. | Induction on the nesting of values. `C118_members`, `C118_arrays`, `C118_raises`; sets and Sympy's complex infinity and `nan` are told to be finite: `C118_claim_fails`, `C118_sympy_fails`, `C118_finite_partial`. |

## 4. Where the code and the properties disagree

Each of these is a theorem with a concrete witness (`_fails`, `_ignored`,
`_raises`, `_refused`), found while proving the property.

* **C04** log offsets are logged a second time when scales are multiplied.
* **C13** two variables may share an axis although their sizes differ.
* **C17** conditioning on variables in the middle of the axes raises or permutes
  wrongly; a remainder made of scalars only is normalised over the conditions;
  whether the conditioned axes go first or last depends on "half of the axes".
* **C18** a value of a scalar variable is ignored; a value absent from an array
  variable selects another slice; `keepdims=True` or repeated values on a
  variable that is not on the first axis raise `IndexError`.
* **C19/C20** a condition shared by two factors raises `TypeError` when it is an
  array (`C19_common_array_refused`), as does one met by a marginal variable of another
  text, such as `y` and `y=[]` (`C19_texts_refused`); unit value sets are added up ({3}, {3} gives {12}); p(y|x=1) p(x=2) is
  accepted; p(x=1) p(y|x) raises `KeyError`; values are compared up to a
  tolerance; variables sharing an axis other than the first raise, or, when
  another factor spans one of them, give a product of total mass two; products of
  unit value sets do not compare the values of conditions.
* **C21** a dividend with an array condition of two or more values raises; the
  values of the divisor are never compared (p(x=1,y) / p(x=2) is called
  p(y|x=1)); the axes of the divisor are not reordered, so p(x,y,z) / p(y,x)
  divides by the probability of another assignment.
* **C24** the bar is left out when the conditional part of the name is copied, so
  the first condition loses its name, further ones become marginal, and a fixed
  value as first condition is refused; an array condition on an axis of the size
  of the bins is merged with them.
* **C26** distributions all of whose variables are counts ({n}) cannot be summed
  (the list of their probabilities does not fit a distribution without axes).
* **C28** renaming onto an existing name silently merges two variables.
* **C29** distributions over the same variables overwrite each other; writing turns
  the dimension of every scalar into the text 'None' inside the distribution itself,
  after which it can no longer be deserialised; distributions are read back in
  alphabetical order, those with a space in a name not at all; a variable called
  "order" makes the file unreadable; negative counts cannot be written.
* **C36** a proposal whose reverse has probability zero is accepted.
* **C41** a group of scalars given jointly adds an axis that no variable has; an
  unknown variable at the front of a joint key is accepted.
* **C47** after a plain function has been refused for want of inputs, every later
  addition raises.
* **C53** quantiles are not monotone (interpolation goes through the difference of
  neighbouring probabilities when q or 1-q is below it); an unsorted or
  single-valued variable is answered with the set of its size.
* **C59** the verdict of a rejected sample is `None`.
* **C60** a variable given an array of probabilities (one per member, as checked by
  `set_prob`) can never be called: the array is not callable and values are refused.
* **C61** successors cannot be requested by cumulative probability `{u}`, nor several
  at a time `{n}` from a transition matrix.
* **C62** `redim` of a probability distribution with an array variable always raises
  (`_aresingletons` does not exist), as does `singleton` with a name or position; `redim`
  accepts arrays of different sizes on one axis.
* **C63** a field with a logarithmic scale that has an offset labels its probabilities
  with another scale; `propose` of a field with variables `x` and `x'` renames the first
  onto the second, whose value is lost, and the distribution lacks a variable its name
  shows.
* **C64** `slice_by_keyvals` does not compare the order of the axes asked for with that of
  the table: entries are reshaped, not transposed, so the probabilities of a field whose
  variables are listed in another order than the labels of `bool_perm_freq` are silently
  permuted; omitted dimensions (documented as guessed) always raise, as does a table
  variable with one value and no axis specified by this value. A variable with a
  single value and no axis specified by another number, when the result has no axes,
  gives an uninitialised entry instead of none (`C64_absent_claim_fails`).
* **C65** `remap` is not applied to keywords when there are dictionaries, and to nothing at all
  when there are none (`C65_claim_fails`, `C65_keywords_kept`).
* **C67** without a function for arrays, `Expr.__call__` falls back on `meshgrid`: a column for
  the first and a row for the second symbol are exchanged (`C67_exchanged`): the values are
  sorted, the names are not. (`add_efun` nearly always finds a function, so this is rare.)
* **C68** a tuple of functions has a length one too large (-1 is counted), symbolic tuples lack
  the index -1, a function defined by `def` and a callable object are refused as a mixture of
  lambdas and others; a `Func` remembers only the last index and only for one call.
* **C69** a joint density given as a scipy multivariate distribution is evaluated with the first
  two components exchanged: p(x, y) is tabulated as density(y, x) (`C69_two_partial`,
  `C69_claim_fails`); from four variables on the axes of the table are permuted too
  (`C69_many_partial`, `C69_axes_claim_fails`); the result depends on the order in which values
  are listed; a field of one variable refuses several values; `Func` evaluates single numbers
  at the right point but tables at the exchanged one.
* **C70** `set_prob(.., pscale=0)` or `0j` (logarithmic scale wherever scales are evaluated) is
  disregarded; evaluation with `pscale=` always raises KeyError (the keyword is removed before
  it is read); a field of log-scaled variables keeps a scale once specified.
* **C71** dependences in series compose to the probability of the first alone
  (`C71_claim_fails`), those neither in series nor in parallel to that of independent variables
  (`C71_neither_claim_fails`); in parallel the scale of a shared variable is counted once in the
  label but once per part in the value (`C71_scales_claim_fails`); a probability set on a composed
  dependence is silently ignored; giving a number for every variable is refused.
* **C72** a field cannot be stepped from or to arrays (`C72_claim_fails`, `C72_arrays_refused`,
  `C72_array_succ_refused`): `Field.eval_step` returns no dimensions, without which arrays are
  refused. Where nothing is asked for and a predecessor is an array the code takes the predecessors
  as successors, which can therefore never succeed. The sampling function is called forward also for
  a step in reverse. With a constant transition, or a sampling function and no transition, the
  probability is one (zero on a logarithmic scale).
* **C73** `joint=True` raises whenever a root is left to all its values, because the condition
  `y` and the marginal variable `y=[]` are compared by their text (`C73_joint_claim_fails`,
  `C73_joint_whole_refused`); functions returning the product over the observations of two leafs
  have the second counted as one (`C73_user_claim_fails`) and the keyword given as a string read
  character by character (`C73_user_string_refused`); a scale other than one leaves an extra
  factor (`C73_iid_factor`).
* **C74** `RV('x', vtype=bool)`, the documented example of rv.py:38, raises: `RV.__init__` hands the
  type over in the position of the set, and it is only put back when the set is a container
  (`C74_claim_fails`, `C74_random_type_refused`); NumPy arrays, documented as sets, are refused by
  the constructor, which asks their truth value (`C74_array_refused`), and accepted when assigned
  afterwards (`C74_array_assigned`). The list given is converted in place
  (`C74_given_claim_fails`), conversion may merge values (`C74_values_claim_fails`), without a type
  `[0, oo]` is an integer variable and `[-oo, 0]` refused (`C74_infinite_claim_fails`), assigning
  `vtype` leaves set and membership as they were (`C74_retyped_claim_fails`), and `isfinite` is
  false of every discrete variable (`C74_isfinite_discrete`).
* **C75** the inputs a function does not depend on are taken out of the keywords, which raises
  KeyError if they are not given: values of its own inputs do not suffice
  (`C75_claim_fails`, `C75_others_missing_refused`); symbolic functions are not affected
  (`C75_symbolic`). Commas separate names in a single string, but not in a dictionary
  (`C75_commas_in_dict_refused`).
* **C76** `x & d` of a variable and a dependence raises TypeError or AttributeError (a field is
  extended where a list was meant), except for a dependence of one variable on nothing, where it
  makes `x` conditional on that variable (`C76_claim_fails`, `C76_var_dep_refused`,
  `C76_var_leaf_conditions`, `C76_var_leafs_refused`). `f & d` of a field and a dependence with
  stems raises (`C76_field_stems_refused`).
* **C77** Assigning `pscale` leaves the default probability in the numbers of the old scale
  (`C77_default_claim_fails`); it is right again once the set or the probability is assigned
  (`C77_default_renewed`). Assigning a set under the default probability replaces a transition that
  was set (`C77_tran_lost`). An array of probabilities is not checked against a set assigned later
  (`C77_table_claim_fails`). The second of a pair of matrices is never checked
  (`C77_pair_claim_fails`). Refused sets, arrays and matrices stay assigned
  (`C77_refused_claim_fails`). A Boolean variable given 0.9 and then 0.5 goes on drawing with 0.9
  (`C77_draws_claim_fails`). A Boolean variable left to the default on the log scale takes -log 2 for
  a bias and gives False a probability above one (`C77_bool_log_fails`).
* **C78** None does not unset a proposal, transition, inverse or delta of a process: it raises
  AttributeError, and afterwards nothing can propose or step (`C78_none_breaks`). Once a subfield has
  been given, functions set on the process are never used, although accepted (`C78_never_self`,
  `C78_last_claim_fails`). Taking the deltas of another subfield changes who steps
  (`C78_steps_claim_fails`). A transition changed on the field is used but not shown
  (`C78_same_claim_fails`). A proposal and a transition can be set together by way of subfields
  (`C78_both_claim_fails`). Processes with roots refuse transitions (`C78_rooted_refused`) and numbers
  as deltas (`C78_number_delta_roots`) of their own. Refused values stay (`C78_refused_stays`).
* **C79** a scale assigned to a process after its sampler was named is not used by the scores, which stay on the old scale (C79_claim_fails); a string that names no sampler is taken as a constant, so that `set_scores('Metropolis')` accepts every sample (C79_unknown_claim_fails, C79_misspelt); a refused setting loses what was set and makes every later sample raise (C79_atomic_claim_fails, C79_refused_breaks).
* **C80** sampling a continuous variable: (i) `rv()` ignores cumulative functions that
  `rv({0})` uses (rv.py:279); (ii) variables with an infinite limit are never sampled,
  although cumulative functions would allow it (rv.py:293), and discrete ones with
  cumulative functions neither, since `isfinite` is False for them (variable.py:332);
  (iii) `{p}` raises TypeError except for `{0.}`, a random draw; (iv) with a transform
  the default density is one over the length between the transformed limits, which
  does not integrate to one over the interval (variable.py:335-341, rv.py:160).
* **C81** `{p}` as successor always raises: `_limits` exists nowhere (rv.py:394,
  AttributeError) and `VTYPES[np.uint]` is no entry (rv.py:429, KeyError). With a
  transform, conditional cumulative functions are applied to the transformed limits and the
  draws are not transformed back (rv.py:430-441), so that successors may leave the set
  (`C81_transform_claim_fails`).
* **C82** bounded deltas: `apply_delta` clamps to the limits (variable.py:709-714), so that
  steps of two or more from next to a limit are proposed to the limit but not back.  The
  Metropolis rule, made for symmetric proposals, then does not keep the target
  (`C82_claim_fails`; for a flat target it is kept exactly for steps of one or sets of at
  most two values, `C82_flat_iff`).  Unbounded steps keep every target (`C82_unbounded`).
  With `[1]` the values never go up, as `randint(-1, 1)` is -1 or 0
  (`C82_list_claim_fails`, `C82_list_never_up`).
* **C83** (i) limits that are included: `apply_delta` clamps to them (variable.py:713-714),
  so that bounded chains stop at a limit with positive probability
  (`C83_closed_collects`) and keep no positive density (`C83_claim_fails`,
  `C83_closed_fails`); limits that are excluded bounce (729-740) and keep every density.
  (ii) With a transform the steps are symmetric in the transformed values only, and the
  rule has no correction for it: the density that is kept is that of the transformed
  values, not of the values (`C83_plain_claim_fails`).
* **C84** (i) with a covariance set, a field whose variables step by their own deltas
  cannot be stepped: `np.array` of a list of `Delta` objects has a second axis of one
  (rf.py:343), its product with the factor gives arrays of one element, and these are
  refused as values without an axis (`C84_step_claim_fails`, `C84_arrays_refused`);
  spherised deltas are numbers and work.  (ii) `set_tran()` does not take the factor back
  (rf.py:179-183 returns before `_tfun`), so that steps continue to be shaped by it
  (`C84_replaced_claim_fails`).  (iii) a matrix that `set_tfun` refuses is used all the same
  (assigned before the checks), and so is a covariance refused for its `tsteps`
  (`C84_refused_claim_fails`, `C84_tsteps_claim_fails`).  (iv) arrays that are not
  symmetric are accepted by their lower triangle (`C84_symmetric_claim_fails`).
* **C85** (i) bounded steps with a covariance that is not diagonal: each variable whose
  component leads out of its set stays while the others move (variable.py:729-740), after
  which the components are no longer those of the covariance; a uniform target is not kept,
  the upper quarter of the unit square has `1/4 + d²/2·C₀₁·P` after one step
  (`C85_excess`, `C85_covariance_claim_fails`).  (ii) a field of a single variable steps by
  exactly ±d, and never leaves the points whole multiples of d from the start
  (`C85_lattice`, `C85_reached_claim_fails`).
* **C86** limits are not shifted with the conditional mean (as in C50): a variable correlated with
  others is drawn from the normal distribution of its own mean within the limits and only then
  moved by the displacement of the conditional mean (`C86_draw`), so that samples leave the limits
  with positive probability from starts within them (`C86_within_claim_fails`). Uncorrelated variables stay
  within (`C86_within_partial`), and all of them sampled at once are independent truncated normals (`C86_independent`).
* **C86** `sample_cond_cov` uses the order of the dictionary and not its keys: a start given in another
  order than that of the field's variables has its first sample drawn by the means and covariances of
  other variables (`C86_order_claim_fails`). Later samples are in order, and convergence is not affected (`C86_converges`).
* **C32** a transition matrix of logarithms (a variable on a logarithmic scale) is sampled as if
  its entries were probabilities: their running sums decrease, `np.digitize` then counts the
  sums above the draw, of which there are none, and the least member is drawn whatever the
  draw (`C32_logarithms`, `C32_log_claim_fails`).  A column that sums to less than one gives
  what is missing to the last member (`C32_any_sum`).
* **C88** the rule of Hastings does not correct for a matrix that is not symmetric: a process that steps by the matrix of its only variable never makes a reverse proposal (sd.py:276, `_unit_tran`), and the score is then that of Metropolis (sp_utils.py:55-56). With equal probabilities every proposal is accepted, and the example's matrix multiplies the probability of the value 0 by one half in one sample.
* **C89** (observation) the proposal function does not steer the proposals: they are uniform over the intervals of the variables (or follow cumulative functions set on the variables), and the function only sets the probability recorded with them (rf.py:592-594); a rejection sampler whose thresholds are meant relative to the proposal density has to use `opqr.q.prob` in its own score.
* **C90** the rule of Hastings does not correct for a function of deltas that is not symmetric. One transition function counts as symmetric (`_sym_tran = not ismulti`), so no reverse proposal is made and the score is that of Metropolis; a pair of functions gets the number of the forward move also as that of the reverse one (rf.py:536), and the two cancel. With deltas that only increase the value, both lose the target in one step although the density stated is exact (`C90_claim_fails`). Where the density stated is not positive the score is None and the move is always made (`C90_unstated`). Symmetric deltas keep the target whatever positive densities are stated (`C90_keeps_partial`). Bounded steps (open sets) give up the values outside one variable at a time: they keep the target if the signs of the deltas may be changed one by one (`C90_bounded_partial`, `C90_bounded_normal`), but not if only all at once: steps along the diagonal of a square leave its other corners empty (`C90_bounded_claim_fails`).
* **C91** parameters given to `set_prob` by position come before the value (`functools.partial`), so `Prob(norm, 1., 0.5)(x)` is the density of 1. with mean 0.5 and deviation x (`C91_positional`, `C91_positional_claim_fails`). Cumulative and sampling functions stay when something without them is set (`C91_kept`, `C91_mvar_kept`, `C91_own_claim_fails`). A mapping given earlier stays when a multivariate distribution is set (`C91_mvar_claim_fails`). Indexing by the empty string gives an empty list (`C91_names`). A distribution set in place of a frozen one of another kind is refused, since its functions are looked up among those of the object set before (`C91_after_frozen`).
* **C92** `Expr.simplify(e)` simplifies nothing; for an `e` that is zero it returns the object's own expression (`expr or self._expr`, `C92_zero`), and a symbol `__x__` of `e` becomes the known symbol `x` (`C92_captured`). An object refused by `SympyProb.distr` is kept in place of the former (`C92_refused`). A non-empty list or dict as index raises AttributeError from the message of the assertion.
* **C93** `oxy({'x,y': {-n}})` (examples/omc/omc_rs_circle.py) gives the variable not mentioned, o, the default {0} because other variables are of float type (field.py:351-360), so a single random value: the expectation of o is that value, and the example's estimate of the area is 0 or 4 whatever the samples (`C93_omitted`). With `'o': None` the estimate is as intended (`C93_asked_partial`).
* **C94** `div_prob` divides by `max(npz, ·)` with the divisor on a linear scale (pscales.py:219-236), so a posterior whose evidence is below the smallest normal float is not normalised: 1100 throws of a die, each of probability a half or a quarter, give a posterior that sums to less than one (`C94_underflow`, `C94_claim_fails`).
* **C95** marginalising on the logarithmic scale takes the logarithm of the sums, and `log_prob` (pscales.py:44-53) replaces the logarithm of what is below the smallest normal float by the least float: a two-state chain that changes with a quarter of the smallest normal float loses the probability of having changed after two steps (`C15_lost`, `C95_lost`, `C95_claim_fails`).
* **C96** the second of three independent coins cannot be conditioned on: `conditionalise` refuses variables with arrays on both sides of them (`C96_between_raises`, `C96_claim_fails`; C17).
* **C97** `{-n}` for a finite set takes remainders of a permutation of `n` numbers, so unless `n` is a multiple of the size of the set its first values are favoured; `{-1}` always gives the first value (`C97_single_first`, `C97_claim_fails`).
* **C98** `subfield` accepts variables that are no members (`C98_stranger`, `C98_claim_fails`), refuses every random variable because it always makes a plain `Field` (`C98_subfield_random_refused`), and fails with an AttributeError for fields (`ret_vars` does not exist; `C98_subfield_field_refused`). Fields of different variables with the same names are equal (`C98_namesakes`). Two different processes or dependences are neither equal nor unequal, as `!=` negates `NotImplemented` (`C98_neither`; the outcome of Python before 3.14, where it becomes a TypeError). `variables('x, y')` is refused (`C98_spaces_refused`).
* **C99** the number of a step is the transition function as given, also if the limits of the set cut the distribution; the successors then have this density divided by the mass between the limits (`C99_density`, `C99_claim_fails`). The numbers are right if all the mass is between them (`C99_number_partial`). The example is such a case: normal distributions between -π and π.
* **C100** `set_ufun(None)` takes the transform away but not the transformed limits, so that values are drawn between those and not transformed back, until a set or transform is given (`C100_removed`, `C100_claim_fails`). Giving a set or transform to a variable with the default probability replaces its transition (`C100_transition_lost`). Cumulative functions besides a transform, or the reverse, are refused after they have been assigned (`C100_refused_kept`).
* **C101** numbers below the smallest float are replaced: on the linear scale the joint probabilities of all samples may sum to less than it, and then the posterior does not sum to one (`C101_claim_fails`, where the likelihood is its cube); on the log scale a posterior probability below it is written as the logarithm of zero. The theorems ask for neither (`Spec.Representable`); the limit theorem needs no such assumption.
* **C102** limits that are included (a list without tuples): steps beyond are moved to the limit itself, which so has positive probability after one step (`C102_claim_fails`); the estimate is biased. A step whose draws are all nearly zero is not finite and counts as refused; the theorem is about the runs that complete.
* **C103** `{0}` asked for some variable makes None the default of the variables left out, which for one of float type also draws a single value but takes an axis: with an array for a further variable the call raises (`C103_claim_fails`). The theorem asks that no `{0}` is given while variables are left out of a field with float variables, and that no float variable is asked for None itself.
* **C104** a probability of one half (within `np.isclose`) installs no sampling function and leaves the one of the bias before, so the variable reports one half and draws with the old bias (`C104_claim_fails`); the theorems ask that the last probability set differs from one half by more than 501e-8. On the logarithmic scale the logarithm is taken for the bias and every draw raises ValueError (`C104_log_raises`).
* **C105** a set of another type raises TypeError, or becomes True for bool; a list of mixed numbers whose common type is the one asked for is returned as it is, with the Booleans in it.
* **C106** a fractional delta is truncated towards zero after it is added: exactly the whole deltas are undone by their opposite (`C106_reversible_iff`), and a walk by `(d,)` with d below one moves only towards zero and almost surely ends there (`C106_walk`, `C106_absorbed`).
* **C108** all references of a `Func` share one pending index: of two that are held the first calls the function of the second, and the second then raises (`C108_two_held`); a reference works once only (`C108_spent`); one with a number that does not exist keeps failing (`C108_out_of_range`). Keywords of the object override those of the call (`C108_alone`), unlike those of an expression (C46).
* **C109** the number for the way back is that for the way there (rf.py:536), so that the two cancel in the rule of Hastings and the correction asked for in mcmc_prob6.py is not made: its chain drifts against the target (`C109_example`), whichever of the two densities is stated, alone or in a pair, and so does any chain with displacements that lean one way (`C109_drift`).
* **C58** random integer deltas are not symmetric in range and scale.
* **C115** the evaluation functions of an `Expr` are not replaced when its expression is set again: the first one
  goes on being evaluated.
* **C117** `iterdict` leaves no gap for dictionaries that lack a key, so that the i-th value at a key need not be that
  of the i-th dictionary.
* **C118** `vtypes.isfinite` is true for sets of infinite numbers, for Sympy's complex infinity and for its `nan`.
* **C114** `add_deps` always raises: while there are edges of an architecture, RuntimeError, and then AttributeError
  (`ret_keys` does not exist) after the dependence was stored; `eval_deps` drops what dependences give.
* **C113** tuples and lists of inputs are made dictionaries that are then refused because they are not
  ordered; tuples of outputs that hold a field raise AttributeError; without arguments, `CF()` raises too.
* **C112** the members copied from a symbol are never replaced when another icon
  is set, a refused icon is stored, and reading `Variable.dexpr` gives the name.

The status and note of every property are in `MANIFEST.json`.

## 5. Assumptions about library behaviour

* `np.isin(.., assume_unique=True)` (variable.py:328) is read as membership.
* Functions made by `ufuncify` and `lambdify` evaluate elementwise with broadcasting; `subs`
  with numbers gives the (real) value of the expression (C67).
* `multivariate_normal.pdf` takes the last axis as components, broadcasts a single one, raises
  for any other number, and squeezes its result (C69; from the scipy source).
* `np.argsort` is a parameter: any permutation which sorts its argument.
* Indexing by several arrays of one position keeps the row-major order of the elements
  (numpy merges these axes into one of size one); the result is reshaped at once.
* h5py lists the names in a group in alphabetical order and returns attributes and
  datasets as written, numbers as arrays without axes.
* The iteration order of Python sets (pd.py, `conditionalise`) is a parameter.
* Indexing with lists and slices follows the numpy documentation for basic
  indexing; views and aliasing matter only where a heap cell is modelled.
