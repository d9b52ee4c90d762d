{"id": "C01", "title": "Rescaling keeps the represented probability", "statement": "rescale(prob, a, b) followed by reading the result on scale b denotes the same probability as prob read on scale a, for every pair of valid scales (positive linear coefficients, log offsets), as long as the value is not clamped; rescaling to the same scale returns the input unchanged; going to another scale and back returns the input.", "quantifier": "all stored values, all pairs of linear/log scales with any coefficient/offset", "why_tests_cant": "there are infinitely many scales and values, and the four linear/log branches interact with clamping at the smallest normal float", "anchors": ["probayes/pscales.py:rescale", "probayes/pscales.py:log_prob", "probayes/pscales.py:exp_logp", "probayes/pscales.py:logp_offs", "probayes/pscales.py:prob_coef"]}
{"id": "C02", "title": "log_prob/exp_logp are total, monotone, mutually inverse", "statement": "log_prob never fails and never returns minus infinity: it is monotone, equals the natural log from the smallest normal float upwards and the finite sentinel below it; exp_logp is monotone, bounded by the largest float, and inverts log_prob on every non-clamped value.", "quantifier": "all real inputs", "why_tests_cant": "the claim is about every real value incl. the clamp boundary", "anchors": ["probayes/pscales.py:log_prob", "probayes/pscales.py:exp_logp"]}
{"id": "C03", "title": "Scale specification is normalised once and for all", "statement": "eval_pscale accepts exactly None, 'log', 'ln' and numbers, rejects anything else with ValueError, is idempotent, and never changes whether a scale given as a complex number means log scale.", "quantifier": "all scale specifications", "why_tests_cant": "unit tests only try the handful of scales in the examples; the claim ranges over all numbers, including the special values that collide with 0 and 1", "anchors": ["probayes/pscales.py:eval_pscale", "probayes/pscales.py:iscomplex"]}
{"id": "C04", "title": "The scale of a product denotes the product of the scales", "statement": "prod_pscale of a list of scales is a scale whose coefficient is the product of the coefficients (equivalently whose log offset is the sum of log offsets).", "quantifier": "all finite lists of scales, linear, log or mixed", "why_tests_cant": "lists of any length and any mixture of scales", "anchors": ["probayes/pscales.py:prod_pscale"]}
{"id": "C05", "title": "prod_rule multiplies the represented probabilities", "statement": "prod_rule applied to any list of values with their scales returns a value/scale pair denoting the product of the denoted probabilities, whatever mixture of scales is used, and when an output scale is requested the result denotes the same product on that scale.", "quantifier": "all lists of values and scales, all requested output scales", "why_tests_cant": "depends on arbitrary list length and mixtures of linear/log scale", "anchors": ["probayes/pscales.py:prod_rule", "probayes/pscales.py:prod_pscale"]}
{"id": "C06", "title": "div_prob is safe division", "statement": "div_prob never divides by zero; whenever the divisor denotes at least the smallest normal float the result denotes the quotient of the denoted probabilities, on the requested output scale.", "quantifier": "all dividends, divisors and scale combinations", "why_tests_cant": "the zero-divisor guard and scale conversions interact for all values", "anchors": ["probayes/pscales.py:div_prob"]}
{"id": "C07", "title": "Requested grids have the requested size and respect the limits", "statement": "uniform(lo, hi, n, excl_lo, excl_hi) for n>=1 returns exactly n equally spaced values in increasing order between the limits; a limit marked exclusive is never among them and an inclusive limit is attained when n>=2.", "quantifier": "all limits lo<hi, all n>=1, all four inclusion combinations", "why_tests_cant": "every n and every interval; off-by-one endpoints are only visible on untested combinations", "anchors": ["probayes/vtypes.py:uniform"]}
{"id": "C08", "title": "The declared variable set is exactly what is tested for membership", "statement": "For a continuous variable declared with two limits, each inclusive or exclusive and given in either order, the inside() test used by probabilities holds exactly for the values of the declared interval; for discrete variables it holds exactly for members of the declared set.", "quantifier": "all pairs of limits in either order, all inclusivity combinations, all values; all finite discrete sets", "why_tests_cant": "infinite value domain; four combinations times both orders", "anchors": ["probayes/variable.py:Variable.vset", "probayes/variable.py:Variable._eval_vlims", "probayes/variable.py:Variable._eval_ulims"]}
{"id": "C09", "title": "Evaluating a continuous variable stays in its set", "statement": "evaluate({n}) of a bounded continuous variable returns n values of the declared set (grid, n>0) or of its closure (random, n<=0), also when the variable is sampled through an increasing transform with its inverse.", "quantifier": "all intervals, all n, all strictly monotone transforms, all outcomes of the random generator", "why_tests_cant": "quantifies over random outcomes and over arbitrary user transforms", "anchors": ["probayes/variable.py:Variable.evaluate", "probayes/variable.py:Variable.set_ufun", "probayes/vtypes.py:uniform"]}
{"id": "C10", "title": "Evaluating a discrete variable enumerates its set evenly", "statement": "evaluate() of a discrete variable returns exactly its set; evaluate({n}) for n!=0 returns |n| values all from the set in which the number of occurrences of any two members differs by at most one, whether in order (n>0) or randomly permuted (n<0).", "quantifier": "all finite sets, all n, all permutations drawn by the random generator", "why_tests_cant": "depends on arbitrary n versus set size and on random permutations", "anchors": ["probayes/variable.py:Variable.evaluate"]}
{"id": "C11", "title": "Bounded delta steps never leave the variable set", "statement": "With the bound option set, apply_delta on a value inside the set returns a value inside the set, for any delta, for every kind of interval, for scalars and arrays alike.", "quantifier": "all intervals, values inside them, all delta values, scalar and array inputs", "why_tests_cant": "the violating step has to land on an excluded end point exactly", "anchors": ["probayes/variable.py:Variable.apply_delta"]}
{"id": "C12", "title": "Unbounded deltas are additive and reversible", "statement": "Without bounding, applying delta a then delta b equals applying a+b, and applying a then -a returns the original value, including through an invertible transform; for booleans a delta of one flips the value and flipping twice is the identity.", "quantifier": "all values, all deltas, all invertible transforms", "why_tests_cant": "ranges over all values, deltas and user supplied transforms", "anchors": ["probayes/variable.py:Variable.apply_delta"]}
{"id": "C13", "title": "A successfully built distribution is internally consistent", "statement": "Whenever a Distribution (or PD) is constructed without an exception, every key has a dimension entry that is None exactly for scalars, every array has its size on its own axis and one elsewhere, the shape lists the axis sizes, all keys sharing an axis agree in size, the total size is the product, and a PD's probability array has exactly that shape.", "quantifier": "all value dictionaries and dimension specifications", "why_tests_cant": "the number of keys, axes, sharing patterns is unbounded", "anchors": ["probayes/distribution.py:Distribution.dims", "probayes/pd.py:PD.prob", "probayes/pd.py:PD.dims"]}
{"id": "C14", "title": "Distribution names round trip", "statement": "Parsing a distribution name into marginal and conditional keys and rendering it again gives the same name, and rendering any marginal/conditional dictionaries then parsing gives them back; stripping =value suffixes never merges two keys silently.", "quantifier": "all name strings / all dictionaries of names", "why_tests_cant": "all strings", "anchors": ["probayes/pd_utils.py:str_margcond", "probayes/pd_utils.py:margcond_str", "probayes/pd_utils.py:str2key"]}
{"id": "C15", "title": "marginalise sums out exactly the named variables", "statement": "For a distribution whose variables lie on separate axes in key order, marginalise(keys) succeeds for every set of marginal keys and its probability at any value combination of the remaining variables is the sum over all values of the removed ones; names, values and scales of the remaining variables are unchanged and the total mass is conserved.", "quantifier": "all numbers of variables, all axis sizes, all subsets of keys, all probability arrays", "why_tests_cant": "arbitrary rank arrays and arbitrary subsets", "anchors": ["probayes/pd.py:PD.marginalise"]}
{"id": "C16", "title": "Marginalisation order does not matter", "statement": "Summing out A then B gives the same distribution as B then A and as A and B together; marginal(keys) keeps exactly the requested marginal variables, and sums out the rest.", "quantifier": "all distributions, all disjoint key subsets", "why_tests_cant": "arbitrary ranks and subsets", "anchors": ["probayes/pd.py:PD.marginalise", "probayes/pd.py:PD.marginal"]}
{"id": "C17", "title": "conditionalise yields normalised conditionals", "statement": "conditionalise(keys) returns, for every distribution and every proper subset of its marginal variables, the distribution divided by its marginal over the remaining variables: for each fixed combination of conditioning values with positive mass the result sums to one, and keys move from the marginal to the conditional side.", "quantifier": "all ranks, sizes, subsets of keys", "why_tests_cant": "which subsets work depends on the position of the axes", "anchors": ["probayes/pd.py:PD.conditionalise", "probayes/distribution.py:Distribution.redim"]}
{"id": "C18", "title": "Slicing a distribution by value picks the matching entries", "statement": "Calling a distribution with {key: value} where the value occurs once removes that axis and leaves the probabilities at that value; slicing by several keys at once equals slicing one after the other; a value that does not occur never yields a non-empty probability.", "quantifier": "all distributions, all keys and values", "why_tests_cant": "all ranks, positions and multiplicities of the value", "anchors": ["probayes/pd.py:PD.__call__"]}
{"id": "C19", "title": "Multiplying distributions multiplies probabilities pointwise", "statement": "The product of distributions (a*b, product(...)) has at every joint value combination the product of the factors' probabilities at the corresponding values, independently of the order of the axes in the factors; marginal keys are the union of the factors' marginals and a condition met by another factor's marginal is no longer a condition.", "quantifier": "all numbers of factors, all ranks, axis orders and sizes", "why_tests_cant": "axis permutation and broadcasting bugs only show for particular rank/order/size combinations", "anchors": ["probayes/pd_utils.py:product", "probayes/pd.py:PD.__mul__"]}
{"id": "C20", "title": "Incompatible factors are refused", "statement": "product() raises whenever two factors define the same marginal variable, when conditions are incompatible, or when a condition of one factor and the corresponding marginal of another are evaluated at different values.", "quantifier": "all pairs of factors", "why_tests_cant": "the check must hold for every name form and value array", "anchors": ["probayes/pd_utils.py:product"]}
{"id": "C21", "title": "Dividing a joint by a marginal gives the conditional", "statement": "For a joint distribution and one of its marginals, joint / marginal has at every value combination the quotient of the probabilities; multiplying back gives the joint; hence prior*likelihood divided by its evidence is the posterior and sums to one over the prior's variable.", "quantifier": "all joints with positive marginals, all subsets of keys", "why_tests_cant": "arbitrary ranks and subsets, whole pipeline", "anchors": ["probayes/pd.py:PD.__truediv__", "probayes/pscales.py:div_prob"]}
{"id": "C22", "title": "Expectation is a weighted mean", "statement": "expectation(keys) of a distribution with positive mass lies between the smallest and largest value, is linear in the values, equals the probability-weighted mean, and does not depend on the probability scale.", "quantifier": "all distributions, values and scales", "why_tests_cant": "all real weights and values", "anchors": ["probayes/pd.py:PD.expectation"]}
{"id": "C23", "title": "Sorting a distribution keeps values paired with probabilities", "statement": "sorted(key) reorders along the key's axis: values come out in increasing order and every (value, probability) pair, including the values of keys sharing the axis, is preserved; total mass is unchanged.", "quantifier": "all distributions and keys", "why_tests_cant": "all permutations", "anchors": ["probayes/pd.py:PD.sorted"]}
{"id": "C24", "title": "Remarginalising conserves mass and bins correctly", "statement": "remarginalise(bins, mapping) puts each source probability in exactly one bin, the bin whose edge interval contains the mapped value (end bins absorb outliers), so the total mass is conserved for every mapping.", "quantifier": "all source distributions, monotone bin edges and mappings", "why_tests_cant": "all mappings and bin edges, boundary values", "anchors": ["probayes/pd.py:PD.remarginalise"]}
{"id": "C25", "title": "rescaled() changes only the scale", "statement": "rescaled(scale) keeps names, values, dimensions and the represented probabilities and sets the scale to the requested one.", "quantifier": "all distributions and scales", "why_tests_cant": "all real probabilities and scales", "anchors": ["probayes/pd.py:PD.rescaled"]}
{"id": "C26", "title": "Summing scalar distributions concatenates them", "statement": "summate(p1,...,pn) of scalar distributions over the same variable returns a distribution with exactly these n values and probabilities in order; anything incompatible raises.", "quantifier": "all n and all scalar distributions", "why_tests_cant": "unbounded n", "anchors": ["probayes/pd_utils.py:summate", "probayes/pd.py:PD.__add__"]}
{"id": "C27", "title": "i.i.d. product over a sampled axis", "statement": "prod(keys) returns the product of the probabilities along the removed axes, on a scale such that the represented probability is the product of the represented probabilities.", "quantifier": "all distributions, all scales, all axis sizes", "why_tests_cant": "scale bookkeeping is wrong only for non-unit scales", "anchors": ["probayes/pd.py:PD.prod"]}
{"id": "C28", "title": "Renaming keys changes names only", "statement": "rekey(map) renames keys (in name, values and dims) and changes nothing else; a map that would merge two keys is refused.", "quantifier": "all distributions and key maps", "why_tests_cant": "all maps, including chains and swaps", "anchors": ["probayes/distribution.py:Distribution.rekey", "probayes/pd.py:PD.rekey", "probayes/pd_utils.py:rekey_dict"]}
{"id": "C29", "title": "Serialisation round trips", "statement": "deserialise(serialise(d)) and reading back what was written to disk give back the same values, dimensions, probabilities and scale for any list of distributions, in order, and serialising or writing never alters the distribution itself.", "quantifier": "all lists of distributions", "why_tests_cant": "collisions and in-place effects depend on names and presence of scalars", "anchors": ["probayes/pd_utils.py:serialise", "probayes/pd_utils.py:deserialise", "probayes/pd_utils.py:write_serialised", "probayes/pd_utils.py:read_serialised", "probayes/distribution.py:Distribution.serialise", "probayes/pd.py:PD.serialise"]}
{"id": "C30", "title": "Default probabilities are uniform and normalised", "statement": "A discrete random variable without explicit probability assigns 1/n to each of its n members and 0 outside its set, so probabilities over its set sum to one, on linear and log scale alike.", "quantifier": "all finite sets and values", "why_tests_cant": "all set sizes", "anchors": ["probayes/rv.py:RV._default_prob", "probayes/rv_utils.py:uniform_prob"]}
{"id": "C31", "title": "Boolean variables with a bias are Bernoulli", "statement": "A boolean variable with scalar probability b assigns b to True and 1-b to False: values in [0,1] summing to one, for every b in [0,1].", "quantifier": "all b in [0,1]", "why_tests_cant": "all real biases", "anchors": ["probayes/rv.py:RV.set_prob", "probayes/sympy_prob.py:bernoulli_prob"]}
{"id": "C32", "title": "Transition-matrix sampling is inverse-CDF sampling", "statement": "For a transition matrix whose column for the current state is normalised, sampling the next state with a uniform draw u returns the unique state whose cumulative interval contains u: each state is returned on a set of u of length equal to its transition probability, and a state of zero transition probability is never returned.", "quantifier": "all matrix sizes, all non-negative normalised vectors, all draws u in [0,1)", "why_tests_cant": "continuum of draws", "anchors": ["probayes/rv_utils.py:matrix_cond_sample"]}
{"id": "C33", "title": "Transition-matrix lookup agrees with the matrix", "statement": "Looking up a transition probability for predecessor/successor values returns the matrix entry at the positions of those values in the variable's set, for scalars and arrays.", "quantifier": "all sets, matrices, values in the set", "why_tests_cant": "all sizes and positions", "anchors": ["probayes/rv_utils.py:lookup_square_matrix"]}
{"id": "C34", "title": "A Metropolis chain moves only by accepted proposals", "statement": "At every step the verdict value is the proposed value if accepted and the unchanged previous verdict otherwise; the first sample is always taken; after a rejection the next proposal starts from the same state.", "quantifier": "all proposal/score/threshold sequences, any number of steps", "why_tests_cant": "property of unbounded histories", "anchors": ["probayes/sp.py:SP.next", "probayes/sd.py:SD._sample_tran"]}
{"id": "C35", "title": "Metropolis acceptance satisfies detailed balance", "statement": "The Metropolis score lies in [0,1], is one for non-decreasing probability and makes p(x)q(x,y)a(x,y)=p(y)q(y,x)a(y,x) for symmetric q, independently of the probability scale, so the target is invariant.", "quantifier": "all target weights, symmetric proposals, scales", "why_tests_cant": "equation over all pairs of states", "anchors": ["probayes/sp_utils.py:metropolis_scores", "probayes/sp_utils.py:metropolis_thresh", "probayes/sp_utils.py:metropolis_update"]}
{"id": "C36", "title": "Hastings acceptance corrects asymmetric proposals", "statement": "With Hastings scores the chain satisfies detailed balance for arbitrary (asymmetric) proposal densities.", "quantifier": "all target weights and proposal pairs", "why_tests_cant": "needs asymmetric proposals for all pairs of states", "anchors": ["probayes/sp_utils.py:hastings_scores", "probayes/rf.py:RF.reval_tran"]}
{"id": "C37", "title": "A sampler with a stop count yields exactly that many samples", "statement": "Iterating sampler(stop=n) yields exactly n samples, then ends and the sampler's counter and last state are reset; without a stop it never ends; walk(stop=n) records exactly n samples and takes exactly n samples from the process.", "quantifier": "all n and all processes", "why_tests_cant": "unbounded iteration", "anchors": ["probayes/sp.py:SP.sampler", "probayes/sp.py:SP.walk", "probayes/sp_utils.py:sample_generator"]}
{"id": "C38", "title": "Samplers of one process do not interfere", "statement": "Interleaving draws from several samplers of the same process gives each sampler the sample sequence, counter and last state it would have had alone, also across reset of another sampler.", "quantifier": "all interleavings of draws, creations and resets", "why_tests_cant": "all schedules", "anchors": ["probayes/sp.py:SP.next", "probayes/sp.py:SP.reset", "probayes/sp.py:SP.get_counter", "probayes/sp.py:SP.get_last"]}
{"id": "C39", "title": "Collected samples are all retained samples in order", "statement": "Calling the process with a list of samples keeps every sample whose update verdict is not False, in order and with multiplicity, in each collected attribute.", "quantifier": "all lists of samples", "why_tests_cant": "all list lengths and rejection patterns", "anchors": ["probayes/sp.py:SP.__call__"]}
{"id": "C40", "title": "Component-wise transitions visit every variable once per sweep", "statement": "With a step size t, successive transition evaluations of an n-variable field update consecutive blocks of t variables so that every variable is updated exactly once in each sweep of ceil(n/t) evaluations.", "quantifier": "all n, t, any number of steps", "why_tests_cant": "unbounded number of evaluations, divisibility boundary", "anchors": ["probayes/rf.py:RF.eval_tfun"]}
{"id": "C41", "title": "Evaluating a field assigns axes consistently", "statement": "Evaluating a field at values gives one separate axis per non-scalar variable in key order, no axis for scalars, and the same axis for variables given jointly as 'x,y'.", "quantifier": "all fields and value specifications", "why_tests_cant": "any number and order of variables", "anchors": ["probayes/field.py:Field.evaluate", "probayes/field.py:Field.parse_args"]}
{"id": "C42", "title": "Independent fields multiply", "statement": "The probability a random field without explicit probability assigns to a value combination is the product of its variables' probabilities.", "quantifier": "any number of variables, any values", "why_tests_cant": "unbounded number of variables", "anchors": ["probayes/rf_utils.py:rv_prod_rule", "probayes/rf.py:RF.eval_prob"]}
{"id": "C43", "title": "Field deltas only affect the named variables and respect isotropy", "statement": "Applying a delta to a field changes exactly the variables named by the delta; an isotropic delta with total length d has component vector of Euclidean norm d for every outcome of the random generator.", "quantifier": "all fields, deltas, random outcomes", "why_tests_cant": "all random outcomes", "anchors": ["probayes/field.py:Field.eval_delta", "probayes/field.py:Field.apply_delta"]}
{"id": "C44", "title": "Fields accumulate variables without loss", "statement": "Building a field by add_var or & contains exactly the given variables in order; adding further variables to a non-empty field keeps the old ones and adds the new ones; a duplicate is refused; the reported number of variables equals the number of keys.", "quantifier": "all sequences of additions", "why_tests_cant": "all histories of additions", "anchors": ["probayes/field.py:Field.add_var", "probayes/field.py:Field._refresh", "probayes/ops.py:and_op"]}
{"id": "C45", "title": "Leafs, stems and roots partition the variables", "statement": "In a dependence, however built, the leafs are exactly the variables that condition no other, the roots those that condition others and depend on none, the stems the rest; every variable is in exactly one class.", "quantifier": "all finite dependence graphs", "why_tests_cant": "all graphs", "anchors": ["probayes/dependence.py:Dependence._refresh", "probayes/dependence.py:Dependence.def_deps"]}
{"id": "C46", "title": "Order and delta specifications route arguments as declared", "statement": "Calling an expression with an order map passes each keyword's value to the declared argument position or keyword; with a delta map it passes the declared difference; no argument is dropped, duplicated or moved otherwise; malformed maps are refused.", "quantifier": "all maps and argument lists", "why_tests_cant": "all numbers of arguments and maps", "anchors": ["probayes/expression.py:Expression._call", "probayes/expression.py:Expression._check_mapping", "probayes/func.py:Func._call"]}
{"id": "C47", "title": "A functional never overwrites or half-adds a definition", "statement": "add_func refuses to redefine an existing output, and a refused addition leaves the functional exactly as before.", "quantifier": "all sequences of additions", "why_tests_cant": "histories with failures", "anchors": ["probayes/functional.py:Functional.add_func"]}
{"id": "C48", "title": "Integers and bit vectors convert back and forth", "statement": "bin_to_int(int_to_bin(k, n)) = k for 0<=k<2^n and int_to_bin(bin_to_int(bits)) = bits.", "quantifier": "all n, k and bit vectors", "why_tests_cant": "unbounded n", "anchors": ["probayes/likelihoods.py:int_to_bin", "probayes/likelihoods.py:bin_to_int"]}
{"id": "C49", "title": "Boolean permutation frequencies count the data", "statement": "bool_perm_freq counts each observed combination exactly as often as it occurs, counts sum to the number of rows and relative frequencies to one, and base_freq adds to the counts.", "quantifier": "all data tables and column numbers", "why_tests_cant": "all tables", "anchors": ["probayes/likelihoods.py:bool_perm_freq"]}
{"id": "C50", "title": "Conditional Gaussian sampling respects limits", "statement": "Values sampled from the conditional covariance lie within the declared limits of the variable, whatever the conditioning values.", "quantifier": "all covariances, means, limits and draws", "why_tests_cant": "continuum of draws and parameters", "anchors": ["probayes/cond_cov.py:CondCov", "probayes/rf_utils.py:sample_cond_cov"]}
{"id": "C51", "title": "Suffix handling is reversible", "statement": "Splitting a value dictionary into predecessor and suffixed successor entries and stripping the suffix recovers both original dictionaries.", "quantifier": "all dictionaries", "why_tests_cant": "all key sets", "anchors": ["probayes/sd_utils.py:desuffix", "probayes/sd_utils.py:get_suffixed"]}
{"id": "C52", "title": "Monotonicity test is correct", "statement": "ismonotonic(x) is true exactly for sequences that are non-decreasing or non-increasing.", "quantifier": "all finite sequences", "why_tests_cant": "all sequences", "anchors": ["probayes/pd_utils.py:ismonotonic"]}
{"id": "C53", "title": "Quantiles are taken from the distribution's support and are monotone", "statement": "quantile(q) returns values within the range of the distribution's values, non-decreasing in q for a one-dimensional distribution.", "quantifier": "all one-dimensional distributions and q in [0,1]", "why_tests_cant": "all probabilities and q", "anchors": ["probayes/pd.py:PD.quantile"]}
{"id": "C54", "title": "Random boolean deltas flip with the requested probability", "statement": "Applying a random delta [p] to a boolean value flips it exactly when the uniform draw is below p, for scalars and for every array entry alike.", "quantifier": "all p in [0,1], all draws, scalars and arrays", "why_tests_cant": "continuum of draws", "anchors": ["probayes/variable.py:Variable.apply_delta"]}
{"id": "C55", "title": "The scale option scales deltas to the variable's length", "statement": "With scale=True the default delta is multiplied by the length of the variable whenever it is evaluated or applied.", "quantifier": "all variables, deltas and lengths", "why_tests_cant": "all values", "anchors": ["probayes/variable.py:Variable.set_delta", "probayes/variable.py:Variable.eval_delta", "probayes/variable.py:Variable.apply_delta"]}
{"id": "C56", "title": "Default transitions are uniform", "statement": "The transition probability of a discrete variable with default transition is the uniform probability when both values belong to the set, and a value outside the set never gets a larger probability than one inside, on any scale.", "quantifier": "all sets, values and scales", "why_tests_cant": "all sets, values and scales", "anchors": ["probayes/rv.py:RV.eval_tran", "probayes/rv_utils.py:uniform_prob"]}
{"id": "C57", "title": "Default field transitions are symmetric", "statement": "The transition probability of a random field of independent variables without a transition of its own is the geometric mean of the probabilities of predecessor and successor, and is unchanged by swapping the two.", "quantifier": "all numbers of variables, values, probabilities and scales", "why_tests_cant": "all values and scales", "anchors": ["probayes/rf.py:RF.eval_tran", "probayes/rf_utils.py:rv_prod_rule"]}
{"id": "C58", "title": "Random deltas are symmetric", "statement": "A delta (d,) moves a value by d or -d with the sign drawn at random; a delta [d] moves it by an amount drawn from the range -d to d; in both cases the opposite of every possible move is possible too and no move exceeds d.", "quantifier": "all variables, deltas, options and draws", "why_tests_cant": "continuum of draws; the missing end point of integer ranges is rarely noticed", "anchors": ["probayes/variable.py:Variable.eval_delta", "probayes/variable.py:Variable.set_delta"]}
{"id": "C59", "title": "Samplers with a proposal distribution propose at random or from the last accepted sample", "statement": "With a proposal distribution and no transition, every sample of a sampler is a proposal together with its probability. Without a delta each is proposed afresh, depending only on that step's random outcome; with a delta it is proposed from the one last accepted. The verdict of each step is the proposed value if accepted and the last accepted one otherwise.", "quantifier": "all processes, proposal distributions, deltas, acceptance outcomes and numbers of steps", "why_tests_cant": "all random outcomes and histories", "anchors": ["probayes/sp.py:SP.next", "probayes/sd.py:SD._sample_prop"]}
{"id": "C60", "title": "Calling a random variable gives the distribution of exactly the values asked for", "statement": "Calling a discrete random variable with nothing, a count, a value or an array gives a distribution of that variable alone over exactly the values it evaluates to, on the variable's scale, with for every value the variable's probability (number, array or function) if it is a member of its set and zero otherwise; with the default probability and no values the probabilities sum to one.", "quantifier": "all variable sets, probabilities, scales, requests and draws", "why_tests_cant": "all sets and requests; array probabilities are never called in the tests", "anchors": ["probayes/rv.py:RV.__call__", "probayes/rv.py:RV.eval_prob", "probayes/rv.py:RV.eval_dist_name", "probayes/prob.py:Prob.eval_prob"]}
{"id": "C61", "title": "Stepping a random variable gives its conditional distribution", "statement": "step gives the distribution of the successor given the predecessor: for a transition matrix the entry in the row of the successor and column of the predecessor (values in increasing order), from the reverse matrix of a pair when reversed; columns summing to one give conditional probabilities summing to one; a successor of a single value is drawn from its column and reported with that entry; values outside the set are refused. A number as transition is reported for members and zero otherwise.", "quantifier": "all sets, matrices, predecessors, successors, deltas, directions and draws", "why_tests_cant": "all sizes and orders of sets, continuum of draws", "anchors": ["probayes/rv.py:RV.step", "probayes/rv.py:RV.eval_step", "probayes/rv.py:RV.eval_tran", "probayes/rv_utils.py:lookup_square_matrix", "probayes/rv_utils.py:matrix_cond_sample"]}
{"id": "C62", "title": "Looking up, selecting and moving variables keeps their values", "statement": "lookup returns every variable asked for exactly once (all when none is named; unknown names are ignored): scalars by themselves, arrays with the other arrays asked for on the same axis as a tuple named after them, in the order of the distribution. With as_dist it gives the consistent distribution of these variables, refusing a selection that leaves an axis unused. redim moves variables to the axes named, keeps their values, and refuses dimensions that omit an array variable, give a scalar an axis, name an unknown variable or skip an axis; redim of a probability distribution moves its probabilities along. singleton(name) tells whether that variable is a scalar.", "quantifier": "all distributions, selections and dimension mappings", "why_tests_cant": "all numbers of variables and axes; redim and singleton with a name are never called in the tests", "anchors": ["probayes/distribution.py:Distribution.lookup", "probayes/distribution.py:Distribution.redim", "probayes/distribution.py:Distribution.singleton", "probayes/pd.py:PD.redim"]}
{"id": "C63", "title": "Calling a random field of independent variables gives their product", "statement": "Calling a field of independent variables gives the product of the distributions the variables give when called alone with their parts of the request: every variable keeps its values and the text it appears with, those with several values get an axis each in the order of the variables, and every probability is the product. Variables not mentioned are asked for all their values, unknown ones are refused. propose gives the same with every variable renamed by the suffix.", "quantifier": "all numbers of variables, sets, probabilities, scales, requests and draws", "why_tests_cant": "all numbers of variables and mixtures of requests; names that collide under the suffix are never tried", "anchors": ["probayes/rf.py:RF.__call__", "probayes/rf.py:RF.propose", "probayes/rf.py:RF.eval_prob", "probayes/field.py:Field.evaluate", "probayes/field.py:Field.parse_args", "probayes/rf_utils.py:rv_prod_rule"]}
{"id": "C64", "title": "Slicing a table by the values of its variables picks the right entries", "statement": "slice_by_keyvals returns, for a specification of every variable of a table by a number or by all its values along an axis of the result, the entries of the table with these values: at every position of the result the entry with the numbers specified and the same positions along the axes. Values not in the table give no entry, values that occur more than once, differing arrays, other variables, unordered or missing dimensions are refused. The function returned by bool_perm_freq thus gives the share of rows with the booleans asked for.", "quantifier": "all tables, numbers of variables, values, specifications and axes", "why_tests_cant": "all numbers and orders of axes; the tests use one table with axes in the same order", "anchors": ["probayes/rf_utils.py:slice_by_keyvals", "probayes/likelihoods.py:bool_perm_freq"]}
{"id": "C65", "title": "Arguments are collated under their names", "statement": "parse_as_str_dict collates dictionaries and keywords into one ordered dictionary with string keys: an object is named by its name, a tuple or list by its members' names joined by commas, a name in remap is replaced; every name appears once, where first given, with the value last given. Objects without a name and arguments that are not dictionaries are refused.", "quantifier": "all numbers of arguments, keys, keywords and remappings", "why_tests_cant": "all mixtures of arguments", "anchors": ["probayes/variable_utils.py:parse_as_str_dict"]}
{"id": "C66", "title": "Sorting an ordered dictionary leaves items without order in place", "statement": "sort_ordered_dict returns the same items: those whose order is None stay at their position, the others are in increasing order, or decreasing if reversed. An order of another length, or for other keys, is refused.", "quantifier": "all dictionaries, orders given as sequence or dictionary, and both directions", "why_tests_cant": "all numbers and interleavings of ordered and unordered items", "anchors": ["probayes/expr.py:sort_ordered_dict"]}
{"id": "C67", "title": "Calling an expression evaluates it at the values given", "statement": "Calling a symbolic expression with a value for each of its symbols, by position or by name, gives for numbers and booleans the number the expression takes there, and for arrays the array of the broadcast shape with at every index the value at the symbols' entries there. Missing values, values by position in another number or mixed with names, and arrays that do not broadcast are refused.", "quantifier": "all expressions, orders of symbols, values, shapes and ways of giving them", "why_tests_cant": "all shapes and numbers of symbols; arrays of two symbols are never tested", "anchors": ["probayes/expr.py:Expr.__call__"]}
{"id": "C68", "title": "Indexing several functions calls the one indexed", "statement": "Indexing an expression made of several functions gives the function at that position (-1 the last) or name, and refuses other indices; it is called whatever else is indexed before the call, and repeatedly. The length is the number of functions. Functions of one kind are accepted together, others refused.", "quantifier": "all numbers of functions, indices, names and sequences of indexing and calling", "why_tests_cant": "all interleavings of indexing and calling", "anchors": ["probayes/expression.py:Expression.__getitem__", "probayes/expression.py:Expression.__len__", "probayes/expression.py:Expression.set_expr", "probayes/func.py:Func.__getitem__"]}
{"id": "C69", "title": "Joint densities are tabulated at the values given", "statement": "The probabilities of a field whose joint probability is a scipy multivariate distribution of its variables, at values given for each, are the (log) density at these values: one axis per variable with several values, in the order of the variables, and at every position the density at the values there. The order in which the values are listed does not matter. Other names, or another number of variables than components, are refused. A function (Func) of the distribution gives the same.", "quantifier": "all densities, numbers of variables, values and orders of listing", "why_tests_cant": "all numbers of variables; symmetric densities hide exchanged components", "anchors": ["probayes/prob.py:Prob.eval_prob", "probayes/rf.py:RF.eval_prob", "probayes/func.py:Func._call_scipy"]}
{"id": "C70", "title": "A probability has the scale last specified and can be evaluated on another", "statement": "After any sequence of set_prob calls the scale is the one last specified, and one if none was; what is no scale is refused. rescale(probs, pscale=s) expresses the same probabilities on scale s, and evaluation with pscale=s gives the probability on scale s. A field whose probability is set without a scale has the product of its variables' scales.", "quantifier": "all sequences of settings, scales and probabilities", "why_tests_cant": "all histories of settings; evaluation with a scale is never tested", "anchors": ["probayes/prob.py:Prob.set_prob", "probayes/prob.py:Prob.pscale", "probayes/prob.py:Prob.rescale", "probayes/prob.py:Prob.eval_prob", "probayes/rf.py:RF.set_prob", "probayes/rf.py:RF._refresh"]}
{"id": "C71", "title": "Composed dependences combine the probabilities of their parts", "statement": "A stochastic dependence composed of others, in series, in parallel or otherwise, evaluates for given values to the product of the probabilities the parts give for the values of their own variables, on its own scale; a probability set on it is used instead. Parts that depend on nothing are refused.", "quantifier": "all numbers of parts, arrangements, variables, probability functions, scales, values and shapes", "why_tests_cant": "all graphs, scales and mixtures of numbers and arrays; composed dependences are never tested", "anchors": ["probayes/sd.py:SD.set_prob", "probayes/sd_utils.py:arch_prob", "probayes/dependence.py:Dependence.def_deps", "probayes/rf.py:RF.eval_prob"]}
{"id": "C72", "title": "Stepping a random field", "statement": "step(pred, succ) of a random field gives the conditional distribution of the successors given the predecessors: the keys are the variables and the variables with a prime, the name shows successors | predecessors with their values, and the probability is that of the transition set, in the direction asked for, or without one the geometric mean of the probabilities of predecessors and successors. Successors are those given, those of the field's delta, or a draw by the sampling function. A field of one variable with its own transition steps as the variable. Missing successors, and draws without a sampling function, are refused; keys that are no variables make no difference.", "quantifier": "all numbers of variables, values, transitions, deltas, sampling functions, directions and scales", "why_tests_cant": "all combinations of what is set and asked; arrays are never tested", "anchors": ["probayes/rf.py:RF.step", "probayes/rf.py:RF.eval_step", "probayes/rf.py:RF.eval_tran", "probayes/field.py:Field.eval_step", "probayes/field.py:Field.parse_args"]}
{"id": "C73", "title": "Calling a dependence with independent observations and jointly", "statement": "Calling a stochastic dependence of leafs on roots gives the conditional distribution of the leafs given the roots, each probability that of the function set at the values there. With iid the observations of the leafs named (iid=True: all leafs) are multiplied and replaced by their number; functions that return the product themselves give the same. With joint=True the result is the product of this and of the distribution of the roots at the same values, thus the joint distribution. Keys of roots or of variables that are numbers, and joint without roots, are refused.", "quantifier": "all numbers of leafs and roots, sets, requests, draws, probability functions and scales", "why_tests_cant": "all numbers of variables and observations, all mixtures of keywords; joint is never tested with a root left to all its values", "anchors": ["probayes/sd.py:SD.__call__", "probayes/rf.py:RF.__call__", "probayes/rf.py:RF._eval_iid", "probayes/dependence.py:Dependence.eval_dist_name", "probayes/pd.py:PD.prod"]}
{"id": "C74", "title": "A variable has the type and the set it is declared with", "statement": "Variable(name, vset, vtype) and RV(name, vset, vtype) make a variable of the type given, with the set given: without either the Boolean one, with a type alone that type over its default set (False, True; 0, 1; the whole line). Two limits with float make the interval between them, in either order, each end inclusive or, in a tuple, exclusive; a pair makes the open interval. Values of bool or int, as a list, set, range or array, with or without the type, make the discrete variable over these values, sets and ranges in increasing order; with a type given, values are converted. The set and the type may exchange positions. Values of different types without a type, intervals of other than two limits and tuples of other than two values are refused.", "quantifier": "all types, numbers, infinities, numbers of values and limits, orders and kinds of container", "why_tests_cant": "all combinations of containers, kinds of number and types; random variables by type alone are never tested", "anchors": ["probayes/variable.py:Variable.__init__", "probayes/variable.py:Variable.vset", "probayes/variable.py:Variable.vtype", "probayes/variable.py:Variable._eval_vlims", "probayes/variable.py:Variable.isfinite", "probayes/vtypes.py:eval_vtype", "probayes/rv.py:RV.__init__"]}
{"id": "C75", "title": "The functions of a functional are called by the names of their outputs", "statement": "A functional of output and input vertices has their names; things without names, and vertices whose names are no identifiers, are refused. A function added under outputs and inputs, named by strings (one string may list several, separated by commas) or by the vertices, is called by indexing with the names of its outputs, in any form and order, and calling: with the arguments given to it, to the functional and to the call, in this order, and the keywords given, of which those of the call take precedence, then those of the functional, without the inputs of other functions. A symbolic function is evaluated at the values of its symbols. Names that are not the outputs of a function added are refused. Values of its own inputs suffice to call a function.", "quantifier": "all vertices, sequences of additions, forms of names, arguments and keywords", "why_tests_cant": "all numbers of functions with different inputs and all orders of additions; functions of different inputs are never called by name in the tests", "anchors": ["probayes/functional.py:Functional.__init__", "probayes/functional.py:Functional.add_func", "probayes/functional.py:Functional._set_partials", "probayes/functional.py:Functional.__getitem__", "probayes/functional_utils.py:parse_identifiers", "probayes/functional_utils.py:collate_vertices"]}
{"id": "C76", "title": "The operators & and | compose variables, fields and dependences", "statement": "a & b of variables and fields gives the field of the variables of a followed by those of b not among them, named a,b; a | b gives the dependence of all variables of a on all variables of b, named a|b; the result is random if the operands are. x & d and f & d of a variable or field and a dependence add the variables to the leafs of the dependence and keep its roots. d & e of dependences has all variables and conditions of both; if the roots of e are the leafs of d, it is the dependence of the leafs of e on the roots of d. Operands of which only one is random, other objects, dependences as conditions, and dependences before variables or fields are refused.", "quantifier": "all numbers of variables, random or not, all fields and dependences", "why_tests_cant": "all pairs of kinds of operand and all numbers of variables; variables before dependences are never tested", "anchors": ["probayes/ops.py:and_op", "probayes/ops.py:or_op", "probayes/rv.py:RV.__and__", "probayes/rv.py:RV.__or__", "probayes/dependence.py:Dependence.def_deps", "probayes/field.py:Field.set_vars"]}
{"id": "C77", "title": "A random variable stays consistent when its parts are reassigned", "statement": "After any sequence of assignments of set, probability, transition and scale to a random variable: vset is the set last assigned; def_prob tells whether the probability was left to the default, in which case each of the n values of the present set has probability 1/n on the present scale; a probability or a transition that was set is kept until another is set. Arrays of probabilities and matrices of transition (each of a pair) are accepted exactly if they fit the number of values, and continue to fit. What is refused leaves the variable as it was. Random draws of a Boolean variable follow its probability.", "quantifier": "all sequences of assignments, sets, probabilities, transitions and scales", "why_tests_cant": "all histories of assignments; the tests assign once", "anchors": ["probayes/rv.py:RV.__init__", "probayes/rv.py:RV.vset", "probayes/rv.py:RV.set_prob", "probayes/rv.py:RV._default_prob", "probayes/rv.py:RV.set_tran", "probayes/prob.py:Prob.pscale", "probayes/rv.py:RV.eval_vals"]}
{"id": "C78", "title": "Proposals, transitions and deltas of a process may be those of its leafs or roots", "statement": "set_prop, set_tran, set_tfun and set_delta of a stochastic dependence or process, given 'leafs', 'roots' or a random field of the same variables, take over what is set on that field, and sample() then proposes from or steps with that field; given a function they set the process's own, and it proposes and steps itself; None unsets. What was set last is used. Names of fields it does not have are refused; not both a proposal and a transition can be set; what is refused leaves the process as it was.", "quantifier": "all processes, sequences of settings on process and fields, and arguments", "why_tests_cant": "all histories of settings on several objects; the examples set each once", "anchors": ["probayes/sd.py:SD.set_prop", "probayes/sd.py:SD.set_tran", "probayes/sd.py:SD.set_tfun", "probayes/dependence.py:Dependence.set_delta", "probayes/dependence.py:Dependence.leafs_roots", "probayes/sd.py:SD.propose", "probayes/dependence.py:Dependence.step", "probayes/sd.py:SD.sample", "probayes/rf.py:RF.set_tran"]}
{"id": "C79", "title": "The acceptance rule of a process is the one chosen", "statement": "set_scores, set_thresh and set_update of a stochastic process choose the rule by which samples are accepted. Naming 'metropolis', 'hastings' or 'gibbs' for the scores chooses scores, threshold and update of that sampler, for the threshold the last two, for the update itself; functions, numbers and None set one part. What was set last for a part holds. After naming 'metropolis' a sample is accepted just when the uniform threshold does not exceed the ratio of the probabilities on the scale of the process, and after 'gibbs' always. Names of no sampler are refused, and what is refused leaves the rule as it was.", "quantifier": "all sequences of settings, scales, probabilities and draws", "why_tests_cant": "all histories of settings, in particular scales assigned after the sampler; the examples name a sampler once", "anchors": ["probayes/sp.py:SP.set_scores", "probayes/sp.py:SP.set_thresh", "probayes/sp.py:SP.set_update", "probayes/sp.py:SP.eval_expr", "probayes/sp.py:SP.next", "probayes/sp_utils.py:MCMC_SAMPLERS"]}
{"id": "C80", "title": "Calling a continuous random variable", "statement": "rv(values) of a continuous random variable gives the distribution of the values given, numbers or arrays, with the density at each: the constant set inside the declared interval and the zero of the scale outside, or the function set. {n}, {-n}, {0} and no argument give n values spread evenly over the interval, n random ones, one and one; with cumulative function and inverse set, the n values are at equal steps of cumulative probability between those of the limits and random ones follow the distribution restricted to the limits; {p} is the value of cumulative probability p. The default density integrates to one over the interval. Density functions of a wrong shape are refused.", "quantifier": "all intervals, inclusive or not, finite or not, densities, cumulative functions, transforms, scales, numbers of values and draws", "why_tests_cant": "all strictly increasing cumulative functions and all draws: the law of a sample is a statement about a measure", "anchors": ["probayes/rv.py:RV.__call__", "probayes/rv.py:RV.evaluate", "probayes/rv.py:RV.eval_prob", "probayes/rv.py:RV._default_prob", "probayes/rv.py:RV.set_pfun", "probayes/variable.py:Variable._eval_ulims", "probayes/variable.py:Variable.evaluate", "probayes/vtypes.py:uniform"]}
{"id": "C81", "title": "Stepping a continuous random variable", "statement": "step(pred, succ) of a continuous random variable gives the conditional distribution of the successors given the predecessors, successors along the first axis, with the number of the transition for each pair: one if none is set, a constant if both belong to the interval and zero if not, or the function, in reverse the second of two. Without a successor it is the predecessor changed by the delta if one is set, or else one sampled value for a single predecessor and the same values for an array; without a transition this is refused. With a constant {n} samples the interval evenly or uniformly; with a function and conditional cumulative functions it gives values at equal steps of the cumulative probability given the predecessor, random ones following that distribution, also for unbounded variables, and {p} the value of cumulative probability p. Sampling without these functions or from several predecessors is refused.", "quantifier": "all intervals, transitions, conditional cumulative functions, predecessors, successors, deltas, directions, scales and draws", "why_tests_cant": "all conditional distributions and draws; sampling from conditional cumulative functions is never tested on bounded variables", "anchors": ["probayes/rv.py:RV.step", "probayes/rv.py:RV.eval_step", "probayes/rv.py:RV.eval_tran", "probayes/rv.py:RV.set_tfun", "probayes/rv.py:RV.evaluate"]}
{"id": "C82", "title": "A Metropolis process that steps by the deltas of an integer variable keeps its target", "statement": "A process of one integer variable over all values between two limits, whose deltas are set by set_delta to (d,), steps of d with random sign, to [d], uniform steps, bounded or not, and whose samples are judged by the Metropolis rule: each next() moves to the value proposed if the uniform threshold is at most the ratio of its probability to the present one, and stays otherwise. If the present value is distributed like the probability set, so is that after any number of further steps. Bounded steps stay in the set, and every value with positive probability can be reached from every other.", "quantifier": "all limits, steps, probabilities on all scales, starts, draws and numbers of steps", "why_tests_cant": "the claim is about the law of the chain after any number of steps; the examples look at histograms of single runs", "anchors": ["probayes/sp.py:SP.next", "probayes/sp_utils.py:metropolis_scores", "probayes/sp_utils.py:metropolis_update", "probayes/sd.py:SD.sample", "probayes/field.py:Field.eval_delta", "probayes/field.py:Field.apply_delta", "probayes/variable.py:Variable.eval_delta", "probayes/variable.py:Variable.apply_delta"]}
{"id": "C83", "title": "A Metropolis process that steps by the deltas of float variables keeps its target", "statement": "A process of any number of float variables, each with its own steps of random sign (d,) or uniform steps [d], bounded or not, with or without a transform, whose samples are judged by the Metropolis rule: in each step every variable proposes by a draw of its own, and the process moves there if the uniform threshold is at most the ratio of the densities, and stays otherwise; if the present values are distributed with the density set, so are those after any number of further steps, over every set of values; and where the density is positive, uniform steps reach every open set of values from everywhere. Steps are made, and the density is meant, in the transformed coordinates of the variables that have a transform.", "quantifier": "all numbers of variables, limits, transforms, steps, measurable densities on all scales, starts and numbers of steps", "why_tests_cant": "the claim is about the law of the chain on a continuum after any number of steps", "anchors": ["probayes/sp.py:SP.next", "probayes/sp_utils.py:metropolis_scores", "probayes/sp_utils.py:metropolis_update", "probayes/sd.py:SD.sample", "probayes/field.py:Field.eval_delta", "probayes/field.py:Field.apply_delta", "probayes/variable.py:Variable.eval_delta", "probayes/variable.py:Variable.apply_delta"]}
{"id": "C84", "title": "A covariance set as transition shapes the steps of a random field", "statement": "set_tran(C) of a random field with an array accepts just the square matrices of its number of variables that are symmetric and positive definite. Its deltas, the steps of the variables or spherised ones, are then multiplied by the Cholesky factor of C: independent symmetric steps of equal size become steps of mean zero whose covariance is proportional to C, and spherised steps of radius d lie at the distance d in the metric of C, with covariance d\u00b2/n C. The field can be stepped by them. set_tran() takes the covariance back, and matrices that are refused, by set_tran or set_tfun, change nothing.", "quantifier": "all numbers of variables, matrices, deltas, draws and sequences of calls", "why_tests_cant": "means and covariances are integrals over all draws, for all positive definite matrices; there is no test of a covariance", "anchors": ["probayes/rf.py:RF.set_tran", "probayes/rf.py:RF.set_tfun", "probayes/rf.py:RF.eval_delta", "probayes/rf.py:RF.eval_step", "probayes/field.py:Field.eval_delta", "probayes/field.py:Field.apply_delta", "probayes/variable.py:Variable.apply_delta", "probayes/distribution.py:Distribution._set_dims"]}
{"id": "C85", "title": "A Metropolis process that steps by spherised deltas keeps its target", "statement": "A process of float variables whose field steps by one spherised delta of radius d, scaled by the lengths of the variables or not, bounded or not, with or without transforms, with or without a covariance, and whose samples are judged by the Metropolis rule: in each step the delta is evaluated once for all variables, each proposes by its component, and the process moves there if the uniform threshold is at most the ratio of the densities and stays otherwise, or, if the delta is refused, where it is. If the present values are distributed with the density set, in the transformed coordinates, so are those after any number of further steps. Where the density is positive everywhere, unbounded steps reach every open set of values from everywhere.", "quantifier": "all numbers of variables, limits, transforms, radii, covariances, measurable densities on all scales, starts and numbers of steps", "why_tests_cant": "the claim is about the law of the chain on a continuum after any number of steps; spherised deltas are never tested in a process", "anchors": ["probayes/sp.py:SP.next", "probayes/sp_utils.py:metropolis_scores", "probayes/sp_utils.py:metropolis_update", "probayes/field.py:Field.eval_delta", "probayes/field.py:Field.apply_delta", "probayes/rf.py:RF.set_tran", "probayes/rf.py:RF.eval_delta", "probayes/variable.py:Variable.apply_delta"]}
{"id": "C86", "title": "A process that samples by a multivariate normal distribution keeps it and tends to it", "statement": "A process of two or more float variables whose transition is set to a multivariate normal distribution of given means and covariance, sampled by the 'gibbs' rule: each next() draws the variables that are due (all, or tsteps of them in turn) from their conditional distributions given the present values of the others, and leaves the rest. Without limits, if the start is drawn from the distribution, so is every sample, and from any start the samples tend to it in total variation, whatever the number of variables sampled at a time. With limits, samples stay within them. The order in which the start's values are given does not matter.", "quantifier": "all numbers of variables, means, positive definite covariances, limits, starts, orders, steps at a time and numbers of samples", "why_tests_cant": "the claims are about laws on a continuum after any number of steps and in the limit; the example looks at one run of one distribution", "anchors": ["probayes/rf.py:RF.set_tran", "probayes/rf.py:RF.set_tfun", "probayes/rf.py:RF.eval_step", "probayes/rf.py:RF.step", "probayes/rf_utils.py:sample_cond_cov", "probayes/cond_cov.py:CondCov", "probayes/sp_utils.py:MCMC_SAMPLERS", "probayes/sp.py:SP.next", "probayes/sd.py:SD.sample"]}
{"id": "C87", "title": "A process of one variable with a transition matrix is the Markov chain of the matrix", "statement": "A process of one random variable over a finite set whose set_tran was given a square matrix, columns (predecessors) summing to one and values in ascending order, sampled from a given value of the variable without scores: next() yields a move from the present value to one drawn from the column of that value, the sample has the two values, the entry of the matrix as probability of the move and the probability of the new value, and the next sample starts from the value reached. Every path has the product of its entries as probability, the value after k samples has the law given by the k-th power of the matrix, laws the matrix keeps are kept, and if some power has no zeros there is just one such law and the samples tend to it from every start. The summary of the samples lists values and probabilities in order; the probability plotted by the example of a three-state chain is the one that it simulates.", "quantifier": "all sizes, values, stochastic matrices, starts, numbers of samples and draws", "why_tests_cant": "the claims are about laws after any number of steps and in the limit; the example compares frequencies of one matrix", "anchors": ["probayes/sp.py:SP.next", "probayes/sp.py:SP.sampler", "probayes/sp.py:SP.__call__", "probayes/sd.py:SD.sample", "probayes/rf.py:RF.step", "probayes/rf.py:RF.eval_step", "probayes/rv.py:RV.eval_step", "probayes/rv_utils.py:matrix_cond_sample", "probayes/sd_utils.py:get_suffixed", "probayes/pd_utils.py:summate"]}
{"id": "C88", "title": "A process that proposes by a transition matrix and is judged by Metropolis or Hastings keeps its target", "statement": "A process of one random variable over a finite set with a transition matrix, columns summing to one, and probabilities of its values, with set_scores, set_thresh and set_update naming 'metropolis' or 'hastings': the first sample is the proposed move; afterwards a move is proposed by the column of the present value and made if the uniform threshold is at most the ratio of the probabilities, or else the process stays, and the verdict of the sample is the distribution of the value where it then is. The law after any number of samples is the power of the resulting matrix. The target is kept, and, if some power of the matrix has no zeros and all values have positive probability, the samples tend to the normalised target from every start: by Metropolis for symmetric matrices, by Hastings for all.", "quantifier": "all sizes, values, stochastic matrices, probabilities, starts, numbers of samples and draws", "why_tests_cant": "the claims are about laws after any number of steps and in the limit; no test has a process with a matrix and a rule", "anchors": ["probayes/sp.py:SP.next", "probayes/sp.py:SP.set_scores", "probayes/sp_utils.py:metropolis_scores", "probayes/sp_utils.py:metropolis_update", "probayes/sp_utils.py:hastings_scores", "probayes/sp_utils.py:hastings_update", "probayes/sd.py:SD.sample", "probayes/rv.py:RV.eval_step"]}
{"id": "C89", "title": "Rejection sampling by a process with a proposal function and uniform thresholds", "statement": "A process of continuous variables with a probability function, a proposal function, the probability of the value proposed as score, thresholds drawn uniformly between 0 and c, and acceptance if the score reaches the threshold, without delta or transition: every sample of a sampler is a new value of each variable, drawn from its interval (through its transform or cumulative function if it has one), with its probability, the proposal function there as probability of the proposal, the score, the threshold and the verdict, a function of its own draws alone. Proposals are uniform whatever the proposal function. The chance of being accepted with values in a set is the integral of the probability function over it, up to c, relative to c times the volume; if the function does not exceed c, values accepted follow the probability function. With independent draws the fraction accepted tends to that chance almost surely, so that the example's estimate of the area of a circle tends to the area. Calling the process with the samples collects just those accepted.", "quantifier": "all numbers of variables, limits, transforms, probability and proposal functions, bounds of the thresholds, sets of values, numbers of samples and draws", "why_tests_cant": "the claims are about laws on a continuum and almost sure limits; the example plots one run", "anchors": ["probayes/rf.py:RF.propose", "probayes/rf.py:RF.eval_prop", "probayes/rf.py:RF.set_prop", "probayes/rv.py:RV.evaluate", "probayes/field.py:Field.evaluate", "probayes/sd.py:SD.sample", "probayes/sd_utils.py:desuffix", "probayes/sp.py:SP.next", "probayes/sp.py:SP.__call__", "examples/omc/omc_rejection_sp_circle.py"]}
{"id": "C90", "title": "A process moved by a function given to set_delta and judged by Metropolis or Hastings keeps its target", "statement": "A process of float variables whose set_delta was given a function returning the field's Delta, whose set_tran was given one function q of the values before and after a move, or a pair of them, and whose scores, thresholds and update are those of Metropolis or Hastings. The first sample is at the start displaced by the delta, in transformed coordinates where there are transforms; afterwards a displaced value is proposed and taken if the uniform threshold is at most the ratio of the targets (for Hastings times the ratio of the densities stated for the way back and the way there), and the process otherwise stays where it is. A function that returns something other than a Delta of the field's variables raises and leaves the process as it was. By Metropolis with symmetric deltas, and by Hastings whatever the deltas if q is the density of their moves, the target is kept in any number of steps. Deltas with positive chance to fall in any open set reach every open set where the target is positive, as the normal deltas of the example do. With bound=True a value displaced out of the open set of its variable is given up on its own, and symmetric deltas keep the target on the sets.", "quantifier": "all numbers of variables, transforms, functions, laws of deltas, stated densities, targets, starts and numbers of steps", "why_tests_cant": "the claims are about laws on a continuum after any number of steps; the example plots one run with one symmetric function", "anchors": ["probayes/field.py:Field.set_delta", "probayes/field.py:Field.eval_delta", "probayes/field.py:Field.apply_delta", "probayes/rf.py:RF.set_tran", "probayes/rf.py:RF.eval_tran", "probayes/rf.py:RF.reval_tran", "probayes/sd.py:SD.sample", "probayes/sp.py:SP.next", "probayes/sp.py:SP.set_scores", "probayes/sp_utils.py:hastings_scores", "probayes/sp_utils.py:metropolis_scores", "probayes/sp_utils.py:metropolis_update", "examples/mcmc/mcmc_prob4a.py"]}
{"id": "C91", "title": "A probability set to a distribution object evaluates and samples as that distribution", "statement": "A probability whose set_prob was given a univariate scipy distribution with parameters evaluates at a value to the density (or mass) of the distribution with these parameters there, and to its logarithm if its scale is logarithmic; each function of the library the distribution has is found by its name, density and its logarithm also as 'prob' and 'logp', and called with the parameters besides its own arguments; the cumulative functions and the sampling function are those of the distribution. This does not depend on what had been set before, and parameters may be given by keyword or by position. A multivariate distribution is made of its parameters once and its functions are called by name. A probability set to a number, an array or a function afterwards has no cumulative functions or sampling function. Indexing by the empty string lists the names.", "quantifier": "all distributions, parameters, scales, arguments and sequences of calls of set_prob", "why_tests_cant": "tests set two distributions once each, by keyword; what an object remembers of earlier settings shows in sequences of calls", "anchors": ["probayes/prob.py:Prob.set_prob", "probayes/prob.py:Prob._set_partials", "probayes/prob.py:Prob.set_pfun", "probayes/prob.py:Prob.set_sfun", "probayes/prob.py:Prob.eval_prob", "probayes/prob.py:Prob.__getitem__", "probayes/expression.py:Expression.set_expr", "probayes/expression.py:Expression._call"]}
{"id": "C92", "title": "Symbolic distributions are set up so that each expression means what it stands for", "statement": "Replacing the symbols of an expression by real ones and back (Expr.simplify, which does nothing else) gives an expression of the same symbols and values. After a Sympy distribution is set, the names that can be asked for are those of the density and its logarithm, the cumulative function, its inverse and sampling, as far as the distribution has them; the logarithm has the logarithm of the density as value everywhere if Sympy's simplification keeps values of real symbols; the distribution object is the first among the object and its parts, in order, that has a cumulative function; of several inverses the first of those of shortest representation is kept; and sampling gives as many values as asked for in the order drawn, one if no size or zero is given. What is not a distribution is refused.", "quantifier": "all expressions, symbols, orders of substitution, simplifications, distributions, solutions, sizes and draws", "why_tests_cant": "tests look at one normal distribution with one symbol; names of symbols and forms of expressions are unbounded", "anchors": ["probayes/expr.py:collate_symbols", "probayes/expr.py:Expr.subre", "probayes/expr.py:Expr.resub", "probayes/expr.py:Expr.simplify", "probayes/sympy_prob.py:sympy_obj_from_dist", "probayes/sympy_prob.py:sympy_sfun", "probayes/sympy_prob.py:SympyProb.distr", "probayes/sympy_prob.py:SympyProb.__getitem__"]}
{"id": "C93", "title": "Ordinary Monte Carlo by joint random samples estimates the probability of a region by the fraction of samples in it", "statement": "A Boolean variable o depends on two continuous variables x and y by a function that says whether o tells if (x, y) is in a region. Asked for n joint random samples of x and y, the conditional distribution times the marginal distribution of its samples is a distribution of the samples and o, in which every sample has the product of the densities of x and y, all of it on the value of o that tells whether it is in the region, and the expectation of o is the fraction of the samples in the region. For independent samples the estimate is unbiased with mean square error p (1 - p) / n, and tends to the probability p of the region almost surely.", "quantifier": "all regions, densities, samples and numbers of samples", "why_tests_cant": "tests would have to fix draws and region; the claims are about any number of samples and almost sure limits; the example plots one run", "anchors": ["probayes/field.py:Field.parse_args", "probayes/field.py:Field.evaluate", "probayes/field.py:Field.eval_dist_name", "probayes/rf.py:RF.__call__", "probayes/sd.py:SD.__call__", "probayes/distribution.py:Distribution.lookup", "probayes/pd.py:PD.__call__", "probayes/pd.py:PD.expectation", "probayes/pd_utils.py:product", "examples/omc/omc_rs_circle.py"]}
{"id": "C94", "title": "Exact inference on a grid and Bayes' rule give the posterior", "statement": "A conditional distribution of one variable given others, called with observations of the variable and iid=True and with a grid of values for each of the others, times the distribution of the others at the values looked up from it, divided by the marginal of the product over the observations: the result is a distribution of the others given as many observations as there were, and every point of the grid has the product of prior probability and of the probabilities of the observations, divided by the sum of these products over the grid; it sums to one. Without iid, the product of prior and conditional distribution divided by its marginal over the leafs has at every entry the weight divided by the sum of weights over all values of the others at the same values of the leafs.", "quantifier": "all numbers of roots, grids, observations, priors, conditional probability functions and their scales", "why_tests_cant": "the claims are about every grid and number of observations; the examples plot one posterior", "anchors": ["probayes/sd.py:SD.__call__", "probayes/sd.py:SD.eval_iid", "probayes/rf.py:RF.__call__", "probayes/distribution.py:Distribution.lookup", "probayes/pd.py:PD.marginal", "probayes/pd.py:PD.__mul__", "probayes/pd.py:PD.__truediv__", "probayes/pscales.py:div_prob", "examples/dgei/dgei_norm1d.py", "examples/checks/bern_bayes.py"]}
{"id": "C95", "title": "Evolving a conditional distribution step by step gives the powers of the transition matrix", "statement": "Multiplying a conditional distribution of z given y by one of y given x and marginalising over y gives the conditional distribution of z given x whose probability at values of z and x is the sum over y of the products. Starting from the conditional distribution of the successor given the predecessor over all values of a variable, renaming its variables to times i and i+1, multiplying by the last result and marginalising over time i, the result after k rounds is the conditional distribution of the value at time k given the value at time 0, with the k-th power of the transition matrix as probabilities, successor on the first axis; converted by rescaled() its numbers are these probabilities, and its columns sum to one if those of the transition matrix do.", "quantifier": "all value sets, transition matrices, scales, names of the times and numbers of rounds", "why_tests_cant": "the example plots six rounds of one chain; the claim is about all numbers of rounds and all matrices", "anchors": ["probayes/pd.py:PD.rekey", "probayes/pd.py:PD.__mul__", "probayes/pd.py:PD.marginalise", "probayes/pd.py:PD.rescaled", "probayes/rv.py:RV.step", "probayes/pd_utils.py:product", "examples/markov/markov_norm.py"]}
{"id": "C96", "title": "Variables taken independently have their own distributions as marginals, and given some the others are as they were", "statement": "The joint distribution of distributions of separate variables (their product, or a call of a field of independent variables): its marginal for the variables of some of them is the product of these times the total probabilities of the others, with the same variables and values; for the variables of one, with the others normalised, it is that distribution, and for one variable of a field it is what the variable gives when called alone. Conditioned on the variables of any of the distributions but not all, it is the product of the others at every entry, whatever the values conditioned on.", "quantifier": "all numbers of distributions, variables, values, probabilities and choices of distributions", "why_tests_cant": "the examples print the tables of two coins; the claim is about any number of variables and any choice of them", "anchors": ["probayes/pd_utils.py:product", "probayes/pd.py:PD.marginal", "probayes/pd.py:PD.conditionalise", "probayes/rf.py:RF.__call__", "examples/checks/two_coins.py"]}
{"id": "C97", "title": "Random samples of a variable are independent and follow the law its transform declares; values of a finite set are equally likely", "statement": "Given independent uniform draws, the n random values a float variable gives for {-n} are independent, and each is at most t with probability (f(t) - f(lo)) / (f(hi) - f(lo)), where f is the transform of the variable (the identity if none) and lo and hi the limits of its set; likewise the value for {0}; and the fraction of n values that are at most t tends to that probability almost surely. For a random variable with cumulative functions F and its inverse the same holds with F for f. Each value of a finite set is equally likely for {0}, and equally likely in each of the n places for {-n}.", "quantifier": "all intervals, continuous strictly monotone transforms (increasing or decreasing) with their inverses, numbers of samples and thresholds; all finite sets", "why_tests_cant": "a test can only look at histograms of samples with a fixed seed; the claim is about the joint law of any number of samples", "anchors": ["probayes/variable.py:Variable.evaluate", "probayes/vtypes.py:uniform", "probayes/rv.py:RV.evaluate"]}
{"id": "C98", "title": "A field is an ordered collection of its variables: length, indices, names, subfields and equality agree", "statement": "The length of a field is the number of its variables; field[i] is the i-th of them, field[-i] the i-th from the end, other integers raise an IndexError; field[name] is the variable of that name and None exactly if there is none; variables made from the name of a field have the names of its variables. The subfield of members given by name or as variables has these as variables in the order asked for, the subfield of all of them equals the field, and what is no member is refused. Two fields are equal exactly if they comprise the same variables, in any order, and are unequal otherwise.", "quantifier": "all fields, variables, names, integers and choices of members", "why_tests_cant": "tests index a field of two or three variables; negative and wrong indices, subfields, and equality of other classes are not exercised", "anchors": ["probayes/field.py:Field.__getitem__", "probayes/field.py:Field.subfield", "probayes/field.py:Field.__eq__", "probayes/field.py:Field.__ne__", "probayes/rf.py:RF.__eq__", "probayes/variable.py:variables", "probayes/rv.py:RVs"]}
{"id": "C99", "title": "Repeated steps of a continuous random variable are a Markov chain of its conditional distribution", "statement": "A random variable over an interval has a transition function and the conditional cumulative function with its inverse. Stepping it n times, each time from the successor before, gives n steps; each starts where the one before ended, has the transition's number for its two values, and all values are between the limits. For independent uniform draws the successors lie in any given sets with the probability of the Markov chain whose successor given x follows the conditional distribution restricted to the limits; asked to start with {0} the start is uniform between them. A distribution this chain keeps is kept by any number of steps. The number of a step is the density of its successor given its predecessor.", "quantifier": "all intervals bounded or not, transition and cumulative functions, scales, starts, numbers of steps and measurable sets", "why_tests_cant": "the example plots one run of ten thousand steps; the claim is about the joint law of any number of steps", "anchors": ["probayes/rv.py:RV.step", "probayes/rv.py:RV.eval_step", "probayes/rv.py:RV.eval_tran", "probayes/rv.py:RV.set_tfun", "probayes/rv.py:RV.evaluate", "examples/markov/markov_rw_norm.py"]}
{"id": "C100", "title": "The settings of a continuous random variable are those it was last told, whatever came before", "statement": "After any sequence of assignments of the set and calls of set_ufun, set_pfun, set_tran, set_tfun, set_prob and of the scale, a continuous random variable with finite limits has the set, the transform and the functions last given; the values it gives for {n} are those of a variable with these settings made at once, so members of the set last given; a probability given stays until another is; the default one denotes one over the length between the limits of the set last given, through the transform last given; the transition is that last given; a setting that is refused changes nothing, so that it never has both a transform and cumulative functions.", "quantifier": "all sequences of settings, sets, transforms, functions, transitions, probabilities, scales, requests and draws", "why_tests_cant": "tests make one setting of each kind; what an object keeps of earlier settings shows in sequences of calls only", "anchors": ["probayes/variable.py:Variable.vset", "probayes/variable.py:Variable._eval_ulims", "probayes/variable.py:Variable.set_ufun", "probayes/variable.py:Variable.evaluate", "probayes/rv.py:RV.set_ufun", "probayes/rv.py:RV.set_pfun", "probayes/rv.py:RV.set_tfun", "probayes/rv.py:RV.set_tran", "probayes/rv.py:RV.set_prob", "probayes/rv.py:RV._default_prob", "probayes/prob.py:Prob.set_pfun"]}
{"id": "C101", "title": "Random samples weighted with the likelihood of the data give the posterior", "statement": "A dependence of data on two continuous parameters with constant densities, called with any data, joint random samples {-n} of the parameters, iid=True and joint=True, and conditionalised on the data, is a distribution of the parameters over the n samples drawn in which each sample has its share of the likelihood, the product over the data of the density given as function on the linear or as logarithm on the log scale; its expectations are the sample means weighted with the likelihood, and for independent samples of one law they converge almost surely to the means under that law weighted with the likelihood, as the number of samples grows.", "quantifier": "all data, positive densities, both scales, numbers of samples, samples drawn, supports and constant prior densities, and laws of the samples", "why_tests_cant": "tests fit one model to one random data set and look at the plot; no run shows a limit, and the roles of the data axis, the axis of joint samples and the subtraction of the largest logarithm only show for all sizes", "anchors": ["probayes/sd.py:SD.__call__", "probayes/rf.py:RF.__call__", "probayes/rf.py:RF._eval_iid", "probayes/field.py:Field.evaluate", "probayes/pd.py:PD.prod", "probayes/pd.py:PD.conditionalise", "probayes/pd.py:PD.expectation", "probayes/pd_utils.py:product", "examples/omc/omc_rs_norm1d.py"]}
{"id": "C102", "title": "A random walk of a random field within its limits estimates areas without bias", "statement": "Repeated calls of step of a random field of float variables whose delta was set to a tuple (d,) with bound=True, the first with {0} and each further one with the successors of the last: over the runs that complete, the mean of the size of the whole times the fraction of predecessors in a region is the volume of the region within the limits, for any number of steps; for the circle of the example it is its area.", "quantifier": "all numbers of variables, limits, step sizes, scaled or not, measurable regions and numbers of steps", "why_tests_cant": "one run shows one random estimate; whether bounces at the limits bias the walk only shows in its law, which no number of runs gives", "anchors": ["probayes/rf.py:RF.step", "probayes/rf.py:RF.eval_delta", "probayes/field.py:Field.set_delta", "probayes/field.py:Field.eval_delta", "probayes/field.py:Field.apply_delta", "probayes/field.py:Field.eval_step", "probayes/variable.py:Variable.apply_delta", "probayes/variable.py:Variable.evaluate", "examples/omc/omc_rw_circle.py"]}
{"id": "C103", "title": "Calling a field gives the grid of the values asked for", "statement": "Calling a field with values asked for variable by variable gives a distribution over all its variables: each single value as it is and without axis, each array along an axis of its own, the axes in the order of the variables, every combination of values at exactly one place, and the name the joined names. A variable left out is asked for one random value if the field has a float variable, for all its values otherwise. A name the field does not have is refused; a field without variables gives nothing.", "quantifier": "all fields of distinctly named variables, all dictionaries of values and all subsets of variables left out", "why_tests_cant": "the grid depends on which variables are scalars, arrays or left out, in every combination and order of keys; tests take a few", "anchors": ["probayes/field.py:Field.__call__", "probayes/field.py:Field.evaluate", "probayes/field.py:Field.parse_args", "probayes/field.py:Field._eval_vars", "probayes/variable.py:Variable.evaluate"]}
{"id": "C104", "title": "Random draws of a Boolean variable follow its probability", "statement": "Whatever was set to a Boolean variable before, once its probability is set to a number its random draws follow that probability: values drawn together are independent, any sequence of values comes up with the product of the probabilities that calling the variable with these values reports, a single drawn value is True with the probability reported for True, and the fraction of True among n drawn values tends to the probability almost surely as n grows.", "quantifier": "all histories of settings, all probabilities, all numbers of draws, all sources of independent draws", "why_tests_cant": "draws are random: tests can at best compare frequencies of a few histories within tolerances; the law and the limit concern all events and all numbers of draws", "anchors": ["probayes/rv.py:RV.evaluate", "probayes/rv.py:RV.__call__", "probayes/rv.py:RV.set_prob", "probayes/sympy_prob.py:bernoulli_sfun", "probayes/sympy_prob.py:bernoulli_prob", "probayes/prob.py:Prob.set_sfun"]}
{"id": "C105", "title": "Values are converted to the type of a variable one by one", "statement": "revtype(values, vtype) converts each value to the type: to False only from zero, to the whole number next to it on the side of zero, or to the same number as a float. Values of the type already are returned as they are, a single number stays one, order and number of values are kept, converting again changes nothing, and numbers that the type can hold keep their value. Without a type the values are returned as they are.", "quantifier": "all numbers, arrays, lists and tuples of any length, all three types", "why_tests_cant": "the continuum of numbers; rounding of negative numbers and mixed containers are rarely tried", "anchors": ["probayes/vtypes.py:revtype", "probayes/vtypes.py:eval_vtype", "probayes/vtypes.py:isscalar"]}
{"id": "C106", "title": "Deltas of integer variables of any size", "statement": "apply_delta of an integer variable moves to a whole number, by exactly the delta if that is a whole number, and within the limits when bounded. A delta applied and then its opposite leads back to the start. With a random delta (d,) the walk is symmetric.", "quantifier": "all values, all rational deltas, all sequences of draws", "why_tests_cant": "fractional deltas only show their effect over many steps: tests of single steps see a value near the start", "anchors": ["probayes/variable.py:Variable.apply_delta", "probayes/variable.py:Variable.eval_delta", "probayes/vtypes.py:revtype"]}
{"id": "C107", "title": "Simulated proportions of a chain tend to the powers of its matrix", "statement": "A run from a value that calls step(pred, {0}) again and again, each time from the successor of the step before, is at a value after s steps with the entry of the s-th power of the transition matrix as probability. Over independent runs the proportion of runs at each value after each step tends to that entry, almost surely.", "quantifier": "all transition matrices whose columns are probabilities, over any number of values, all starts, all numbers of steps and runs", "why_tests_cant": "a limit over the number of runs, for all matrices at once: simulations compare finitely many runs of one matrix by eye", "anchors": ["probayes/rv.py:RV.step", "probayes/rv.py:RV.set_tran", "probayes/rv_utils.py:matrix_cond_sample", "examples/markov/markov_matrix.py"]}
{"id": "C108", "title": "References to the functions of a tuple call the function they were made for", "statement": "An object that wraps a tuple of functions (Func, CF) gives by f[i] a reference that calls the i-th function, counted from the end if negative, as an object that wraps that function alone would: own arguments first, own keywords kept, an order followed. A reference can be held and used at any time, together with others. f[name] passes the name on as unknown to the next call only. Functions and other objects are not mixed; a tuple is not called without a number; a number that does not exist raises.", "quantifier": "all tuples of functions, all arguments, all histories of references made and used", "why_tests_cant": "the effect depends on the order in which references are made and used: tests make one and use it at once", "anchors": ["probayes/func.py:Func.__getitem__", "probayes/func.py:Func._call", "probayes/func.py:Func.set_func", "probayes/cf.py:CF.__getitem__", "probayes/cf.py:CF._call"]}
{"id": "C109", "title": "Shifted proposals are corrected by the densities stated for them", "statement": "A process whose set_delta function draws displacements of non-zero mean, judged by set_scores('hastings') with the densities of its moves given to set_tran, as a function or as a pair (q, r), keeps its target, as examples/mcmc/mcmc_prob6.py is meant to show for a bivariate normal.", "quantifier": "all shifts, finite targets, single functions and pairs, both rules", "why_tests_cant": "samples of a chain show a drift only against noise, and for one target at a time", "anchors": ["examples/mcmc/mcmc_prob6.py", "probayes/rf.py:RF.eval_tran", "probayes/rf.py:RF.reval_tran", "probayes/sp_utils.py:hastings_scores", "probayes/sp.py:SP.next"]}
{"id": "C110", "title": "Random walks on flat targets tend to the uniform distribution from any start", "statement": "A process whose set_delta function draws displacements as likely as their opposites, on a set_prob target that is constant on a set and zero elsewhere, judged by Metropolis or Hastings with any positive transition function, is after k samples in any part of the set with a chance that tends to its portion of the volume as k grows, at a geometric rate from points of the set, and also from starts where the target is zero; and the proportion of N samples in that part differs from it by a mean square of at most a constant over N; so examples/mcmc/mcmc_prob3.py and mcmc_prob4b.py sample what they plot.", "quantifier": "all dimensions, sets, starts, rules, stated densities; all measurable parts", "why_tests_cant": "convergence is a limit over the number of samples, and chances are seen in tests only through noise", "anchors": ["examples/mcmc/mcmc_prob3.py", "examples/mcmc/mcmc_prob4b.py", "probayes/sp.py:SP.next", "probayes/sp_utils.py:hastings_scores", "probayes/sp_utils.py:metropolis_scores", "probayes/sp_utils.py:metropolis_update"]}
{"id": "C111", "title": "Random walks that may go anywhere tend to their target from any start", "statement": "A process whose set_delta function draws displacements that are as likely as their opposites and may lead anywhere, on any set_prob target whose integral is finite and not zero, judged by Metropolis or by Hastings with one positive transition function, is after k samples in any measurable set with a probability that tends, as k grows, to the part of the target in that set, from whatever start, also one where the target is zero or below the smallest normal float; and the proportion of the first N samples in that set tends to the same part in mean square; so the samples of examples/mcmc/mcmc_prob2.py tend to the normal law of mean 2 and variance 2 and those of mcmc_prob4a.py to the bivariate normal law.", "quantifier": "all dimensions, targets, invertible transforms, laws of displacements equivalent to volume, starts, rules, stated densities, measurable sets", "why_tests_cant": "convergence is a limit over the number of samples, and probabilities are seen in tests only through noise", "anchors": ["examples/mcmc/mcmc_prob2.py", "examples/mcmc/mcmc_prob4a.py", "probayes/sp.py:SP.next", "probayes/sp_utils.py:hastings_scores", "probayes/sp_utils.py:metropolis_scores", "probayes/sp_utils.py:metropolis_update"]}
{"id": "C112", "title": "The members of a symbol are seen through the icon or variable that wraps it", "statement": "After set_icon with a string or a Sympy object, icon[:] is the corresponding Sympy object and those of its members that the class does not define itself are members of the icon with the same values, whatever icons were set before; other objects raise TypeError and no other index than ':' is accepted. A variable that is not stochastic gives the deterministic expression set as its dexpr in the place of its symbol, and the attribute dexpr gives it back; renaming a variable does not change its symbol, and set_icon without argument takes that of the present name.", "quantifier": "all sequences of set_icon calls (accepted or refused), symbols, members, classes, names, expressions", "why_tests_cant": "the members copied depend on the whole history of calls", "anchors": ["probayes/icon.py:isiconic", "probayes/icon.py:Icon.set_icon", "probayes/icon.py:Icon.__getitem__", "probayes/variable.py:Variable.set_icon", "probayes/variable.py:Variable.dexpr", "probayes/variable.py:Variable.__getitem__"]}
{"id": "C113", "title": "Conditional functions accept the outputs and inputs documented and are named after them", "statement": "The outputs and inputs of a CF may each be a random variable, a random field with neither roots nor stems, or a tuple or list of such, and stand for all of their variables; inputs may also be an OrderedDict whose keys name all the output variables, at least two, and whose texts name output variables other than those of their key. The name lists the outputs and the inputs, or the outputs with and without primes; whatever else is refused and changes neither the inputs nor the name.", "quantifier": "all outputs, inputs, dictionaries, names and earlier states", "why_tests_cant": "tests use few of the forms in which the inputs may be given", "anchors": ["probayes/cf.py:_to_rf", "probayes/cf.py:CF.set_out", "probayes/cf.py:CF.set_inp"]}
{"id": "C114", "title": "Explicit dependences can be added and evaluated", "statement": "add_deps with outputs and inputs adds the conditional function under its name, besides the earlier ones, with an edge from each input to each output, and eval_deps gives the values that the dependences give beside those it was called with; outputs that are not a dictionary, or a pair of dictionaries of values and dimensions, are refused.", "quantifier": "all dependences (with and without architecture), edges, earlier dependences, arguments, outputs of dependences", "why_tests_cant": "the calls raise for reasons that depend on what was called before", "anchors": ["probayes/dependence.py:Dependence.add_deps", "probayes/dependence.py:Dependence.eval_deps", "probayes/sd.py:SD.eval_deps"]}
{"id": "C115", "title": "An expression that is set again is the one that is evaluated", "statement": "After the attribute expr of an Expr was set any number of times, calls with numbers and with arrays, by name, give the values of the expression that was set last, KeyError if one of its symbols is not given; expr[:] is that expression, and no other index is accepted.", "quantifier": "all sequences of expressions, symbols, values, and expressions of which functions of arrays can or cannot be made", "why_tests_cant": "an expression is set once in tests; what is called depends on the history", "anchors": ["probayes/expr.py:Expr.expr", "probayes/expr.py:Expr.add_efun", "probayes/expr.py:Expr.__call__", "probayes/expr.py:Expr.__getitem__"]}
{"id": "C116", "title": "Proportions of samples of random walks are near the target with a chance that tends to one", "statement": "For the processes of C111, the chance that the proportion of the first N samples in a measurable set differs from the part of the target in that set by a given positive amount or more tends to zero as N grows, and the chance that it differs by less tends to one, from whatever start; for targets that are flat within limits and standard normal steps it is at most a constant over N and the square of that amount, whatever the set; so histograms of the samples of examples/mcmc/mcmc_prob2.py, mcmc_prob3.py and mcmc_prob4a.py approach what they plot.", "quantifier": "all targets of finite non-zero integral, displacements, sets, starts, numbers of samples and amounts", "why_tests_cant": "a chance over all draws, for all numbers of samples", "anchors": ["examples/mcmc/mcmc_prob2.py", "examples/mcmc/mcmc_prob3.py", "examples/mcmc/mcmc_prob4a.py", "probayes/sp.py:SP.next", "probayes/sp_utils.py:hastings_scores", "probayes/sp_utils.py:metropolis_scores", "probayes/sp_utils.py:metropolis_update"]}
{"id": "C117", "title": "Lists of dictionaries are collected in one dictionary of lists", "statement": "iterdict of a list of dictionaries has each key of any of them once, and at each key the values in the order of the dictionaries; the i-th value at a key is that of the i-th dictionary; without dictionaries TypeError is raised.", "quantifier": "all lists of dictionaries, values and orders in which sets are iterated", "why_tests_cant": "the order of keys depends on hashes, and lists of dictionaries with different keys are not tested", "anchors": ["probayes/pd_utils.py:iterdict"]}
{"id": "C118", "title": "isfinite tells whether the numbers of a value are finite", "statement": "vtypes.isfinite of a number is whether it is finite, of an array of numbers that for each entry, and of a tuple or list a tuple or list, respectively, of what it is for the members, however deep; all is told to be finite if and only if all numbers within, also those of sets and of Sympy, are; TypeError is raised if and only if there is a text within.", "quantifier": "all numbers, arrays, sets, Sympy infinities, and tuples and lists of them to any depth", "why_tests_cant": "values nest to any depth", "anchors": ["probayes/vtypes.py:isfinite"]}
