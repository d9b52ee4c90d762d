{
 "claims": [
  {
   "property": "C01",
   "status": "proved",
   "theorems": [
    "Probayes.C01_rescale_value",
    "Probayes.C01_rescale_same",
    "Probayes.C01_rescale_linear",
    "Probayes.C01_rescale_roundtrip",
    "Probayes.C01_rescale_compose"
   ],
   "note": "exact over the reals; clamp conditions are explicit hypotheses"
  },
  {
   "property": "C02",
   "status": "proved",
   "theorems": [
    "Probayes.C02_logProb_mono",
    "Probayes.C02_logProb_finite",
    "Probayes.C02_logProb_spec",
    "Probayes.C02_expLogp_mono",
    "Probayes.C02_expLogp_bounds",
    "Probayes.C02_exp_log_inverse",
    "Probayes.C02_exp_log_zero",
    "Probayes.C02_log_exp_inverse"
   ],
   "note": "all reals"
  },
  {
   "property": "C03",
   "status": "partial",
   "theorems": [
    "Probayes.C03_accepts",
    "Probayes.C03_idempotent",
    "Probayes.C03_claim_fails",
    "Probayes.C03_offset_one_misread",
    "Probayes.C03_claim_partial"
   ],
   "note": "accepts/idempotent proved; the scale 1+0j is read as linear 1 (C03_claim_fails); kept for all other complex scales"
  },
  {
   "property": "C04",
   "status": "partial",
   "theorems": [
    "Probayes.C04_linear_partial",
    "Probayes.C04_log_iff_partial",
    "Probayes.C04_claim_fails"
   ],
   "note": "linear lists proved; with log scales correct iff offsets add up to zero (C04_log_iff_partial, C04_claim_fails)"
  },
  {
   "property": "C05",
   "status": "partial",
   "theorems": [
    "Probayes.C05_linear_partial",
    "Probayes.C05_log_partial",
    "Probayes.C05_claim_fails",
    "Probayes.C05_requested_other_kind_raises",
    "Probayes.C05_requested_scale_fails"
   ],
   "note": "linear lists and log lists with unit product factor proved; log offsets and requested output scales refuted"
  },
  {
   "property": "C06",
   "status": "partial",
   "theorems": [
    "Probayes.C06_divProb_value",
    "Probayes.C06_divProb_default_scale",
    "Probayes.C06_divProb_linear",
    "Probayes.C06_requested_claim_fails"
   ],
   "note": "value proved for every scale; a requested 0j output scale is ignored (C06_requested_claim_fails)"
  },
  {
   "property": "C07",
   "status": "proved",
   "theorems": [
    "Probayes.C07_grid",
    "Probayes.C07_grid_within",
    "Probayes.C07_grid_spacing",
    "Probayes.C07_grid_attains"
   ],
   "note": "all n, limits and exclusions"
  },
  {
   "property": "C08",
   "status": "proved",
   "theorems": [
    "Probayes.C08_inside_float",
    "Probayes.C08_inside_discrete",
    "Probayes.C08_sorted"
   ],
   "note": "all limits/orders; all containers"
  },
  {
   "property": "C09",
   "status": "proved",
   "theorems": [
    "Probayes.C09_evaluate_grid",
    "Probayes.C09_evaluate_random",
    "Probayes.C09_unbounded_raises"
   ],
   "note": "increasing or decreasing transforms; random draws lie in the closure (lower end may be hit)"
  },
  {
   "property": "C10",
   "status": "partial",
   "theorems": [
    "Probayes.C10_evaluate_all",
    "Probayes.C10_evaluate_zero",
    "Probayes.C10_evaluate_even",
    "Probayes.C10_bool_single_fails"
   ],
   "note": "proved for all sets except booleans declared with one member, which raise (C10_bool_single_fails)"
  },
  {
   "property": "C11",
   "status": "partial",
   "theorems": [
    "Probayes.C11_array",
    "Probayes.C11_scalar_partial",
    "Probayes.C11_scalar_claim_fails",
    "Probayes.C11_scalar_array_differ",
    "Probayes.C11_int_claim_fails",
    "Probayes.C11_int_partial"
   ],
   "note": "arrays: full; scalars: same-kind limits; refuted for scalar half-open intervals and gapped integer sets"
  },
  {
   "property": "C12",
   "status": "partial",
   "theorems": [
    "Probayes.C12_additive",
    "Probayes.C12_reversible",
    "Probayes.C12_scalar_as_named",
    "Probayes.C12_zero_claim_fails",
    "Probayes.C12_bool_flip"
   ],
   "note": "proved for Delta instances, non-zero scalars, booleans; plain scalar 0 is replaced by the default (C12_zero_claim_fails)"
  },
  {
   "property": "C13",
   "status": "partial",
   "theorems": [
    "Probayes.C13_none_zero",
    "Probayes.C13_singleton",
    "Probayes.C13_reserved",
    "Probayes.C13_given_partial",
    "Probayes.C13_claim_fails",
    "Probayes.C13_default_shape_fails",
    "Probayes.C13_default_partial",
    "Probayes.C13_given_wf",
    "Probayes.C13_default_wf"
   ],
   "note": "proved for given dimensions whose shared axes agree in size; shared axes of unequal size are accepted (C13_claim_fails) and default dimensions leave value arrays with too few axes (C13_default_shape_fails); what holds for default dimensions is C13_default_partial; C13_given_wf and C13_default_wf show that construction establishes the well-formedness assumed by the operation theorems"
  },
  {
   "property": "C14",
   "status": "partial",
   "theorems": [
    "Probayes.C14_render_parse",
    "Probayes.C14_parse_render_claim_fails",
    "Probayes.C14_parentheses_lost",
    "Probayes.C14_parse_render_partial"
   ],
   "note": "render then parse is proved for all well-formed dictionaries; parse then render fails for repeated keys and for parenthesised names (witnesses proved) and is proved for the remaining names"
  },
  {
   "property": "C15",
   "status": "partial",
   "theorems": [
    "Probayes.C15_marginalise_partial",
    "Probayes.C15_lost",
    "Probayes.C15_mass",
    "Probayes.C15_unknown_refused",
    "Probayes.C15_scalar_refused",
    "Probayes.C15_all_refused",
    "Probayes.C15_claim_fails",
    "Probayes.C15_unordered_wrong"
   ],
   "note": "proved for axes in key order when at least one variable is kept (C15_marginalise_partial, C15_mass); removing every variable raises (C15_all_refused, C15_claim_fails) and axes out of key order give a silently wrong result (C15_unordered_wrong)"
  },
  {
   "property": "C16",
   "status": "partial",
   "theorems": [
    "Probayes.C16_stages_partial",
    "Probayes.C16_marginal_partial",
    "Probayes.C16_marginal_scalar_refused",
    "Probayes.C16_claim_fails"
   ],
   "note": "proved for axes in key order within the range of the scale conversions; out of key order a stage raises (C16_claim_fails); the statement is otherwise as claimed"
  },
  {
   "property": "C17",
   "status": "partial",
   "theorems": [
    "Probayes.C17_correct_partial",
    "Probayes.C17_succeeds_iff_partial",
    "Probayes.C17_last_partial",
    "Probayes.C17_first_partial",
    "Probayes.C17_unknown_refused",
    "Probayes.C17_normalised_partial",
    "Probayes.C17_scalars_partial",
    "Probayes.C17_claim_fails",
    "Probayes.C17_point_fails"
   ],
   "note": "Proved: whatever conditionalise returns has the keys moved to the conditional side, the same values and every entry divided by the mass of its conditioning values (ranges of floats explicit; some array variable left), hence normalised; an exact characterisation of when it succeeds for distributions whose marginal arrays come first (keys last, or first without array conditions, or first and exactly half the arrays); unknown keys are refused. Refuted: p(x,y,z) cannot be conditioned on y; p(x=1,y=1|z) conditioned on x is normalised over z (1/2 instead of 1)."
  },
  {
   "property": "C18",
   "status": "partial",
   "theorems": [
    "Probayes.C18_sliced_partial",
    "Probayes.C18_stages_partial",
    "Probayes.C18_absent_partial",
    "Probayes.C18_absent_claim_fails",
    "Probayes.C18_wrong_slice",
    "Probayes.C18_claim_fails",
    "Probayes.C18_unknown",
    "Probayes.C18_rows_partial",
    "Probayes.C18_paired_rows",
    "Probayes.C18_keepdims_raises",
    "Probayes.C18_keepdims_claim_fails"
   ],
   "note": "Slicing by values proved exact for distributions with axes in key order (any rank, any number of values), including slicing in stages in either order; C18_claim_fails/C18_wrong_slice: with axes out of key order the remaining axes are silently exchanged. Absent values: no entries or refusal proved when no other given variable shares the axis, for both keepdims; C18_absent_claim_fails: the value given for a scalar variable is ignored. With keepdims or repeated values the restriction is proved exact for a variable on the first axis (C18_rows_partial); on any other axis it raises IndexError (C18_keepdims_claim_fails)."
  },
  {
   "property": "C19",
   "status": "partial",
   "theorems": [
    "Probayes.C19_counts_order_raises",
    "Probayes.C19_counts",
    "Probayes.C19_linear_partial",
    "Probayes.C19_log_partial",
    "Probayes.C19_common_array_raises",
    "Probayes.C19_claim_fails",
    "Probayes.C19_common_set_wrong",
    "Probayes.C19_shared_pair",
    "Probayes.C19_shared_wrong",
    "Probayes.C19_shared_raises",
    "Probayes.C19_texts_refused",
    "Probayes.C19_common_array_refused"
   ],
   "note": "product modelled in full (general route, scalar fast track, unit sets). Proved for any number of factors, ranks, sizes and axis orders: names, conditions, values, own axes, unique compatible index lists and pointwise products, for linear scales, and with logarithmic scales when the scale factors multiply to one. C19_shared_pair: a factor whose two variables share its first axis; C19_counts: distributions of the same variables given as sets of one integer multiply and add up. Excluded by Spec.Plainly otherwise: two variables on one axis of a factor, a common condition that is an array (always refused, C19_common_array_refused, C19_common_array_raises), a common variable given as a set of one integer (C19_common_set_wrong: p(x|u={3})p(y|u={3}) is conditioned on u={12}). A shared axis elsewhere raises or silently gives a wrong product (C19_shared_raises, C19_shared_wrong). An array condition met by a marginal variable written differently is refused (C19_texts_refused)."
  },
  {
   "property": "C20",
   "status": "partial",
   "theorems": [
    "Probayes.C20_counts_unchecked",
    "Probayes.C20_duplicate_partial",
    "Probayes.C20_conditions_refused",
    "Probayes.C20_values_partial",
    "Probayes.C20_scalar_mismatch",
    "Probayes.C20_claim_fails",
    "Probayes.C20_tolerance",
    "Probayes.C20_sets_accepted"
   ],
   "note": "Proved: duplicate marginals refused (unless unit sets of integers with the same keys, C20_sets_accepted), unmatched conditions refused for all factors, array values told apart by np.allclose refused. Disproved: p(y|x=1)p(x=2) is not refused (C20_scalar_mismatch, C20_claim_fails); differences within the tolerance pass (C20_tolerance). For unit sets the values of conditions are not compared at all (C20_counts_unchecked)."
  },
  {
   "property": "C21",
   "status": "partial",
   "theorems": [
    "Probayes.C21_quotient_partial",
    "Probayes.C21_conditional_partial",
    "Probayes.C21_normalised_partial",
    "Probayes.C21_back_partial",
    "Probayes.C21_bayes_partial",
    "Probayes.C21_conditions_refused",
    "Probayes.C21_scalars_refused",
    "Probayes.C21_given_raises",
    "Probayes.C21_claim_fails",
    "Probayes.C21_order_fails",
    "Probayes.C21_values_ignored"
   ],
   "note": "For a dividend without array conditions and a divisor whose variables are some of the dividend's marginal variables in the same order with the same values and conditions, division succeeds, the divided variables become conditions with their values and axes, and every entry is the dividend's over the divisor's at the agreeing index, whatever the two linear scales (C21_quotient_partial). Dividing by one's own marginal is conditioning, is normalised given every assignment of the divided variables, and multiplying back restores the joint (C21_conditional/normalised/back_partial); product, marginal and division compose to Bayes' rule for any number of factors (C21_bayes_partial). Divisors with other conditions or scalars are refused. The full claim fails: array conditions raise (C21_claim_fails), a divisor with its variables in another order is divided along the wrong axes (C21_order_fails) and values are never compared (C21_values_ignored). Log scales of the dividend not covered."
  },
  {
   "property": "C22",
   "status": "partial",
   "theorems": [
    "Probayes.C22_expectation_partial",
    "Probayes.C22_default_keys",
    "Probayes.C22_exponent_zero",
    "Probayes.C22_unknown_refused",
    "Probayes.C22_bounds",
    "Probayes.C22_linear",
    "Probayes.C22_scale",
    "Probayes.C22_wrong_mean",
    "Probayes.C22_claim_fails"
   ],
   "note": "Holds for distributions whose value arrays lie along their own axes (given dimensions, or results of operations); distributions built without dimensions broadcast the values of leading variables along the wrong axis (C22_wrong_mean), so the full claim fails."
  },
  {
   "property": "C23",
   "status": "proved",
   "theorems": [
    "Probayes.C23_reorder",
    "Probayes.C23_sorted",
    "Probayes.C23_unknown_refused",
    "Probayes.C23_mass"
   ],
   "note": "Sorting along a variable permutes probabilities and values alike, puts that variable's values in ascending order and keeps the total mass; numpy's argsort is a parameter assumed to return an ordering permutation. An unknown key is refused."
  },
  {
   "property": "C24",
   "status": "partial",
   "theorems": [
    "Probayes.C24_remarginalise_partial",
    "Probayes.C24_mass",
    "Probayes.C24_conditions_lost",
    "Probayes.C24_condition_unnamed",
    "Probayes.C24_scalar_condition_raises",
    "Probayes.C24_claim_fails",
    "Probayes.C24_condition_merged",
    "Probayes.C24_unknown_raises",
    "Probayes.C24_shape_raises",
    "Probayes.C24_unordered_raises",
    "Probayes.C24_scalar_raises"
   ],
   "note": "Proved for any rank, scale, bins (increasing or decreasing edges, one variable to an axis) and mapping, without conditions: every entry goes to exactly one bin, the one whose interval contains its mapped value, and entries are sums over what was mapped there; total mass conserved; unknown variables, other shapes, unordered bins and single values are refused. With conditions the claim is refuted: whatever is returned has no conditions, the first condition is unnamed, a fixed first condition always raises. Bins with several variables on one axis are not covered."
  },
  {
   "property": "C25",
   "status": "proved",
   "theorems": [
    "Probayes.C25_rescaled",
    "Probayes.C25_invalid_refused"
   ],
   "note": "Rescaling to any accepted scale keeps names, values, axes and every represented probability that neither scale clamps; an invalid scale is refused."
  },
  {
   "property": "C26",
   "status": "partial",
   "theorems": [
    "Probayes.C26_summate_partial",
    "Probayes.C26_none",
    "Probayes.C26_incompatible_raises",
    "Probayes.C26_arrays_raise",
    "Probayes.C26_mixed_raises",
    "Probayes.C26_counts_raise",
    "Probayes.C26_claim_fails"
   ],
   "note": "Any number of distributions of fixed values (with at least one variable that is not a count): the result lists them in order along one axis with their probabilities, scale and names kept; no distributions give None; incompatible scales or names, array variables and mixtures of counts and values raise. The claim as stated is refuted: distributions of counts only always raise."
  },
  {
   "property": "C27",
   "status": "partial",
   "theorems": [
    "Probayes.C27_prod_partial",
    "Probayes.C27_extra_factor",
    "Probayes.C27_claim_fails"
   ],
   "note": "Holds for the plain linear scale and for the natural-log scale; for any other linear scale c the result is exactly c times the product (C27_extra_factor), so the full claim fails (C27_claim_fails)."
  },
  {
   "property": "C28",
   "status": "partial",
   "theorems": [
    "Probayes.C28_rekeyDict",
    "Probayes.C28_merge_claim_fails",
    "Probayes.C28_rekey",
    "Probayes.C28_merge_partial",
    "Probayes.C28_dict_merge_partial",
    "Probayes.C28_silent_merge"
   ],
   "note": "Renaming without collisions proved for whole distributions (names, values, axes, probabilities), including swaps; C28_merge_partial: a collision with a later renamed variable is refused; C28_silent_merge: a renaming onto a later, unrenamed variable merges silently."
  },
  {
   "property": "C29",
   "status": "partial",
   "theorems": [
    "Probayes.C29_memory",
    "Probayes.C29_collision",
    "Probayes.C29_file_partial",
    "Probayes.C29_write_keeps_iff",
    "Probayes.C29_after_write_raises",
    "Probayes.C29_order_lost",
    "Probayes.C29_named_order_raises",
    "Probayes.C29_unstorable_raises",
    "Probayes.C29_claim_fails"
   ],
   "note": "In memory: proved for any list of well-formed distributions without empty axes and with distinct short names; with equal names exactly one per name is left. Files: proved up to alphabetical order, loss of names with spaces and numbers becoming arrays without axes; writing keeps the distributions iff none has a scalar (otherwise deserialising afterwards raises); order lost, variable 'order' and negative counts refused. The claim as stated is refuted. Bare Distributions, auxiliary data and names with '/' are not modelled."
  },
  {
   "property": "C30",
   "status": "proved",
   "theorems": [
    "Probayes.C30_uniform",
    "Probayes.C30_sums_to_one",
    "Probayes.C30_array_entrywise"
   ],
   "note": "for all sets and all scales on which 1/n is representable; outside the set the stored number is 0 or the log sentinel"
  },
  {
   "property": "C31",
   "status": "partial",
   "theorems": [
    "Probayes.C31_partial",
    "Probayes.C31_claim_fails",
    "Probayes.C31_log_scale_fails"
   ],
   "note": "fails for a bias numerically close to but not equal to 0.5 and on log scale (both proved); proved elsewhere"
  },
  {
   "property": "C32",
   "status": "partial",
   "theorems": [
    "Probayes.C32_inverse_cdf",
    "Probayes.C32_volume",
    "Probayes.C32_any_sum",
    "Probayes.C32_logarithms",
    "Probayes.C32_log_claim_fails",
    "Probayes.C32_request_raises",
    "Probayes.C32_request_claim_fails"
   ],
   "note": "Proved for all matrices and draws: inverse-CDF sampling (C32_inverse_cdf), the draws that give a member have its probability as length (C32_volume), non-negative columns of any sum (C32_any_sum: what is left goes to the last member). Every request other than {0} raises (C32_request_raises); columns of logarithms always give the least member (C32_logarithms), so that the claim for logarithmic scales is refuted (C32_log_claim_fails)."
  },
  {
   "property": "C33",
   "status": "partial",
   "theorems": [
    "Probayes.C33_scalar",
    "Probayes.C33_arrays",
    "Probayes.C33_mixed",
    "Probayes.C33_outside_refused",
    "Probayes.C33_declared_order_claim_fails"
   ],
   "note": "entry at the positions in the sorted set, for scalars and arrays; fails for the declared order of an unsorted list (witness)"
  },
  {
   "property": "C34",
   "status": "proved",
   "theorems": [
    "Probayes.C34_chain"
   ],
   "note": "for all proposal/score/threshold sequences and numbers of steps"
  },
  {
   "property": "C35",
   "status": "proved",
   "theorems": [
    "Probayes.C35_acceptance",
    "Probayes.C35_score",
    "Probayes.C35_score_bounds",
    "Probayes.C35_detailed_balance",
    "Probayes.C35_invariant",
    "Probayes.C35_scale_independent",
    "Probayes.C35_prop_accepts_all"
   ],
   "note": "acceptance probability is Lebesgue volume of thresholds; detailed balance and invariance for all symmetric proposals on finite state spaces and all non-negative weights, also below the smallest normal float; in prop mode every proposal is accepted (C35_prop_accepts_all)"
  },
  {
   "property": "C36",
   "status": "partial",
   "theorems": [
    "Probayes.C36_claim_fails",
    "Probayes.C36_symmetric_partial",
    "Probayes.C36_log_claim_fails",
    "Probayes.C36_zero_reverse_fails",
    "Probayes.C36_reverse_is_forward",
    "Probayes.C36_acceptance",
    "Probayes.C36_process_claim_fails"
   ],
   "note": "the code's Hastings score equals the Metropolis score inverted in the proposal ratio; full claim refuted with a witness; proved for symmetric proposals"
  },
  {
   "property": "C37",
   "status": "partial",
   "theorems": [
    "Probayes.C37_stop_exact",
    "Probayes.C37_no_early_end",
    "Probayes.C37_walk_partial",
    "Probayes.C37_walk_claim_fails"
   ],
   "note": "iteration yields exactly n samples; walk(stop=n) draws one sample more than it records (refuted with witness, remaining part proved)"
  },
  {
   "property": "C38",
   "status": "partial",
   "theorems": [
    "Probayes.C38_partial",
    "Probayes.C38_claim_fails_reset",
    "Probayes.C38_claim_fails_cursor",
    "Probayes.C38_reset_all"
   ],
   "note": "sequences are independent under draws and creations; a full reset is proved to restart every sampler; fails across resets and with a shared transition cursor (witnesses)"
  },
  {
   "property": "C39",
   "status": "proved",
   "theorems": [
    "Probayes.C39_collect",
    "Probayes.C39_metropolis_keeps_all"
   ],
   "note": "for all lists of samples"
  },
  {
   "property": "C40",
   "status": "partial",
   "theorems": [
    "Probayes.C40_claim_fails",
    "Probayes.C40_sweeps_partial",
    "Probayes.C40_block_partial",
    "Probayes.C40_update",
    "Probayes.C40_no_steps",
    "Probayes.C40_explicit_joint_fails"
   ],
   "note": "blocks, sweeps and cursor proved for every size; the full claim fails because the keys of the result come in another order (witness), and an explicit joint transition ignores the block (witness)"
  },
  {
   "property": "C41",
   "status": "partial",
   "theorems": [
    "Probayes.C41_axes_partial",
    "Probayes.C41_shapes_partial",
    "Probayes.C41_extra_axis",
    "Probayes.C41_parse",
    "Probayes.C41_refused",
    "Probayes.C41_claim_fails",
    "Probayes.C41_gap_fails",
    "Probayes.C41_unknown_accepted"
   ],
   "note": "axes and shapes proved when each group of jointly given variables is led by a non-scalar (or all scalar) and no float variable is left unspecified; parsing, defaults and refusals proved; otherwise axes are shared, skipped or superfluous (witnesses)"
  },
  {
   "property": "C42",
   "status": "partial",
   "theorems": [
    "Probayes.C42_linear_partial",
    "Probayes.C42_log_partial",
    "Probayes.C42_claim_fails"
   ],
   "note": "proved on linear scales and on the zero-offset log scale; the full claim fails for a log scale with non-zero offset (witness)"
  },
  {
   "property": "C43",
   "status": "partial",
   "theorems": [
    "Probayes.C43_apply",
    "Probayes.C43_apply_missing",
    "Probayes.C43_scalar_partial",
    "Probayes.C43_scalar_claim_fails",
    "Probayes.C43_isotropy_partial",
    "Probayes.C43_scaled_isotropy_partial",
    "Probayes.C43_isotropy_claim_fails",
    "Probayes.C43_unscaled_sphere_raises"
   ],
   "note": "application proved; scalar deltas proved except random fields with deterministic variables (witness); isotropy proved except the all-midpoint outcome (witness); naming variables makes isotropic deltas raise"
  },
  {
   "property": "C44",
   "status": "partial",
   "theorems": [
    "Probayes.C44_build_partial",
    "Probayes.C44_add_one_partial",
    "Probayes.C44_duplicate_refused",
    "Probayes.C44_add_sequence_partial",
    "Probayes.C44_add_collection_fails",
    "Probayes.C44_empty_raises",
    "Probayes.C44_and_partial",
    "Probayes.C44_same_name_fails",
    "Probayes.C44_claim_fails"
   ],
   "note": "proved for building and adding one at a time and for &; adding a collection and equal names fail (witnesses)"
  },
  {
   "property": "C45",
   "status": "partial",
   "theorems": [
    "Probayes.C45_exactly_one",
    "Probayes.C45_general_partial",
    "Probayes.C45_no_leafs_raises",
    "Probayes.C45_fields_partial",
    "Probayes.C45_three_fields_raise",
    "Probayes.C45_series_partial",
    "Probayes.C45_deps_partial",
    "Probayes.C45_claim_fails",
    "Probayes.C45_common_variable_fails",
    "Probayes.C45_roots_none"
   ],
   "note": "proved for classification from the graph, for one or two disjoint fields, and for dependences without stems not in series; when they are in series is characterised; in series the middle variables are in no class (witness)"
  },
  {
   "property": "C46",
   "status": "partial",
   "theorems": [
    "Probayes.C46_lambda_refuses",
    "Probayes.C46_delta_refused",
    "Probayes.C46_order_partial",
    "Probayes.C46_delta_partial",
    "Probayes.C46_plain",
    "Probayes.C46_dict_argument",
    "Probayes.C46_defaults",
    "Probayes.C46_lambda_drops_keywords",
    "Probayes.C46_check",
    "Probayes.C46_both_refused",
    "Probayes.C46_malformed_refused",
    "Probayes.C46_refused_stays",
    "Probayes.C46_claim_fails",
    "Probayes.C46_same_position_fails",
    "Probayes.C46_gap_fails",
    "Probayes.C46_overwrite_fails",
    "Probayes.C46_negative_position"
   ],
   "note": "proved for order and delta mappings with fresh targets and positions following the given arguments; acceptance characterised; negative positions refused; swaps, shared positions and gaps fail (witnesses)"
  },
  {
   "property": "C47",
   "status": "partial",
   "theorems": [
    "Probayes.C47_same_outputs_refused",
    "Probayes.C47_existing_kept",
    "Probayes.C47_success",
    "Probayes.C47_sequence",
    "Probayes.C47_claim_fails",
    "Probayes.C47_overlap_fails",
    "Probayes.C47_delta_half_added",
    "Probayes.C47_callable",
    "Probayes.C47_refused_not_callable",
    "Probayes.C47_poisoned"
   ],
   "note": "existing definitions are never changed, success, callability and repetition proved; refused additions stay registered, may make every later one raise, and overlapping outputs are accepted (witnesses)"
  },
  {
   "property": "C48",
   "status": "partial",
   "theorems": [
    "Probayes.C48_int_partial",
    "Probayes.C48_int_claim_fails",
    "Probayes.C48_bin_partial",
    "Probayes.C48_bin_claim_fails",
    "Probayes.C48_array"
   ],
   "note": "proved for 64-bit non-negative numbers and vectors of 1 to 63 bits, and arrays; larger ones wrap around (witness)"
  },
  {
   "property": "C49",
   "status": "partial",
   "theorems": [
    "Probayes.C49_counts",
    "Probayes.C49_counts_sum",
    "Probayes.C49_relfreq_sum",
    "Probayes.C49_base_ignored",
    "Probayes.C49_base_claim_fails"
   ],
   "note": "counts and relative frequencies proved; base_freq has no effect (proved)"
  },
  {
   "property": "C50",
   "status": "partial",
   "theorems": [
    "Probayes.C50_within_shifted_partial",
    "Probayes.C50_within_partial",
    "Probayes.C50_claim_fails_for",
    "Probayes.C50_claim_fails",
    "Probayes.C50_best_predictor",
    "Probayes.C50_samples"
   ],
   "note": "coefficients proved the unique best linear predictor and samples characterised exactly; limits proved shifted by the conditional mean, and as declared without correlation; fails otherwise (witness)"
  },
  {
   "property": "C51",
   "status": "partial",
   "theorems": [
    "Probayes.C51_getSuffixed",
    "Probayes.C51_desuffix",
    "Probayes.C51_unsuffixed_raises",
    "Probayes.C51_unsuffixed_claim_fails"
   ],
   "note": "recovering successor values proved for all dictionaries; desuffix raises on dictionaries without a suffix (proved for all such dictionaries)"
  },
  {
   "property": "C52",
   "status": "partial",
   "theorems": [
    "Probayes.C52_characterisation",
    "Probayes.C52_partial",
    "Probayes.C52_claim_fails",
    "Probayes.C52_single_fails"
   ],
   "note": "full characterisation proved; fails for ties in decreasing sequences and for one-element arrays"
  },
  {
   "property": "C53",
   "status": "partial",
   "theorems": [
    "Probayes.C53_quantile",
    "Probayes.C53_range",
    "Probayes.C53_monotone_partial",
    "Probayes.C53_bracket",
    "Probayes.C53_one",
    "Probayes.C53_size_returned",
    "Probayes.C53_scalar",
    "Probayes.C53_decreases",
    "Probayes.C53_claim_fails"
   ],
   "note": "Range (values lie between those of the variable, any rank) and the bracket of each quantile proved; monotone in q proved where the same interpolation rule applies. Monotonicity refuted with a witness (quantile(0.3)=5/6 > quantile(0.41)=0.62); unsorted or single-valued variables are answered with a set of the size."
  },
  {
   "property": "C54",
   "status": "partial",
   "theorems": [
    "Probayes.C54_array_flip",
    "Probayes.C54_scalar_claim_fails",
    "Probayes.C54_scalar_partial"
   ],
   "note": "arrays proved; scalars refuted, actual behaviour characterised"
  },
  {
   "property": "C55",
   "status": "partial",
   "theorems": [
    "Probayes.C55_eval_scaled",
    "Probayes.C55_claim_fails",
    "Probayes.C55_scale_ignored_partial"
   ],
   "note": "eval_delta proved; apply_delta ignores the option (C55_claim_fails, C55_scale_ignored_partial)"
  },
  {
   "property": "C56",
   "status": "partial",
   "theorems": [
    "Probayes.C56_linear",
    "Probayes.C56_log_claim_fails"
   ],
   "note": "linear scale proved; on log scale an impossible successor gets log-probability 0 (witness)"
  },
  {
   "property": "C57",
   "status": "partial",
   "theorems": [
    "Probayes.C57_symmetric_partial",
    "Probayes.C57_geometric_mean_partial",
    "Probayes.C57_claim_fails"
   ],
   "note": "symmetry on linear scales, geometric mean when the coefficients multiply to one; the full claim fails on scale 2 (witness)"
  },
  {
   "property": "C58",
   "status": "partial",
   "theorems": [
    "Probayes.C58_claim_fails",
    "Probayes.C58_polarity_partial",
    "Probayes.C58_uniform_partial",
    "Probayes.C58_integer_partial",
    "Probayes.C58_integer_polarity_partial",
    "Probayes.C58_scaled_fails",
    "Probayes.C58_scaled_integer_fails",
    "Probayes.C58_zero_delta_ignored",
    "Probayes.C58_zero_is_default"
   ],
   "note": "Proved: the moves of (d,) and [d] for float and integer variables without scale are exactly characterised. Refuted: [d] never moves an integer by d (randint excludes it), and with scale and the same default number only the positive move is scaled."
  },
  {
   "property": "C59",
   "status": "partial",
   "theorems": [
    "Probayes.C59_proposed_partial",
    "Probayes.C59_fresh",
    "Probayes.C59_claim_fails"
   ],
   "note": "samples proved to be proposals with their probability, fresh without a delta and from the last accepted with one; the verdict of a rejected sample is None (witness)"
  },
  {
   "property": "C60",
   "status": "partial",
   "theorems": [
    "Probayes.C60_call",
    "Probayes.C60_call_function",
    "Probayes.C60_values",
    "Probayes.C60_default_sums",
    "Probayes.C60_table_raises",
    "Probayes.C60_table_claim_fails"
   ],
   "note": "Proved for every discrete, non-boolean variable with a number or a callable as probability, all requests, scales and draws; default probabilities sum to one. Refuted for arrays of probabilities: such a variable can never be called. Continuous variables, pfun and scipy/sympy distributions are not covered."
  },
  {
   "property": "C61",
   "status": "partial",
   "theorems": [
    "Probayes.C61_matrix",
    "Probayes.C61_columns",
    "Probayes.C61_sampled",
    "Probayes.C61_outside_raises",
    "Probayes.C61_request_raises",
    "Probayes.C61_no_transition_raises",
    "Probayes.C61_scalar",
    "Probayes.C61_drawn"
   ],
   "note": "Proved for discrete, non-boolean variables with a matrix, a pair of matrices, a number or no transition: entries, axes, names, direction, column sums, sampled successors, refusal outside the set. Callable transitions and continuous variables are not covered. Requests {u} and, with a matrix, {n} for n other than 0 always raise (theorem)."
  },
  {
   "property": "C62",
   "status": "partial",
   "theorems": [
    "Probayes.C62_lookup",
    "Probayes.C62_singleton",
    "Probayes.C62_select",
    "Probayes.C62_select_gap_raises",
    "Probayes.C62_redim",
    "Probayes.C62_redim_raises",
    "Probayes.C62_pd_raises",
    "Probayes.C62_pd_scalars_partial",
    "Probayes.C62_pd_claim_fails",
    "Probayes.C62_redim_claim_fails",
    "Probayes.C62_singleton_claim_fails"
   ],
   "note": "lookup proved in full for well-formed distributions; selection proved when the axes asked for are the first ones and refused otherwise; redim of a Distribution proved for sensible dimensions with its four refusals. Refuted: redim of a PD with an array variable always raises, singleton with a name always raises, redim accepts arrays of different sizes on one axis. Selection and redim need non-empty axes."
  },
  {
   "property": "C63",
   "status": "partial",
   "theorems": [
    "Probayes.C63_linear_partial",
    "Probayes.C63_log_partial",
    "Probayes.C63_unknown_raises",
    "Probayes.C63_propose_partial",
    "Probayes.C63_claim_fails",
    "Probayes.C63_propose_claim_fails"
   ],
   "note": "Fields of discrete non-boolean variables without joint probability, any number of variables. Proved on linear scales and, when the factors multiply to one, with logarithmic scales; refused unknown names; propose proved equal to calling the renamed field unless names collide. Refuted: log scales with an offset (one variable is enough), and propose of a field with variables x and x' (a value is lost). Missing: iid, boolean and float variables, variables asked for jointly."
  },
  {
   "property": "C64",
   "status": "partial",
   "theorems": [
    "Probayes.C64_slice_partial",
    "Probayes.C64_unique",
    "Probayes.C64_claim_fails",
    "Probayes.C64_dims_needed",
    "Probayes.C64_keys_raises",
    "Probayes.C64_order_raises",
    "Probayes.C64_repeated_raises",
    "Probayes.C64_mismatch_raises",
    "Probayes.C64_single_raises",
    "Probayes.C64_absent",
    "Probayes.C64_fixed_raises",
    "Probayes.C64_fixed_claim_fails",
    "Probayes.C64_fixed_differs",
    "Probayes.C64_absent_claim_fails",
    "Probayes.C64_frequencies_partial",
    "Probayes.C64_function_refuses"
   ],
   "note": "Proved for specifications whose axes have the order of the table's (values, shape, uniqueness, frequencies of boolean columns) and for all refusals; the claim for other orders fails (C64_claim_fails: the entries are reshaped, not transposed), and variables with a single value and no axis always raise (C64_fixed_claim_fails)."
  },
  {
   "property": "C65",
   "status": "partial",
   "theorems": [
    "Probayes.C65_collated_partial",
    "Probayes.C65_claim_fails",
    "Probayes.C65_keywords_kept",
    "Probayes.C65_refused"
   ],
   "note": "Names, order and values proved for dictionaries with keys of any kind; keywords are not renamed by remap (C65_claim_fails), which the theorem states as the code does."
  },
  {
   "property": "C66",
   "status": "proved",
   "theorems": [
    "Probayes.C66_sorted",
    "Probayes.C66_refused"
   ],
   "note": "All dictionaries and orders, both directions; refusals."
  },
  {
   "property": "C67",
   "status": "partial",
   "theorems": [
    "Probayes.C67_numbers",
    "Probayes.C67_arrays_partial",
    "Probayes.C67_mismatch_refused",
    "Probayes.C67_missing_refused",
    "Probayes.C67_position_refused",
    "Probayes.C67_vector_partial",
    "Probayes.C67_table_partial",
    "Probayes.C67_outer",
    "Probayes.C67_exchanged",
    "Probayes.C67_claim_fails"
   ],
   "note": "Numbers, named and positional values, refusals and (with an array function) all shapes proved; the meshgrid fallback is right for one vector and for a row before a column, and exchanges a column before a row (C67_claim_fails)."
  },
  {
   "property": "C68",
   "status": "partial",
   "theorems": [
    "Probayes.C68_item_partial",
    "Probayes.C68_handles",
    "Probayes.C68_last_claim_fails",
    "Probayes.C68_symbolic",
    "Probayes.C68_len_partial",
    "Probayes.C68_len_claim_fails",
    "Probayes.C68_func_claim_fails",
    "Probayes.C68_func_once",
    "Probayes.C68_func_partial",
    "Probayes.C68_accepted_partial",
    "Probayes.C68_accepted_claim_fails",
    "Probayes.C68_constants"
   ],
   "note": "Selection and handles proved for all sequences of uses of an Expression; length, -1 of symbolic tuples, acceptance of mixed non-lambdas and the deprecated Func refuted (the _claim_fails theorems)."
  },
  {
   "property": "C69",
   "status": "partial",
   "theorems": [
    "Probayes.C69_two_partial",
    "Probayes.C69_many_partial",
    "Probayes.C69_symmetric_partial",
    "Probayes.C69_claim_fails",
    "Probayes.C69_axes_claim_fails",
    "Probayes.C69_listing_claim_fails",
    "Probayes.C69_backwards",
    "Probayes.C69_log",
    "Probayes.C69_names_refused",
    "Probayes.C69_number_refused",
    "Probayes.C69_single_partial",
    "Probayes.C69_single_claim_fails",
    "Probayes.C69_func_positional_partial",
    "Probayes.C69_func_keywords_partial",
    "Probayes.C69_func_dictionary",
    "Probayes.C69_func_numbers",
    "Probayes.C69_agree_claim_fails"
   ],
   "note": "The claim is refuted (components exchanged, axes permuted from four variables on, listing order matters, single variables refuse several values); what is tabulated instead is proved exactly for every number of variables, and the claim for two or three exchangeable components. cdf and logcdf are not modelled."
  },
  {
   "property": "C70",
   "status": "partial",
   "theorems": [
    "Probayes.C70_scale_partial",
    "Probayes.C70_scale_default",
    "Probayes.C70_scale_refused",
    "Probayes.C70_scale_claim_fails",
    "Probayes.C70_rescale",
    "Probayes.C70_rescale_none",
    "Probayes.C70_eval_raises",
    "Probayes.C70_eval_partial",
    "Probayes.C70_eval_claim_fails",
    "Probayes.C70_field",
    "Probayes.C70_field_claim_fails",
    "Probayes.C70_field_partial",
    "Probayes.C70_field_stated",
    "Probayes.C70_field_unstated"
   ],
   "note": "Scale histories proved up to zero scales, which are refuted; rescale proved (C01); evaluation on another scale always raises."
  },
  {
   "property": "C71",
   "status": "partial",
   "theorems": [
    "Probayes.C71_parallel_partial",
    "Probayes.C71_parallel_log_partial",
    "Probayes.C71_series",
    "Probayes.C71_set_ignored",
    "Probayes.C71_neither",
    "Probayes.C71_alone",
    "Probayes.C71_rootless_refused",
    "Probayes.C71_numbers_refused",
    "Probayes.C71_claim_fails",
    "Probayes.C71_scales_claim_fails",
    "Probayes.C71_neither_claim_fails"
   ],
   "note": "Product of the parts proved for parts in parallel, on linear scales (C71_parallel_partial) and with logarithmic ones whose factors multiply to one (C71_parallel_log_partial); in series only the first part counts (C71_series, C71_claim_fails), otherwise the variables are taken as independent (C71_neither, C71_neither_claim_fails); scales of shared variables mislabel the result (C71_scales_claim_fails); set probabilities are ignored (C71_set_ignored), numbers refused (C71_numbers_refused), parts without roots refused (C71_rootless_refused). Explicit dependences (add_deps) and symbolic probabilities are not modelled."
  },
  {
   "property": "C72",
   "status": "partial",
   "theorems": [
    "Probayes.C72_numbers_partial",
    "Probayes.C72_mean_partial",
    "Probayes.C72_arrays_refused",
    "Probayes.C72_array_succ_refused",
    "Probayes.C72_missing_refused",
    "Probayes.C72_no_sampler_refused",
    "Probayes.C72_others_ignored",
    "Probayes.C72_single",
    "Probayes.C72_claim_fails"
   ],
   "note": "Steps between numbers for every kind of transition, delta and sampling function (C72_numbers_partial), the default geometric mean on linear scales whose product is one (C72_mean_partial), a field of one variable as the variable itself (C72_single), refusals (C72_missing_refused, C72_no_sampler_refused) and keys that are no variables (C72_others_ignored). The full claim fails for arrays (C72_claim_fails), which are always refused (C72_arrays_refused, C72_array_succ_refused). Missing: the default mean on other scales, deltas passed as arguments."
  },
  {
   "property": "C73",
   "status": "partial",
   "theorems": [
    "Probayes.C73_call",
    "Probayes.C73_iid_partial",
    "Probayes.C73_iid_keys_partial",
    "Probayes.C73_iid_key_partial",
    "Probayes.C73_joint_partial",
    "Probayes.C73_joint_iid_partial",
    "Probayes.C73_joint_iid_log_partial",
    "Probayes.C73_iid_true",
    "Probayes.C73_iid_factor",
    "Probayes.C73_iid_root_refused",
    "Probayes.C73_iid_scalar_refused",
    "Probayes.C73_no_roots_refused",
    "Probayes.C73_user_partial",
    "Probayes.C73_joint_whole_refused",
    "Probayes.C73_user_string_refused",
    "Probayes.C73_joint_claim_fails",
    "Probayes.C73_user_claim_fails"
   ],
   "note": "Calls (C73_call) and iid (C73_iid_partial, C73_iid_keys_partial, C73_iid_key_partial; iid=True is the names of all leafs, C73_iid_true) for any numbers of leafs and roots; joint with roots asked for explicitly (C73_joint_partial, C73_joint_iid_partial on linear scales, C73_joint_iid_log_partial on the log scale). The full claim fails: a root left to all its values makes joint=True raise (C73_joint_claim_fails, C73_joint_whole_refused); functions that return the product themselves are right for one observed leaf (C73_user_partial) and miscounted for two (C73_user_claim_fails). A scale c leaves an extra factor (C73_iid_factor). Refusals: C73_iid_root_refused, C73_iid_scalar_refused, C73_no_roots_refused, C73_user_string_refused. Dependences with added functions are not modelled."
  },
  {
   "property": "C74",
   "status": "partial",
   "theorems": [
    "Probayes.C74_type_by_value",
    "Probayes.C74_two_sets",
    "Probayes.C74_defaults_partial",
    "Probayes.C74_interval",
    "Probayes.C74_interval_pair",
    "Probayes.C74_list_partial",
    "Probayes.C74_set_partial",
    "Probayes.C74_converted",
    "Probayes.C74_swapped",
    "Probayes.C74_random_alike",
    "Probayes.C74_interval_count",
    "Probayes.C74_pair_count",
    "Probayes.C74_mixed_refused",
    "Probayes.C74_random_type_refused",
    "Probayes.C74_type_position_refused",
    "Probayes.C74_array_refused",
    "Probayes.C74_claim_fails",
    "Probayes.C74_claim_fails_array",
    "Probayes.C74_array_assigned",
    "Probayes.C74_interval_assigned",
    "Probayes.C74_values_claim_fails",
    "Probayes.C74_given_claim_fails",
    "Probayes.C74_infinite_claim_fails",
    "Probayes.C74_half_open_refused",
    "Probayes.C74_retyped",
    "Probayes.C74_retyped_claim_fails",
    "Probayes.C74_isfinite_interval",
    "Probayes.C74_isfinite_discrete"
   ],
   "note": "Defaults (C74_defaults_partial), intervals (C74_interval, C74_interval_pair, C74_interval_count, C74_pair_count), lists, sets and ranges of values (C74_list_partial, C74_set_partial, C74_converted), exchanged positions (C74_swapped), random variables with a set (C74_random_alike), ambiguous values (C74_mixed_refused). The full claim fails: random variables cannot be declared by their type alone (C74_claim_fails, C74_random_type_refused) and arrays are refused by the constructor (C74_array_refused, C74_claim_fails_array). Further disagreements: C74_given_claim_fails, C74_values_claim_fails, C74_infinite_claim_fails, C74_half_open_refused, C74_retyped_claim_fails, C74_isfinite_discrete. Containers with other contents than numbers and 1-tuples are not modelled."
  },
  {
   "property": "C75",
   "status": "partial",
   "theorems": [
    "Probayes.C75_names",
    "Probayes.C75_nameless_refused",
    "Probayes.C75_call_partial",
    "Probayes.C75_others_missing_refused",
    "Probayes.C75_symbolic",
    "Probayes.C75_unknown_refused",
    "Probayes.C75_dict_partial",
    "Probayes.C75_claim_fails",
    "Probayes.C75_new",
    "Probayes.C75_new_refused",
    "Probayes.C75_added",
    "Probayes.C75_commas_in_dict_refused"
   ],
   "note": "Calls by names, in any form and order, after any sequence of additions; order and precedence of arguments and keywords; symbolic functions; refusals. That values of its own inputs suffice fails (C75_claim_fails): the others must be given (C75_call_partial). Functions with an order or delta of their own, and several functions in one, are not part of the call model."
  },
  {
   "property": "C76",
   "status": "partial",
   "theorems": [
    "Probayes.C76_and_partial",
    "Probayes.C76_or_partial",
    "Probayes.C76_names",
    "Probayes.C76_field_dep_partial",
    "Probayes.C76_field_stems_refused",
    "Probayes.C76_var_dep_refused",
    "Probayes.C76_claim_fails",
    "Probayes.C76_var_leaf_conditions",
    "Probayes.C76_var_leafs_refused",
    "Probayes.C76_dep_first_refused",
    "Probayes.C76_or_dep_refused",
    "Probayes.C76_or_deps_refused",
    "Probayes.C76_and_deps_partial",
    "Probayes.C76_and_series",
    "Probayes.C76_other_refused",
    "Probayes.C76_mixed_refused"
   ],
   "note": "Uniting and conditioning variables and fields, fields with dependences without stems and dependences with each other are proved, with all refusals. Uniting a variable with a dependence is refuted (it raises or conditions), as is uniting a field with a dependence that has stems. Explicit dependences are not modelled."
  },
  {
   "property": "C77",
   "status": "partial",
   "theorems": [
    "Probayes.C77_step",
    "Probayes.C77_set",
    "Probayes.C77_def_prob",
    "Probayes.C77_prob_kept",
    "Probayes.C77_default_partial",
    "Probayes.C77_default_renewed",
    "Probayes.C77_default_claim_fails",
    "Probayes.C77_tran_kept_partial",
    "Probayes.C77_tran_lost",
    "Probayes.C77_tran_claim_fails",
    "Probayes.C77_matrix",
    "Probayes.C77_pair_partial",
    "Probayes.C77_pair_claim_fails",
    "Probayes.C77_table",
    "Probayes.C77_table_claim_fails",
    "Probayes.C77_refused_partial",
    "Probayes.C77_refused_claim_fails",
    "Probayes.C77_accepted",
    "Probayes.C77_draws_partial",
    "Probayes.C77_draws_claim_fails",
    "Probayes.C77_bool_default_partial",
    "Probayes.C77_bool_log_fails"
   ],
   "note": "Sequences of assignments to a discrete random variable: set, def_prob, a probability set (unless Boolean), and defaults unless the scale is assigned directly. Refuted: the default after a scale is assigned, transitions kept under the default probability, arrays against sets assigned later, the second matrix of a pair, refused assignments, Boolean draws, and Boolean defaults on the log scale."
  },
  {
   "property": "C78",
   "status": "partial",
   "theorems": [
    "Probayes.C78_subfield",
    "Probayes.C78_absent",
    "Probayes.C78_steps_partial",
    "Probayes.C78_steps_claim_fails",
    "Probayes.C78_same_partial",
    "Probayes.C78_same_claim_fails",
    "Probayes.C78_own_partial",
    "Probayes.C78_never_self",
    "Probayes.C78_last_claim_fails",
    "Probayes.C78_rooted_refused",
    "Probayes.C78_accepted",
    "Probayes.C78_unit_steps",
    "Probayes.C78_default_proposer",
    "Probayes.C78_number_delta",
    "Probayes.C78_number_delta_roots",
    "Probayes.C78_none_breaks",
    "Probayes.C78_none_claim_fails",
    "Probayes.C78_both_partial",
    "Probayes.C78_both_claim_fails",
    "Probayes.C78_refused_stays",
    "Probayes.C78_refused_claim_fails"
   ],
   "note": "Sequences of settings on a process and its fields. Proved: subfields are taken over, propose and step; values of its own are held and used as long as no subfield was given; unknown names are refused. Refuted: None, functions set after a subfield, deltas of another subfield, both proposal and transition through subfields, refused values. Arrays, distribution objects and conditional functions as values are not modelled."
  },
  {
   "property": "C79",
   "status": "partial",
   "theorems": [
    "Probayes.C79_custom",
    "Probayes.C79_only",
    "Probayes.C79_untouched",
    "Probayes.C79_named",
    "Probayes.C79_named_rest",
    "Probayes.C79_own",
    "Probayes.C79_claim_fails",
    "Probayes.C79_partial",
    "Probayes.C79_hastings_partial",
    "Probayes.C79_gibbs",
    "Probayes.C79_gibbs_mixed",
    "Probayes.C79_no_scores",
    "Probayes.C79_no_update",
    "Probayes.C79_unknown_claim_fails",
    "Probayes.C79_misspelt",
    "Probayes.C79_refused",
    "Probayes.C79_accepted",
    "Probayes.C79_atomic_claim_fails",
    "Probayes.C79_refused_breaks"
   ],
   "note": "Sequences of settings of all three parts and the scale. Proved: what each setting changes, the rule after naming a sampler, acceptance by Metropolis (C79_partial), by Hastings with symmetric proposals on the plain scale, and by Gibbs. Refuted: scales assigned after naming, names of no sampler, refused settings."
  },
  {
   "property": "C80",
   "status": "partial",
   "theorems": [
    "Probayes.C80_given",
    "Probayes.C80_shape_refused",
    "Probayes.C80_sampled",
    "Probayes.C80_uniform_law",
    "Probayes.C80_quantiles",
    "Probayes.C80_draws",
    "Probayes.C80_law",
    "Probayes.C80_none_claim_fails",
    "Probayes.C80_none_partial",
    "Probayes.C80_infinite_refused",
    "Probayes.C80_infinite_claim_fails",
    "Probayes.C80_unit_refused",
    "Probayes.C80_unit_zero",
    "Probayes.C80_unit_claim_fails",
    "Probayes.C80_discrete_refused",
    "Probayes.C80_default_partial",
    "Probayes.C80_default_transformed",
    "Probayes.C80_default_claim_fails"
   ],
   "note": "Values given, sampled values, quantiles, laws of draws, shape refusals and the default density without transform are proved for all inputs. Refuted: rv() with cumulative functions, unbounded variables with cumulative functions, {p}, and the default density under a transform (each with a witness)."
  },
  {
   "property": "C81",
   "status": "partial",
   "theorems": [
    "Probayes.C81_given",
    "Probayes.C81_shape_refused",
    "Probayes.C81_predecessors",
    "Probayes.C81_no_transition_refused",
    "Probayes.C81_default",
    "Probayes.C81_flat",
    "Probayes.C81_flat_infinite_refused",
    "Probayes.C81_quantiles",
    "Probayes.C81_transform_claim_fails",
    "Probayes.C81_draws",
    "Probayes.C81_law",
    "Probayes.C81_sampling_refused",
    "Probayes.C81_unit_refused",
    "Probayes.C81_unit_claim_fails"
   ],
   "note": "Given and default successors, predecessors, constant transitions, quantiles and law from conditional cumulative functions without transform and the refusals are proved for all inputs. Refuted: {p} as successor, which always raises; successors in the set under a transform."
  },
  {
   "property": "C82",
   "status": "partial",
   "theorems": [
    "Probayes.C82_step",
    "Probayes.C82_partial",
    "Probayes.C82_unbounded",
    "Probayes.C82_flat_iff",
    "Probayes.C82_claim_fails",
    "Probayes.C82_reached",
    "Probayes.C82_stays",
    "Probayes.C82_congruent",
    "Probayes.C82_list_never_up",
    "Probayes.C82_list_claim_fails"
   ],
   "note": "Proved for steps of random sign: each next() moves or stays by the rule (C82_step), the target is kept for any number of steps by unbounded steps, and by bounded steps of one or sets of at most two values (C82_partial, C82_unbounded); bounded chains stay in the set (C82_stays) and steps of one reach every value (C82_reached). Bounded steps of two or more do not keep the target (C82_claim_fails, C82_flat_iff), and with [1] values never go up (C82_list_claim_fails)."
  },
  {
   "property": "C83",
   "status": "partial",
   "theorems": [
    "Probayes.C83_keeps",
    "Probayes.C83_step",
    "Probayes.C83_reached",
    "Probayes.C83_closed_collects",
    "Probayes.C83_closed_fails",
    "Probayes.C83_claim_fails",
    "Probayes.C83_plain_partial",
    "Probayes.C83_plain_claim_fails"
   ],
   "note": "Proved for any number of variables stepping without bounds or within limits that are excluded, with and without transforms (C83_step, C83_keeps; C83_plain_partial for the density of the values; C83_reached without transforms). Bounded steps within limits that are included collect at the limits and keep no positive density (C83_closed_collects, C83_closed_fails, C83_claim_fails); with a transform the density of the values themselves is not kept (C83_plain_claim_fails)."
  },
  {
   "property": "C84",
   "status": "partial",
   "theorems": [
    "Probayes.C84_accepts",
    "Probayes.C84_steps",
    "Probayes.C84_replaced_claim_fails",
    "Probayes.C84_replaced_partial",
    "Probayes.C84_refused_claim_fails",
    "Probayes.C84_tsteps_claim_fails",
    "Probayes.C84_refused_partial",
    "Probayes.C84_symmetric_claim_fails",
    "Probayes.C84_covariance",
    "Probayes.C84_sphere",
    "Probayes.C84_arrays_refused",
    "Probayes.C84_refused_shape",
    "Probayes.C84_scaled",
    "Probayes.C84_step_refused",
    "Probayes.C84_step_claim_fails"
   ],
   "note": "Proved: which arrays are accepted, exactly (C84_accepts); that steps are products with a Cholesky factor (C84_steps); means and covariances for deltas of the variables (C84_covariance); distances, means and covariances for spherised deltas (C84_sphere); taking back covariance and factor (C84_replaced_partial) and refused covariances (C84_refused_partial). The code disagrees in four ways: steps by the deltas of the variables are refused (C84_step_refused, C84_arrays_refused, C84_step_claim_fails), set_tran() keeps the factor (C84_replaced_claim_fails), refused matrices are used (C84_refused_claim_fails, C84_tsteps_claim_fails), arrays need not be symmetric (C84_symmetric_claim_fails)."
  },
  {
   "property": "C85",
   "status": "partial",
   "theorems": [
    "Probayes.C85_keeps",
    "Probayes.C85_covariance_partial",
    "Probayes.C85_step",
    "Probayes.C85_excess",
    "Probayes.C85_covariance_claim_fails",
    "Probayes.C85_reached_partial",
    "Probayes.C85_lattice",
    "Probayes.C85_reached_claim_fails"
   ],
   "note": "Proved: the rule of a step (C85_step); that spherised steps, scaled or not, bounded by open limits or not, with transforms, keep every measurable density after any number of steps (C85_keeps), and with a covariance if unbounded or diagonal (C85_covariance_partial); that two variables or more reach every open set (C85_reached_partial, unbounded and without transforms). The code disagrees in two ways: bounded steps with a covariance that is not diagonal do not keep the target (C85_excess, C85_covariance_claim_fails), and a single variable stays on the multiples of its delta (C85_lattice, C85_reached_claim_fails)."
  },
  {
   "property": "C86",
   "status": "partial",
   "theorems": [
    "Probayes.C86_keeps",
    "Probayes.C86_converges",
    "Probayes.C86_zero_draw",
    "Probayes.C86_lost",
    "Probayes.C86_draw",
    "Probayes.C86_conditional",
    "Probayes.C86_within_partial",
    "Probayes.C86_independent",
    "Probayes.C86_within_claim_fails",
    "Probayes.C86_order_claim_fails"
   ],
   "note": "C86_keeps: if the start is drawn from the distribution, so is every sample, for any tsteps and cursor; C86_converges: from any start, in any order, the samples tend to it in total variation; C86_conditional: each variable due is drawn from its conditional distribution; C86_draw: what is drawn with limits; C86_independent, C86_within_partial: uncorrelated variables with limits; C86_zero_draw, C86_lost: a draw of exactly 0 gives no finite sample, and then no other variable is sampled as finite. The claims that samples stay within limits and that the order of the start's values does not matter are refuted (C86_within_claim_fails, C86_order_claim_fails)."
  },
  {
   "property": "C87",
   "status": "proved",
   "theorems": [
    "Probayes.C87_chain",
    "Probayes.C87_path",
    "Probayes.C87_law",
    "Probayes.C87_keeps",
    "Probayes.C87_handed_on",
    "Probayes.C87_converges",
    "Probayes.C87_summary",
    "Probayes.C87_example"
   ],
   "note": "For stochastic matrices and one variable, started at a value of it; draws are elements of the unit interval, laws are volumes of the unit cube of draws. Columns that do not sum to one, logarithms and other orders of values are the subject of C32."
  },
  {
   "property": "C88",
   "status": "partial",
   "theorems": [
    "Probayes.C88_first",
    "Probayes.C88_step",
    "Probayes.C88_law",
    "Probayes.C88_start",
    "Probayes.C88_keeps_partial",
    "Probayes.C88_converges",
    "Probayes.C88_flat",
    "Probayes.C88_claim_fails"
   ],
   "note": "Step, law, invariance and convergence proved for both rules and symmetric matrices, with the process on the linear scale one. Refuted for Hastings and matrices that are not symmetric (C88_claim_fails, C88_flat): there is no reverse proposal."
  },
  {
   "property": "C89",
   "status": "proved",
   "theorems": [
    "Probayes.C89_run",
    "Probayes.C89_summary",
    "Probayes.C89_circle",
    "Probayes.C89_law",
    "Probayes.C89_proposed",
    "Probayes.C89_accepted",
    "Probayes.C89_estimate"
   ],
   "note": "for continuous variables with finite limits, increasing drawing coordinates (a < b), names that do not end in a prime, and measurable functions; floating point is exact real arithmetic"
  },
  {
   "property": "C90",
   "status": "partial",
   "theorems": [
    "Probayes.C90_step",
    "Probayes.C90_keeps_partial",
    "Probayes.C90_first",
    "Probayes.C90_unstated",
    "Probayes.C90_refused",
    "Probayes.C90_reached",
    "Probayes.C90_bounded_step",
    "Probayes.C90_bounded_partial",
    "Probayes.C90_bounded_claim_fails",
    "Probayes.C90_bounded_normal",
    "Probayes.C90_claim_fails",
    "Probayes.C90_normal"
   ],
   "note": "C90_step, C90_first, C90_refused and C90_unstated hold as stated; C90_keeps_partial proves that symmetric deltas keep every target in any number of steps, by Metropolis and Hastings, whatever positive densities are stated; C90_normal and C90_reached treat the example's normal deltas. The claim for deltas that are not symmetric under Hastings is refuted for single functions and for pairs (C90_claim_fails). Bounded steps on open sets: C90_bounded_step; they keep the target if signs may be changed one by one (C90_bounded_partial, C90_bounded_normal), but not if only all at once (C90_bounded_claim_fails). Not covered: bounded steps on closed sets, targets with positive values below the smallest normal float, pairs on logarithmic scales"
  },
  {
   "property": "C91",
   "status": "partial",
   "theorems": [
    "Probayes.C91_evaluates",
    "Probayes.C91_positional",
    "Probayes.C91_named",
    "Probayes.C91_cumulative",
    "Probayes.C91_kept",
    "Probayes.C91_own_partial",
    "Probayes.C91_accepted",
    "Probayes.C91_after_frozen",
    "Probayes.C91_names",
    "Probayes.C91_mvar_partial",
    "Probayes.C91_mvar_kept",
    "Probayes.C91_mvar_names",
    "Probayes.C91_evaluated_by_name",
    "Probayes.C91_positional_claim_fails",
    "Probayes.C91_own_claim_fails",
    "Probayes.C91_names_claim_fails",
    "Probayes.C91_mvar_claim_fails"
   ],
   "note": "C91_evaluates, C91_named, C91_cumulative, C91_accepted: for parameters by keyword, after any calls. Refuted: parameters by position (C91_positional_claim_fails; C91_positional says what happens), absence of earlier cumulative functions (C91_own_claim_fails; C91_own_partial if no distribution was set before), multivariate distributions after mappings (C91_mvar_claim_fails; C91_mvar_partial without), names (C91_names_claim_fails). Symbolic distributions and states after exceptions are not covered. C91_evaluated_by_name relates p(x) to p['prob'](x), mappings included; C91_mvar_names says that multivariate distributions leave the names listed before"
  },
  {
   "property": "C92",
   "status": "partial",
   "theorems": [
    "Probayes.C92_restored_partial",
    "Probayes.C92_logp",
    "Probayes.C92_zero",
    "Probayes.C92_restored_claim_fails",
    "Probayes.C92_captured",
    "Probayes.C92_found",
    "Probayes.C92_inverse",
    "Probayes.C92_samples",
    "Probayes.C92_contents",
    "Probayes.C92_refused",
    "Probayes.C92_unasked"
   ],
   "note": "Proved in full for the contents, the logarithm, the search, the choice of the inverse, the counts of samples and refusals. Replacing symbols and back is proved for expressions other than zero without symbols named like the real equivalents (C92_restored_partial); the claim for all is refuted (C92_restored_claim_fails, C92_captured)."
  },
  {
   "property": "C93",
   "status": "partial",
   "theorems": [
    "Probayes.C93_prior_asked",
    "Probayes.C93_joint",
    "Probayes.C93_joint_omitted",
    "Probayes.C93_asked_partial",
    "Probayes.C93_omitted",
    "Probayes.C93_claim_fails",
    "Probayes.C93_limit",
    "Probayes.C93_point"
   ],
   "note": "The estimate is proved to be the fraction of samples in the region when both values of o are asked for (C93_asked_partial), with bias, error and almost sure limit (C93_limit); the call as the example makes it draws o once and estimates 0 or 1 (C93_omitted, C93_claim_fails). Proved for variables named o, x, y, densities on the linear scale, and a product of densities that does not count as zero."
  },
  {
   "property": "C94",
   "status": "partial",
   "theorems": [
    "Probayes.C94_posterior_partial",
    "Probayes.C94_underflow",
    "Probayes.C94_rule_partial",
    "Probayes.C94_claim_fails"
   ],
   "note": "Posterior on a grid from independent observations of one variable (C94_posterior_partial) and Bayes' rule for any number of roots and leafs (C94_rule_partial), for linear scales, finite variables and evidence of at least the smallest normal float; below it the result is not normalised (C94_underflow, C94_claim_fails). Missing: log scales, several observed variables, float variables."
  },
  {
   "property": "C95",
   "status": "partial",
   "theorems": [
    "Probayes.C95_chain_linear_partial",
    "Probayes.C95_chain_log_partial",
    "Probayes.C95_lost",
    "Probayes.C95_linear_partial",
    "Probayes.C95_log_partial",
    "Probayes.C95_columns",
    "Probayes.C95_matrix",
    "Probayes.C95_claim_fails"
   ],
   "note": "The chain rule summed over the common variable and, by induction over rounds, the powers of the transition matrix, on linear scales and on the logarithmic scale when no transition probability is below the smallest normal float; C95_claim_fails shows what is lost otherwise. The step of a variable with a transition matrix is included (C95_matrix); other logarithmic scales are missing."
  },
  {
   "property": "C96",
   "status": "partial",
   "theorems": [
    "Probayes.C96_marginal_partial",
    "Probayes.C96_conditional_partial",
    "Probayes.C96_own_partial",
    "Probayes.C96_between_raises",
    "Probayes.C96_field_partial",
    "Probayes.C96_claim_fails"
   ],
   "note": "proved on linear scales: marginals for any choice of the distributions, conditioning on the first or the last of them, one variable of a called field; refused when the variables conditioned on lie between the others, probabilities of conditions at least the smallest normal float; logarithmic scales missing"
  },
  {
   "property": "C97",
   "status": "partial",
   "theorems": [
    "Probayes.C97_joint",
    "Probayes.C97_one",
    "Probayes.C97_limit",
    "Probayes.C97_cumulative",
    "Probayes.C97_logarithmic",
    "Probayes.C97_equally",
    "Probayes.C97_finite_partial",
    "Probayes.C97_any_partial",
    "Probayes.C97_single_first",
    "Probayes.C97_claim_fails"
   ],
   "note": "Float variables and random variables with cumulative functions: joint law, one value and limit proved. Finite sets: {0} proved; {-n} proved when n is a multiple of the size of the set, exact shares otherwise; the claim for every n is refuted (C97_claim_fails)."
  },
  {
   "property": "C98",
   "status": "partial",
   "theorems": [
    "Probayes.C98_len",
    "Probayes.C98_index",
    "Probayes.C98_index_end",
    "Probayes.C98_index_refused",
    "Probayes.C98_name",
    "Probayes.C98_names",
    "Probayes.C98_subfield_partial",
    "Probayes.C98_subfield_unknown",
    "Probayes.C98_subfield_random_refused",
    "Probayes.C98_subfield_field_refused",
    "Probayes.C98_subfield_other_refused",
    "Probayes.C98_stranger",
    "Probayes.C98_equal_partial",
    "Probayes.C98_whole_partial",
    "Probayes.C98_neither",
    "Probayes.C98_namesakes",
    "Probayes.C98_claim_fails",
    "Probayes.C98_spaces_refused"
   ],
   "note": "Length, indices and names proved; subfields and equality proved for variables that are not random and classes Field/RF with distinct names; the rest of the documented claim is refuted (C98_claim_fails and the theorems named in DESIGN.md)."
  },
  {
   "property": "C99",
   "status": "partial",
   "theorems": [
    "Probayes.C99_chain",
    "Probayes.C99_path",
    "Probayes.C99_start",
    "Probayes.C99_keeps",
    "Probayes.C99_density",
    "Probayes.C99_number_partial",
    "Probayes.C99_claim_fails"
   ],
   "note": "Chain, path law, start, invariance and density proved; the number of a step is the density only if the limits do not cut the distribution (C99_claim_fails, C99_number_partial)."
  },
  {
   "property": "C100",
   "status": "partial",
   "theorems": [
    "Probayes.C100_removable",
    "Probayes.C100_settings",
    "Probayes.C100_values_partial",
    "Probayes.C100_members_partial",
    "Probayes.C100_removed",
    "Probayes.C100_transition_partial",
    "Probayes.C100_transition_given_partial",
    "Probayes.C100_probability",
    "Probayes.C100_default_partial",
    "Probayes.C100_exclusive_partial",
    "Probayes.C100_refused_kept",
    "Probayes.C100_transition_lost",
    "Probayes.C100_claim_fails"
   ],
   "note": "Settings, probability kept and exclusivity proved for all sequences; values and default density only if a set or transform is given after each removal of a transform, transition only if not replaced by a default (C100_claim_fails, C100_removed, C100_transition_lost, C100_refused_kept)."
  },
  {
   "property": "C101",
   "status": "partial",
   "theorems": [
    "Probayes.C101_posterior_partial",
    "Probayes.C101_estimate_partial",
    "Probayes.C101_claim_fails",
    "Probayes.C101_limit"
   ],
   "note": "The posterior over the samples and its expectations, on both scales, as long as no number is too small to be represented; the almost sure limit on the linear scale without that. Named variables o, x, y; constant prior densities."
  },
  {
   "property": "C102",
   "status": "partial",
   "theorems": [
    "Probayes.C102_unbiased_partial",
    "Probayes.C102_circle",
    "Probayes.C102_claim_fails"
   ],
   "note": "proved for excluded limits (tuples); refuted for included ones"
  },
  {
   "property": "C103",
   "status": "partial",
   "theorems": [
    "Probayes.C103_joint_zero",
    "Probayes.C103_grid_partial",
    "Probayes.C103_refused",
    "Probayes.C103_combinations",
    "Probayes.C103_claim_fails"
   ],
   "note": "One-by-one requests; fails when {0} is asked for some variable while float variables are left out, or a float variable is asked for None."
  },
  {
   "property": "C104",
   "status": "partial",
   "theorems": [
    "Probayes.C104_counted",
    "Probayes.C104_law_partial",
    "Probayes.C104_called",
    "Probayes.C104_frequency",
    "Probayes.C104_claim_fails",
    "Probayes.C104_log_raises"
   ],
   "note": "The law holds after any history once a probability away from one half is set on scale one; one half set after another probability keeps the old bias (negation proved), and draws on the logarithmic scale raise."
  },
  {
   "property": "C105",
   "status": "partial",
   "theorems": [
    "Probayes.C105_untyped",
    "Probayes.C105_converts_partial",
    "Probayes.C105_twice",
    "Probayes.C105_exact",
    "Probayes.C105_mixed",
    "Probayes.C105_sets",
    "Probayes.C105_claim_fails"
   ],
   "note": "Converted one by one for numbers, arrays and containers of one type; sets are refused and mixed lists returned as they are (negation proved)."
  },
  {
   "property": "C106",
   "status": "partial",
   "theorems": [
    "Probayes.C106_zero",
    "Probayes.C106_default",
    "Probayes.C106_scaled",
    "Probayes.C106_unscaled",
    "Probayes.C106_each",
    "Probayes.C106_array_bounded",
    "Probayes.C106_whole",
    "Probayes.C106_rounds",
    "Probayes.C106_bounded",
    "Probayes.C106_reversible_iff",
    "Probayes.C106_claim_fails",
    "Probayes.C106_walk",
    "Probayes.C106_absorbed"
   ],
   "note": "Whole deltas, rounding and bounds are proved; exactly whole deltas are reversible, so the claim fails for fractional ones, whose random walks end at zero almost surely (proved)."
  },
  {
   "property": "C107",
   "status": "proved",
   "theorems": [
    "Probayes.C107_law",
    "Probayes.C107_limit",
    "Probayes.C107_example"
   ],
   "note": "Single variable with a transition matrix, draws as independent uniform numbers; the model of step is that of C61."
  },
  {
   "property": "C108",
   "status": "partial",
   "theorems": [
    "Probayes.C108_latest_partial",
    "Probayes.C108_spent",
    "Probayes.C108_out_of_range",
    "Probayes.C108_alone",
    "Probayes.C108_order_partial",
    "Probayes.C108_unknown",
    "Probayes.C108_refused",
    "Probayes.C108_mixed_refused",
    "Probayes.C108_scalars_refused",
    "Probayes.C108_object_set",
    "Probayes.C108_functions_set",
    "Probayes.C108_object",
    "Probayes.C108_object_numbered",
    "Probayes.C108_name_refused",
    "Probayes.C108_never",
    "Probayes.C108_claim_fails",
    "Probayes.C108_two_held"
   ],
   "note": "Holds for references used at once, before another is made; refuted for references that are held. Scipy objects are not modelled."
  },
  {
   "property": "C109",
   "status": "partial",
   "theorems": [
    "Probayes.C109_drift",
    "Probayes.C109_normal",
    "Probayes.C109_example",
    "Probayes.C109_lost",
    "Probayes.C109_claim_fails",
    "Probayes.C109_keeps_partial"
   ],
   "note": "Refuted: the number for the way back is that for the way there, so the rule of Hastings corrects nothing and any chain with leaning displacements loses its target, that of mcmc_prob6.py included. Proved to be kept without a shift and with a single function."
  },
  {
   "property": "C110",
   "status": "proved",
   "theorems": [
    "Probayes.C110_proportions",
    "Probayes.C110_box_proportions",
    "Probayes.C110_prob3_proportions",
    "Probayes.C110_rate",
    "Probayes.C110_tends",
    "Probayes.C110_box",
    "Probayes.C110_prob3",
    "Probayes.C110_prob4b"
   ],
   "note": "Geometric convergence from points of the set and convergence from any start that reaches it, with mcmc_prob3.py and mcmc_prob4b.py as instances; pairs of functions are left to C109."
  },
  {
   "property": "C111",
   "status": "proved",
   "theorems": [
    "Probayes.C111_tends",
    "Probayes.C111_normal",
    "Probayes.C111_prob2",
    "Probayes.C111_prob4a",
    "Probayes.C111_proportions",
    "Probayes.C111_normal_proportions",
    "Probayes.C111_prob2_proportions",
    "Probayes.C111_prob4a_proportions"
   ],
   "note": "convergence of the law and of the proportions of samples from every start for every target of finite non-zero integral; one stated density or none (pairs are judged by C109)"
  },
  {
   "property": "C112",
   "status": "partial",
   "theorems": [
    "Probayes.C112_claim_fails",
    "Probayes.C112_members_partial",
    "Probayes.C112_first",
    "Probayes.C112_getitem",
    "Probayes.C112_refused",
    "Probayes.C112_default",
    "Probayes.C112_renamed",
    "Probayes.C112_dexpr",
    "Probayes.C112_dexpr_claim_fails"
   ],
   "note": "icon[:], refusals, the first icon's members and what [:] gives for deterministic expressions proved; members stay those of the first object that had them when another icon is set (C112_claim_fails), and reading dexpr gives the name (C112_dexpr_claim_fails)."
  },
  {
   "property": "C113",
   "status": "partial",
   "theorems": [
    "Probayes.C113_claim_fails",
    "Probayes.C113_tuples",
    "Probayes.C113_field_partial",
    "Probayes.C113_dict",
    "Probayes.C113_none",
    "Probayes.C113_refused",
    "Probayes.C113_outputs"
   ],
   "note": "variables, fields, dictionaries, names and refusals proved for all states; tuples and lists are refused as inputs and, with fields in them, as outputs (C113_claim_fails, C113_tuples)."
  },
  {
   "property": "C114",
   "status": "partial",
   "theorems": [
    "Probayes.C114_claim_fails",
    "Probayes.C114_raises",
    "Probayes.C114_edges",
    "Probayes.C114_dropped",
    "Probayes.C114_kept_partial",
    "Probayes.C114_refused",
    "Probayes.C114_dict",
    "Probayes.C114_values",
    "Probayes.C114_evaluated",
    "Probayes.C114_outputs"
   ],
   "note": "add_deps raises for all arguments and states; what it leaves behind is proved (entries, edges); eval_deps returns its arguments exactly when all outputs are of a kind that is taken (C114_claim_fails)."
  },
  {
   "property": "C115",
   "status": "partial",
   "theorems": [
    "Probayes.C115_claim_fails",
    "Probayes.C115_once_partial",
    "Probayes.C115_numbers",
    "Probayes.C115_arrays",
    "Probayes.C115_entries",
    "Probayes.C115_shown"
   ],
   "note": "expressions set once proved to be evaluated; expressions set again are not: numbers are put into the first, arrays by position into the first of which a function of arrays could be made (C115_claim_fails, C115_numbers, C115_arrays)."
  },
  {
   "property": "C116",
   "status": "proved",
   "theorems": [
    "Probayes.C116_adds_up",
    "Probayes.C116_any_target",
    "Probayes.C116_any_target_near",
    "Probayes.C116_normal",
    "Probayes.C116_prob2",
    "Probayes.C116_prob4a",
    "Probayes.C116_box",
    "Probayes.C116_prob3"
   ],
   "note": "weak law of large numbers for the walks of C110 and C111, with the chances of being near and far that add up to one; pairs of functions are left to C109"
  },
  {
   "property": "C117",
   "status": "partial",
   "theorems": [
    "Probayes.C117_keys",
    "Probayes.C117_values",
    "Probayes.C117_none",
    "Probayes.C117_claim_fails",
    "Probayes.C117_read_back_partial"
   ],
   "note": "keys and values of iterdict for all dictionaries and orders of sets; the i-th value is that of the i-th dictionary only at keys that all dictionaries have"
  },
  {
   "property": "C118",
   "status": "partial",
   "theorems": [
    "Probayes.C118_members",
    "Probayes.C118_arrays",
    "Probayes.C118_raises",
    "Probayes.C118_claim_fails",
    "Probayes.C118_sympy_fails",
    "Probayes.C118_finite_partial"
   ],
   "note": "for all nestings; sets of numbers that are not finite and Sympy zoo and nan are told to be finite"
  }
 ]
}