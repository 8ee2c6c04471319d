{
 "claims": [
  {
   "property": "C01",
   "status": "proved",
   "theorems": [
    "Einet.Props.C01_density_integral"
   ],
   "note": "Integral over all completions of the density of every class of every constructed model is 1, for every configuration that builds."
  },
  {
   "property": "C02",
   "status": "proved",
   "theorems": [
    "Einet.Props.C02_marginal",
    "Einet.Props.C02_all_missing"
   ],
   "note": "exp of forward on a row with NaN = integral of exp of forward over the missing values."
  },
  {
   "property": "C03",
   "status": "proved",
   "theorems": [
    "Einet.Props.C03_scopes_eq_nan",
    "Einet.Props.C03_values_irrelevant"
   ],
   "note": ""
  },
  {
   "property": "C04",
   "status": "proved",
   "theorems": [
    "Einet.Props.C04_nan_outside_scopes",
    "Einet.Props.C04_bad_scopes"
   ],
   "note": ""
  },
  {
   "property": "C05",
   "status": "proved",
   "theorems": [
    "Einet.Props.C05_rows_independent"
   ],
   "note": ""
  },
  {
   "property": "C06",
   "status": "partial",
   "theorems": [
    "Einet.Props.C06_builds_partial",
    "Einet.Props.C06_forward_partial",
    "Einet.Props.C06_refuted"
   ],
   "note": "Exact condition for construction; constructed models return [N, num_classes] of finite numbers. False in general: configurations accepted by assert_valid that cannot be built (refuted)."
  },
  {
   "property": "C07",
   "status": "partial",
   "theorems": [
    "Einet.Props.C07_rank2",
    "Einet.Props.C07_rank4",
    "Einet.Props.C07_rejects_partial",
    "Einet.Props.C07_refuted"
   ],
   "note": "Inputs of rank 2/4 give the result of the equivalent rank 3 input; wrong inputs are rejected except the images the code accepts by accident (refuted)."
  },
  {
   "property": "C08",
   "status": "proved",
   "theorems": [
    "Einet.Props.C08_posterior",
    "Einet.Props.C08_model",
    "Einet.Props.C08_single_class"
   ],
   "note": ""
  },
  {
   "property": "C10",
   "status": "proved",
   "theorems": [
    "Einet.Props.C10_logits_to_log_weights",
    "Einet.Props.C10_sum_layer",
    "Einet.Props.C10_linsum_layer",
    "Einet.Props.C10_linsum2_layer",
    "Einet.Props.C10_mixing_layer",
    "Einet.Props.C10_einsum_layer"
   ],
   "note": ""
  },
  {
   "property": "C11",
   "status": "partial",
   "theorems": [
    "Einet.Props.C11_plain_sum_partial",
    "Einet.Props.C11_refuted"
   ],
   "note": "Exact characterisation for real and -inf inputs; a region with only -inf children yields NaN (refuted)."
  },
  {
   "property": "C12",
   "status": "partial",
   "theorems": [
    "Einet.Props.C12_groups",
    "Einet.Props.C12_simple_partial",
    "Einet.Props.C12_simple_refuted"
   ],
   "note": "Full for FactorizedLeaf; FactorizedLeafSimple partitions but can leave a group empty (refuted)."
  },
  {
   "property": "C26",
   "status": "partial",
   "theorems": [
    "Einet.Props.C26_check_valid_partial",
    "Einet.Props.C26_zero_bound_refuted",
    "Einet.Props.C26_float_bound",
    "Einet.Props.C26_float_bound_refuted"
   ],
   "note": "Exact for bounds other than 0; a bound of 0 is ignored by the code (refuted)."
  },
  {
   "property": "C27",
   "status": "partial",
   "theorems": [
    "Einet.Props.C27_assert_valid_partial",
    "Einet.Props.C27_negative_refuted"
   ],
   "note": "Exact for depth >= 0 and dropout >= 0; negative depth and dropout are accepted by the code (refuted)."
  },
  {
   "property": "C13",
   "status": "partial",
   "theorems": [
    "Einet.Props.C13_sample_law_partial",
    "Einet.Props.C13_rowLaw_prob",
    "Einet.Props.C13_exact_law",
    "Einet.Props.C13_forward_mixture",
    "Einet.Props.C13_refuted",
    "Einet.Props.C13_refuted_full_depth"
   ],
   "note": "Joint law of all rows = product of the model density, for every configuration with matching grouping (MirrorCfg, exactly the configurations with a common grouping by C34_exact); false for the other two kinds of configurations (witnesses: 25/144 instead of 13/72 with one repetition, 5/12 instead of 7/18 with several repetitions and 2**depth = num_features). For all configurations and temperatures C13_exact_law gives the law as a mixture over classes, repetitions and components, and C13_forward_mixture the density as the same mixture with the grouping of the forward pass."
  },
  {
   "property": "C14",
   "status": "partial",
   "theorems": [
    "Einet.Props.C14_conditional_law_partial",
    "Einet.Props.C14_rank2_partial",
    "Einet.Props.C14_rank4_partial",
    "Einet.Props.C14_exact_law",
    "Einet.Props.C14_exact_rank2",
    "Einet.Props.C14_exact_rank4",
    "Einet.Props.C13_refuted",
    "Einet.Props.C13_refuted_full_depth"
   ],
   "note": "Joint law of all rows given evidence of rank 2, 3 or 4 = product of the conditional laws, for MirrorCfg; no evidence is the special case refuted by C13_refuted outside MirrorCfg. C14_exact_law gives the law for all configurations, temperatures of the leaves and mpe_at_leaves, with temperature_sums = 1."
  },
  {
   "property": "C15",
   "status": "proved",
   "theorems": [
    "Einet.Props.C15_evidence_kept",
    "Einet.Props.C15_rank2",
    "Einet.Props.C15_rank4",
    "Einet.Props.C15_differentiable",
    "Einet.Props.C15_callers_tensor"
   ],
   "note": "evidence of rank 2, 3 and 4; the caller's tensor in the model with storages (Heap.lean)"
  },
  {
   "property": "C16",
   "status": "partial",
   "theorems": [
    "Einet.Props.C16_class_int_partial",
    "Einet.Props.C16_class_list_partial",
    "Einet.Props.C16_list_refuted",
    "Einet.Props.C16_refuted_differentiable",
    "Einet.Props.C13_exact_law"
   ],
   "note": "Index mode; with is_differentiable=True every class_index raises (refuted). A list without num_samples of the same length always raises (refuted)."
  },
  {
   "property": "C17",
   "status": "partial",
   "theorems": [
    "Einet.Props.C17_class_mixture_partial",
    "Einet.Props.C17_uniform_partial",
    "Einet.Props.C17_class_evidence_partial",
    "Einet.Props.C17_refuted_uniform",
    "Einet.Props.C17_refuted_posterior",
    "Einet.Props.C13_exact_law",
    "Einet.Props.C14_exact_law"
   ],
   "note": "Exact law; false in general: random class prior, class not conditioned on the evidence (both refuted)."
  },
  {
   "property": "C24",
   "status": "partial",
   "theorems": [
    "Einet.Props.C24_sample_total_partial",
    "Einet.Props.C15_evidence_kept",
    "Einet.Props.C24_differentiable_partial",
    "Einet.Props.C15_differentiable",
    "Einet.Props.C24_refuted_bernoulli"
   ],
   "note": "No random outcome raises, shape [N,C,F]; Bernoulli leaves always raise (refuted)."
  },
  {
   "property": "C33",
   "status": "proved",
   "theorems": [
    "Einet.Props.C33_invert_permutation",
    "Einet.Props.C33_bottom_up"
   ],
   "note": ""
  },
  {
   "property": "C34",
   "status": "partial",
   "theorems": [
    "Einet.Props.C34_mirrored_partial",
    "Einet.Props.C34_refuted",
    "Einet.Props.C34_exact"
   ],
   "note": "One grouping describes both directions for MirrorCfg; false for a top-down model with one repetition (refuted). For at least two leaves MirrorCfg is exactly the condition under which this holds for all parameters (C34_exact)."
  },
  {
   "property": "C20",
   "status": "partial",
   "theorems": [
    "Einet.Props.C20_deterministic",
    "Einet.Props.C20_greedy",
    "Einet.Props.C20_greedy_evidence_partial",
    "Einet.Props.C20_mpe_deterministic",
    "Einet.Props.C20_mpe_partial",
    "Einet.Props.C20_refuted_class"
   ],
   "note": "mpe consumes no random numbers and every decision is maximal; with evidence and several classes the class is chosen without looking at the evidence (refuted)."
  },
  {
   "property": "C21",
   "status": "partial",
   "theorems": [
    "Einet.Props.C21_same_modes_partial",
    "Einet.Props.C21_mpe_partial",
    "Einet.Props.C21_refuted"
   ],
   "note": "True if all components of a leaf share their most probable values; false in general: mpe() returns a row of probability 11/54 although another one has 17/54 (refuted)."
  },
  {
   "property": "C31",
   "status": "proved",
   "theorems": [
    "Einet.Props.C31_mode",
    "Einet.Props.C31_mpe"
   ],
   "note": "All leaf types incl. RatNormal."
  },
  {
   "property": "C41",
   "status": "proved",
   "theorems": [
    "Einet.Props.C41_scale",
    "Einet.Props.C41_divide",
    "Einet.Props.C41_leaf_one",
    "Einet.Props.C41_leaf",
    "Einet.Props.C41_shares",
    "Einet.Props.C13_exact_law",
    "Einet.Props.C14_exact_law",
    "Einet.Props.C13_sample_law_partial",
    "Einet.Props.C14_conditional_law_partial"
   ],
   "note": "C13_exact_law covers all temperatures without evidence; with evidence the sums have temperature 1 (C14_exact_law)."
  },
  {
   "property": "C09",
   "status": "proved",
   "theorems": [
    "Einet.Props.C09_transparent",
    "Einet.Props.C09_no_key",
    "Einet.Props.C09_reset"
   ],
   "note": "histories may also contain sampling calls, calls that raise, and parameter changes"
  },
  {
   "property": "C18",
   "status": "partial",
   "theorems": [
    "Einet.Props.C18_call",
    "Einet.Props.C18_history_partial",
    "Einet.Props.C18_valid_history",
    "Einet.Props.C18_refuted"
   ],
   "note": "false after an exception inside sampling_context (no try/finally): C18_refuted; holds for all histories without such aborted calls"
  },
  {
   "property": "C19",
   "status": "partial",
   "theorems": [
    "Einet.Props.C19_reproducible_partial",
    "Einet.Props.C19_restored_partial",
    "Einet.Props.C19_refuted",
    "Einet.Props.C19_refuted_history"
   ],
   "note": "false for calls that raise and after aborted calls"
  },
  {
   "property": "C35",
   "status": "partial",
   "theorems": [
    "Einet.Props.C35_accepts",
    "Einet.Props.C35_levels_partial",
    "Einet.Props.C35_binomial_partial",
    "Einet.Props.C35_preprocess",
    "Einet.Props.C35_refuted_categorical",
    "Einet.Props.C35_refuted_eight"
   ],
   "note": "levels fit a Binomial leaf with total_count 2^n-1 for n<=7; false for 8 bits (no rounding) and for the Categorical leaf, which get_distribution gives one category too few"
  },
  {
   "property": "C36",
   "status": "proved",
   "theorems": [
    "Einet.Props.C36_interp",
    "Einet.Props.C36_initialize",
    "Einet.Props.C36_continuous",
    "Einet.Props.C36_discrete",
    "Einet.Props.C36_mode",
    "Einet.Props.C36_logProb_partial",
    "Einet.Props.C36_refuted_floor",
    "Einet.Props.C36_refuted_empty"
   ],
   "note": "the interpolated function is a density; what log_prob reports is floored at -300 (C36_refuted_floor) and an empty cluster of a continuous feature stores NaN (C36_refuted_empty)"
  },
  {
   "property": "C37",
   "status": "proved",
   "theorems": [
    "Einet.Props.C37_covers",
    "Einet.Props.C37_range",
    "Einet.Props.C37_defined"
   ],
   "note": ""
  },
  {
   "property": "C39",
   "status": "partial",
   "theorems": [
    "Einet.Props.C39_std_partial",
    "Einet.Props.C39_positive_partial",
    "Einet.Props.C39_mean_partial",
    "Einet.Props.C39_upper_alone",
    "Einet.Props.C39_named",
    "Einet.Props.C39_refuted_mean_zero",
    "Einet.Props.C39_refuted_lower_alone",
    "Einet.Props.C39_refuted_negative",
    "Einet.Props.C39_refuted_zero"
   ],
   "note": "mean bounds equal to zero or given alone are not enforced, negative sigma bounds are accepted"
  },
  {
   "property": "C42",
   "status": "proved",
   "theorems": [
    "Einet.Props.C42_block",
    "Einet.Props.C42_seed",
    "Einet.Props.C42_counts",
    "Einet.Props.C42_order",
    "Einet.Props.C42_refused"
   ],
   "note": ""
  },
  {
   "property": "C43",
   "status": "proved",
   "theorems": [
    "Einet.Props.C43_preprocess"
   ],
   "note": ""
  },
  {
   "property": "C44",
   "status": "partial",
   "theorems": [
    "Einet.Props.C44_partial",
    "Einet.Props.C44_refuted_gaps"
   ],
   "note": "false for domains with gaps"
  },
  {
   "property": "C45",
   "status": "partial",
   "theorems": [
    "Einet.Props.C45_pieces_partial",
    "Einet.Props.C45_discrete_partial",
    "Einet.Props.C45_refuted_continuous",
    "Einet.Props.C45_refuted_discrete"
   ],
   "note": "exact for whole pieces and for domains 0..m; false inside a piece and for other discrete domains"
  },
  {
   "property": "C25",
   "status": "partial",
   "theorems": [
    "Einet.Props.C25_loop",
    "Einet.Props.C25_mixing",
    "Einet.Props.C25_mixing_ends",
    "Einet.Props.C25_sum_iff",
    "Einet.Props.C25_sum_partial",
    "Einet.Props.C25_refuted_sum",
    "Einet.Props.C25_linsum_partial",
    "Einet.Props.C25_refuted_linsum",
    "Einet.Props.C25_refuted_linsum2",
    "Einet.Props.C25_einsum"
   ],
   "note": "Holds for mixing and einsum layers for every sequence of draws. False for sum layers with two or more repetitions (the loop tests the wrong dimension), for linsum layers (the redraw raises an IndexError) and for linsum2 layers (products themselves are dropped); what remains true is stated in the _partial theorems."
  },
  {
   "property": "C22",
   "status": "proved",
   "theorems": [
    "Einet.Props.C22_sample",
    "Einet.Props.C22_mpe",
    "Einet.Props.C22_mpe_free"
   ],
   "note": "any number of classes"
  },
  {
   "property": "C23",
   "status": "partial",
   "theorems": [
    "Einet.Props.C23_index_iff",
    "Einet.Props.C23_index_partial",
    "Einet.Props.C23_refuted_index",
    "Einet.Props.C23_simple_iff",
    "Einet.Props.C23_simple_logits_partial"
   ],
   "note": "exact conditions; false for tensors with infinite entries that are not selected, and for weights that are NaN or +inf"
  },
  {
   "property": "C28",
   "status": "proved",
   "theorems": [
    "Einet.Props.C28_forward"
   ],
   "note": "for every clustering function and every number of components"
  },
  {
   "property": "C29",
   "status": "partial",
   "theorems": [
    "Einet.Props.C29_cluster_partial",
    "Einet.Props.C29_scopes_ignored",
    "Einet.Props.C29_refuted"
   ],
   "note": "only the selection of the component ignores the marginalised features; the components are called without the scopes (refuted with densities 13/72 and 17/72)"
  },
  {
   "property": "C30",
   "status": "partial",
   "theorems": [
    "Einet.Props.C30_number_partial",
    "Einet.Props.C30_law_partial",
    "Einet.Props.C30_all_rows",
    "Einet.Props.C30_per_cluster",
    "Einet.Props.C30_evidence",
    "Einet.Props.C30_evidence_law_partial",
    "Einet.Props.C30_refuted_order",
    "Einet.Props.C30_refuted_mpe"
   ],
   "note": "rows are permuted with the sorting permutation instead of its inverse, so row i does not follow the mixture (refuted); MPE returns one row; laws for configurations where component samples follow their density"
  },
  {
   "property": "C46",
   "status": "partial",
   "theorems": [
    "Einet.Props.C46_weights_partial",
    "Einet.Props.C46_sampled",
    "Einet.Props.C46_refuted_number"
   ],
   "note": "fewer weights than components if the last clusters are empty (refuted)"
  },
  {
   "property": "C47",
   "status": "partial",
   "theorems": [
    "Einet.Props.C47_single_partial",
    "Einet.Props.C47_refuted"
   ],
   "note": "true for one component; hard assignment to clusters does not give a normalised density for more (total mass 35/36 in the witness)"
  },
  {
   "property": "C48",
   "status": "proved",
   "theorems": [
    "Einet.Props.C48_bins",
    "Einet.Props.C48_outside"
   ],
   "note": "exact real arithmetic"
  },
  {
   "property": "C49",
   "status": "partial",
   "theorems": [
    "Einet.Props.C49_noise",
    "Einet.Props.C49_evidence_partial",
    "Einet.Props.C49_free_partial",
    "Einet.Props.C49_close_partial",
    "Einet.Props.C49_exact_partial",
    "Einet.Props.C49_total",
    "Einet.Props.C49_total_evidence",
    "Einet.Props.C49_refuted_binomial",
    "Einet.Props.C49_refuted_binomial_law"
   ],
   "note": "for all leaves but Binomial: with exact Gumbel noise the laws are equal; with the guard eps no event gets more than exp(eps*n) times its probability, and no probability changes by more than exp(eps*n)-1 in either direction. Refuted for Binomial leaves (clipped normal approximation: fractional values). Missing: class_index (raises or is C16)"
  },
  {
   "property": "C50",
   "status": "proved",
   "theorems": [
    "Einet.Props.C50_evidence",
    "Einet.Props.C50_free"
   ],
   "note": "greedy completion per component in the sense of C20"
  },
  {
   "property": "C32",
   "status": "partial",
   "theorems": [
    "Einet.Props.C32_owner",
    "Einet.Props.C32_owner_unique",
    "Einet.Props.C32_forward",
    "Einet.Props.C32_sample",
    "Einet.Props.C32_mode",
    "Einet.Props.C32_params_order",
    "Einet.Props.C32_params_partial",
    "Einet.Props.C32_refuted_params",
    "Einet.Props.C32_refuted_coverage"
   ],
   "note": "forward, sampling and modes are in feature order for every partition; get_params is in the order of the scopes, so it is refuted for every partition not in increasing order. The constructor does not check that the scopes cover the features."
  },
  {
   "property": "C38",
   "status": "partial",
   "theorems": [
    "Einet.Props.C38_params_partial",
    "Einet.Props.C38_refuted",
    "Einet.Props.C38_refuted_one"
   ],
   "note": "true for the top-down structure; for the bottom-up structure a request for two or more rows always raises, and for one row only the mean is returned. Missing: differentiable mode"
  },
  {
   "property": "C40",
   "status": "partial",
   "theorems": [
    "Einet.Props.C40_density_partial",
    "Einet.Props.C40_marginal_partial",
    "Einet.Props.C40_fits_partial",
    "Einet.Props.C40_rejects",
    "Einet.Props.C40_refuted_single_channel",
    "Einet.Props.C40_sample_partial",
    "Einet.Props.C40_noise_partial",
    "Einet.Props.C40_close_partial",
    "Einet.Props.C40_total",
    "Einet.Props.C40_mpe",
    "Einet.Props.C40_refuted_binomial"
   ],
   "note": "both halves for all configurations with channels[0] other than 1 and all leaves but Binomial; refuted for channels[0]=1 (every forward call raises) and for Binomial leaves (sampled images are rejected by forward). Law with exact Gumbel noise, and bounds in both directions with the guard eps"
  },
  {
   "property": "C51",
   "status": "partial",
   "theorems": [
    "Einet.Props.C51_isolated_partial",
    "Einet.Props.C51_fresh",
    "Einet.Props.C51_refuted_raises",
    "Einet.Props.C51_refuted_mpe"
   ],
   "note": "true for histories without evidence; a conditional call raises and leaves the caches enabled, after which earlier forward calls change or break sampling (refuted)"
  },
  {
   "property": "C52",
   "status": "partial",
   "theorems": [
    "Einet.Props.C52_forward",
    "Einet.Props.C52_rejects",
    "Einet.Props.C52_law",
    "Einet.Props.C52_sample_partial",
    "Einet.Props.C52_refuted_row",
    "Einet.Props.C52_refuted"
   ],
   "note": "forward is correct for all sizes; sample normalises the logits over the rows of the image instead of the channels, so it is refuted (uniform for images of one row) and true only if the normalisers agree"
  },
  {
   "property": "C53",
   "status": "partial",
   "theorems": [
    "Einet.Props.C53_integral_partial",
    "Einet.Props.C53_rows_partial",
    "Einet.Props.C53_refuted_padding",
    "Einet.Props.C53_refuted_bottom_up"
   ],
   "note": "true for the top-down structure if the cardinality divides the number of features; other accepted configurations raise in every forward pass"
  },
  {
   "property": "C54",
   "status": "partial",
   "theorems": [
    "Einet.Props.C54_law_partial",
    "Einet.Props.C54_refuted_one_repetition",
    "Einet.Props.C54_refuted_repeat"
   ],
   "note": "law of the whole batch for more than one repetition if there is one component per leaf, single features as blocks, or one group of blocks; with one repetition one value per block is returned instead of K (refuted), and with several groups features of one block are drawn from components of other blocks, which loses correlations (refuted by an expectation)"
  },
  {
   "property": "C55",
   "status": "partial",
   "theorems": [
    "Einet.Props.C55_blocks_partial",
    "Einet.Props.C55_marginal_partial",
    "Einet.Props.C55_refuted_single",
    "Einet.Props.C55_refuted_list",
    "Einet.Props.C55_refuted_nan"
   ],
   "note": "a tensor of scopes integrates out all features of the touched blocks, so it is correct for unions of blocks and wrong for single features; lists and NaN entries raise"
  },
  {
   "property": "C56",
   "status": "proved",
   "theorems": [
    "Einet.Props.C56_integral",
    "Einet.Props.C56_marginal"
   ],
   "note": "hypothesis: the scopes are a partition of the features; the constructor checks only their total number (C32_refuted_coverage). NaN entries and marginalized_scopes may be combined"
  },
  {
   "property": "C57",
   "status": "partial",
   "theorems": [
    "Einet.Props.C57_total_partial",
    "Einet.Props.C57_evidence_partial",
    "Einet.Props.C57_mpe_partial",
    "Einet.Props.C57_law_partial",
    "Einet.Props.C57_class_partial",
    "Einet.Props.C57_conditional_partial",
    "Einet.Props.C57_rowLaw_prob",
    "Einet.Props.C57_plain",
    "Einet.Props.C57_exact_law",
    "Einet.Props.C57_exact_given"
   ],
   "note": "law of the model for the configurations in MirrorCfg, as in C13; C57_exact_law and C57_exact_given give the law for every configuration, class argument, temperature and mpe_at_leaves; missing: temperature_sums = 0, empty batches; given evidence also temperature_sums other than 1"
  },
  {
   "property": "C58",
   "status": "partial",
   "theorems": [
    "Einet.Props.C58_integral",
    "Einet.Props.C58_values",
    "Einet.Props.C58_targets",
    "Einet.Props.C58_train",
    "Einet.Props.C58_average_partial",
    "Einet.Props.C58_split_partial",
    "Einet.Props.C58_refuted_single"
   ],
   "note": "missing: loaders with a batch of a single row, for which test() raises a TypeError (C58_refuted_single)"
  },
  {
   "property": "C59",
   "status": "partial",
   "theorems": [
    "Einet.Props.C59_loss",
    "Einet.Props.C59_rejects",
    "Einet.Props.C59_train_partial",
    "Einet.Props.C59_refuted_train"
   ],
   "note": "holds for models_pl.py; false for main.py, whose loss is the one of the class-conditional likelihoods (C59_refuted_train: every classifier with continuous leaves has a row where it differs)"
  },
  {
   "property": "C60",
   "status": "partial",
   "theorems": [
    "Einet.Props.C60_single",
    "Einet.Props.C60_reduction",
    "Einet.Props.C60_bound_partial",
    "Einet.Props.C60_refuted_classes",
    "Einet.Props.C60_refuted_example"
   ],
   "note": "holds for one class; with several classes the loss is only an upper bound, strictly larger as soon as two classes differ on a row"
  },
  {
   "property": "C61",
   "status": "partial",
   "theorems": [
    "Einet.Props.C61_value_partial",
    "Einet.Props.C61_density",
    "Einet.Props.C61_bins",
    "Einet.Props.C61_noise",
    "Einet.Props.C61_refuted_discrete"
   ],
   "note": "holds for continuous leaves (with the bound for uniform dequantisation noise in C61_noise); false for discrete leaves: the result is too large by log2 n_bins"
  },
  {
   "property": "C62",
   "status": "partial",
   "theorems": [
    "Einet.Props.C62_forward",
    "Einet.Props.C62_total_partial",
    "Einet.Props.C62_marginal_partial",
    "Einet.Props.C62_rejects",
    "Einet.Props.C62_total_refuted",
    "Einet.Props.C62_scopes_refuted"
   ],
   "note": "normalised if the conditioning features are in the second half of the features, which the code does not check (C62_total_refuted: total mass 2*sigmoid(1)); marginalisation is right for scopes without conditioning features and wrong for others (C62_scopes_refuted); NaN entries raise"
  },
  {
   "property": "C63",
   "status": "partial",
   "theorems": [
    "Einet.Props.C63_law_partial",
    "Einet.Props.C63_exact_law",
    "Einet.Props.C63_row",
    "Einet.Props.C63_law_prob",
    "Einet.Props.C63_kept",
    "Einet.Props.C63_mpe",
    "Einet.Props.C63_no_evidence",
    "Einet.Props.C63_bottom_up",
    "Einet.Props.C63_scopes_refuted"
   ],
   "note": "law of the whole batch for the top-down structure, one class, configurations in MirrorCfg (as in C13) and scopes without conditioning features; false for scopes with conditioning features, whose old entries still set the logits (C63_scopes_refuted); always raises without evidence and with the bottom-up structure; mpe_at_leaves and temperature_leaves are ignored. C63_exact_law gives the law for every number of classes, configuration and tensor of scopes; missing: temperature_sums other than 1"
  },
  {
   "property": "C64",
   "status": "proved",
   "theorems": [
    "Einet.Props.C64_value_semantics",
    "Einet.Props.C64_kept",
    "Einet.Props.C64_own_storage"
   ],
   "note": "forward, sample, mpe and reset_cache with storages, views and in-place assignments of the caller (Heap.lean)"
  },
  {
   "property": "C65",
   "status": "partial",
   "theorems": [
    "Einet.Props.C65_partial",
    "Einet.Props.C65_refuted"
   ],
   "note": "holds for all leaves but Binomial; with binomial leaves the batch itself is multiplied by 255, again on every call (refuted)"
  },
  {
   "property": "C66",
   "status": "partial",
   "theorems": [
    "Einet.Props.C66_accepts_iff",
    "Einet.Props.C66_samples_accepted",
    "Einet.Props.C66_completions_accepted",
    "Einet.Props.C66_multi_samples_accepted",
    "Einet.Props.C66_multi_completions_accepted",
    "Einet.Props.C66_mixture_samples_accepted",
    "Einet.Props.C66_mixture_completions_accepted",
    "Einet.Props.C66_conv_samples_accepted_partial",
    "Einet.Props.C66_refuted_differentiable"
   ],
   "note": "proved for Einet with one leaf class and with MultiDistributionLayer in the default mode, and for mixtures of Einets; for ConvPc except drawn Binomial values; with differentiable sampling and Binomial leaves it is false: positive probability that forward raises ValueError on the sample (refuted)"
  },
  {
   "property": "C67",
   "status": "partial",
   "theorems": [
    "Einet.Props.C67_builds",
    "Einet.Props.C67_data",
    "Einet.Props.C67_generated_partial",
    "Einet.Props.C67_refuted_normal",
    "Einet.Props.C67_refuted_categorical",
    "Einet.Props.C67_refuted_bits",
    "Einet.Props.C67_refuted_synth"
   ],
   "note": "C67_data decides for every batch of images whether it is accepted: all with normal leaves, those of at most n_bits bits with binomial leaves, only black and white ones with categorical leaves; generated images proved right for binomial leaves; refuted: normal leaves (divided by 255 without having been multiplied), categorical leaves, fewer than 8 bits, synthetic data sets. Reals instead of floats: k/255*255 = k"
  },
  {
   "property": "C68",
   "status": "partial",
   "theorems": [
    "Einet.Props.C68_law",
    "Einet.Props.C68_means_partial",
    "Einet.Props.C68_variances_partial",
    "Einet.Props.C68_single_row",
    "Einet.Props.C68_remainder_one",
    "Einet.Props.C68_one_parameter",
    "Einet.Props.C68_other",
    "Einet.Props.C68_refuted_mean",
    "Einet.Props.C68_refuted_variance"
   ],
   "note": "law of the parameters for arbitrary batches of at least two rows; the means are right when the batch size divides the number of rows, the variance misses the variance between batches; refuted: means for a smaller last batch, variances for equal batches; the call raises for every data set whose size is one more than a multiple of the batch size, and for a single parameter"
  },
  {
   "property": "C69",
   "status": "partial",
   "theorems": [
    "Einet.Props.C69_initialize",
    "Einet.Props.C69_weights",
    "Einet.Props.C69_uninitialized",
    "Einet.Props.C69_density_partial",
    "Einet.Props.C69_scopes",
    "Einet.Props.C69_discrete",
    "Einet.Props.C69_discrete_sample_partial",
    "Einet.Props.C69_refuted_mass",
    "Einet.Props.C69_refuted_empty"
   ],
   "note": "false as stated: outside the data the reported log-likelihood of a component is -300, so the reported values integrate to infinity over any single entry, and an empty cluster of a continuous feature reports likelihood one everywhere (both proved). Proved: initialisation, errors before it, the reported values agree with an exactly marginalised density wherever all components are positive and are bounded below by it everywhere, and for discrete consecutive values with smoothing the full claim; sampling for values 0, 1, 2, ... and configurations in MirrorCfg"
  },
  {
   "property": "C70",
   "status": "partial",
   "theorems": [
    "Einet.Props.C70_images",
    "Einet.Props.C70_bin",
    "Einet.Props.C70_given",
    "Einet.Props.C70_both_partial",
    "Einet.Props.C70_debd",
    "Einet.Props.C70_tables",
    "Einet.Props.C70_tables_ok",
    "Einet.Props.C70_labels",
    "Einet.Props.C70_onehot",
    "Einet.Props.C70_noleak",
    "Einet.Props.C70_digits",
    "Einet.Props.C70_news",
    "Einet.Props.C70_classes",
    "Einet.Props.C70_unknown",
    "Einet.Props.C70_reproducible",
    "Einet.Props.C70_refuted_both",
    "Einet.Props.C70_refuted_synth",
    "Einet.Props.C70_refuted_fake",
    "Einet.Props.C70_refuted_leak",
    "Einet.Props.C70_refuted_circles",
    "Einet.Props.C70_refuted_names"
   ],
   "note": "true for the images split by the code, the data sets that come in three parts, the binary data sets and the tables; false for synthetic data (validation is the test part), fake (all parts equal), svhn and lsun with a number of images ending in 5 (raises), digits (training data depend on the test part, no number of classes), fmnist-16 (no data), circles (not reproducible): all proved"
  },
  {
   "property": "C71",
   "status": "partial",
   "theorems": [
    "Einet.Props.C71_eval",
    "Einet.Props.C71_train",
    "Einet.Props.C71_loop",
    "Einet.Props.C71_fail",
    "Einet.Props.C71_seed",
    "Einet.Props.C71_build",
    "Einet.Props.C71_refuted_seed"
   ],
   "note": "all parts but the last proved; the seed argument is ignored unless loop=True (proved), and both scripts use loop=False"
  },
  {
   "property": "C72",
   "status": "proved",
   "theorems": [
    "Einet.Props.C72",
    "Einet.Props.C72_refuted_down"
   ],
   "note": "for all rational factors of at least one; the opposite order loses the remainder (witness)"
  },
  {
   "property": "C73",
   "status": "proved",
   "theorems": [
    "Einet.Props.C73_nll",
    "Einet.Props.C73_accuracy",
    "Einet.Props.C73_accuracy_range",
    "Einet.Props.C73_fail"
   ],
   "note": "the trainer averages the values of the batches weighted by the batch sizes; a part without examples is left out of the report"
  },
  {
   "property": "C74",
   "status": "partial",
   "theorems": [
    "Einet.Props.C74_keep",
    "Einet.Props.C74_keep_mpe",
    "Einet.Props.C74_mpe",
    "Einet.Props.C74_law_partial",
    "Einet.Props.C74_exact_law",
    "Einet.Props.C74_fail"
   ],
   "note": "proved for images with one channel and at least two columns (law: conditional law of the model for the structures of C14, exact law for all structures and temperatures of the leaves in C74_exact_law); false for images with several channels and for tables, where main.py raises an IndexError (C74_fail)"
  },
  {
   "property": "C75",
   "status": "partial",
   "theorems": [
    "Einet.Props.C75_deterministic",
    "Einet.Props.C75_greedy_partial",
    "Einet.Props.C75_evidence_partial",
    "Einet.Props.C75_means_partial",
    "Einet.Props.C75_refuted_one_repetition",
    "Einet.Props.C75_refuted_repeat",
    "Einet.Props.C75_refuted_correlation"
   ],
   "note": "proved: determinism, greedy choices, known entries kept, means of the chosen components if there is one component, one region or blocks of one feature; false with one repetition (one value per block, or an exception given evidence), with several components and regions (component of block f % B instead of f / K), and for blocks known in part (the correlation is ignored)"
  },
  {
   "property": "C76",
   "status": "partial",
   "theorems": [
    "Einet.Props.C76_exact_partial",
    "Einet.Props.C76_conditional_law_partial",
    "Einet.Props.C76_law_prob",
    "Einet.Props.C76_evidence_kept_partial",
    "Einet.Props.C76_refuted_correlation"
   ],
   "note": "proved: known entries kept; exact law for every tensor of scopes; conditional law if the listed features form whole blocks; false for blocks known in part (the correlation is ignored); one repetition and several components with several regions as in C54"
  },
  {
   "property": "C77",
   "status": "partial",
   "theorems": [
    "Einet.Props.C77_exact",
    "Einet.Props.C77_rate_partial",
    "Einet.Props.C77_ends",
    "Einet.Props.C77_pwl",
    "Einet.Props.C77_main",
    "Einet.Props.C77_refuted_ninety",
    "Einet.Props.C77_refuted_one"
   ],
   "note": "exact rate of every epoch for fewer than 2^49 epochs; false for 90 epochs (0.7 * 90 is rounded below 63, one epoch early) and for one epoch (a hundredth of the rate from the start); the rate is a real number, the milestones are computed in double precision"
  },
  {
   "property": "C78",
   "status": "partial",
   "theorems": [
    "Einet.Props.C78_loads",
    "Einet.Props.C78_restores_partial",
    "Einet.Props.C78_round_trip",
    "Einet.Props.C78_refuses",
    "Einet.Props.C78_failed_load_overwrites",
    "Einet.Props.C78_refuted_trials",
    "Einet.Props.C78_refuted_depth"
   ],
   "note": "round trip for the same configuration up to dropout; the general theorem and the refusal of other sizes leave out files between depth 0 and positive depth (C78_refuted_depth: accepted without an error); keyword arguments of the leaves are not saved (C78_refuted_trials); leaf classes Normal, RatNormal, Binomial, Bernoulli, Categorical"
  },
  {
   "property": "C79",
   "status": "proved",
   "theorems": [
    "Einet.Props.C79_monotone",
    "Einet.Props.C79_nonpositive",
    "Einet.Props.C79_scopes",
    "Einet.Props.C79_loss"
   ],
   "note": "from the marginals of C02: the point mass at a value of the support is below the counting measure"
  },
  {
   "property": "C80",
   "status": "proved",
   "theorems": [
    "Einet.Props.C80_top_down",
    "Einet.Props.C80_bottom_up",
    "Einet.Props.C80_fixed"
   ],
   "note": "closed form of the constructor; leaf classes Normal, RatNormal, Binomial, Bernoulli, Categorical"
  },
  {
   "property": "C81",
   "status": "partial",
   "theorems": [
    "Einet.Props.C81_fresh_partial",
    "Einet.Props.C81_keeps",
    "Einet.Props.C81_refuted_third",
    "Einet.Props.C81_refuted_lost",
    "Einet.Props.C81_separate",
    "Einet.Props.C81_refuted_names"
   ],
   "note": "true for the first two runs with the same arguments; the third run always gets the directory of the second and overwrites its files (refuted for all arguments); different tags can share a directory (refuted)"
  },
  {
   "property": "C82",
   "status": "partial",
   "theorems": [
    "Einet.Props.C82_seeded",
    "Einet.Props.C82_refuted_none",
    "Einet.Props.C82_workers"
   ],
   "note": "workers: proved, with the exact bound 2^30 on their number; seed_all_rng without a seed always raises (refuted)"
  },
  {
   "property": "C83",
   "status": "partial",
   "theorems": [
    "Einet.Props.C83_saved_partial",
    "Einet.Props.C83_load_partial",
    "Einet.Props.C83_refuted_load"
   ],
   "note": "the checkpoint is saved as model.pt, but load_and_eval looks in a directory where no run writes and raises after every history of runs (refuted)"
  },
  {
   "property": "C84",
   "status": "partial",
   "theorems": [
    "Einet.Props.C84_loads_iff",
    "Einet.Props.C84_round_trip",
    "Einet.Props.C84_refuted_channels"
   ],
   "note": "exact condition under which the file is accepted; then all methods agree. False for data with several channels (the buffer of a new mixture is too small) and if no training row is in the last cluster. Einet components; leaf classes as in C78"
  },
  {
   "property": "C85",
   "status": "proved",
   "theorems": [
    "Einet.Props.C85_forward",
    "Einet.Props.C85_sample",
    "Einet.Props.C85_law",
    "Einet.Props.C85_seed",
    "Einet.Props.C85_mpe",
    "Einet.Props.C85_categorical"
   ],
   "note": "exact arithmetic on the extended reals; in floating point the results may differ by rounding"
  },
  {
   "property": "C86",
   "status": "proved",
   "theorems": [
    "Einet.Props.C86_mixture",
    "Einet.Props.C86_bounds",
    "Einet.Props.C86_agree",
    "Einet.Props.C86_normal",
    "Einet.Props.C86_ratNormal"
   ],
   "note": ""
  },
  {
   "property": "C87",
   "status": "proved",
   "theorems": [
    "Einet.Props.C87_generative",
    "Einet.Props.C87_unique",
    "Einet.Props.C87_discriminative",
    "Einet.Props.C87_class_nll"
   ],
   "note": "expectations compared through positive and negative parts, so no integrability is assumed; classification losses for single labelled rows"
  },
  {
   "property": "C88",
   "status": "proved",
   "theorems": [
    "Einet.Props.C88_forward",
    "Einet.Props.C88_loss",
    "Einet.Props.C88_classification"
   ],
   "note": "real arithmetic: rounding of floats is not modelled; dropout off"
  },
  {
   "property": "C89",
   "status": "partial",
   "theorems": [
    "Einet.Props.C89_model",
    "Einet.Props.C89_epoch_partial",
    "Einet.Props.C89_run_partial",
    "Einet.Props.C89_refuted_bottom_up",
    "Einet.Props.C89_refuted_mvn",
    "Einet.Props.C89_refuted_interval"
   ],
   "note": "holds for top-down structures, the four leaf types with a model, up to 8 bits and a nonzero log interval; false for --structure bottom-up, --dist multivariate_normal and --log-interval 0, which the command line offers; the optimiser is an arbitrary function, gradients are not modelled"
  },
  {
   "property": "C90",
   "status": "partial",
   "theorems": [
    "Einet.Props.C90_outputs",
    "Einet.Props.C90_steps",
    "Einet.Props.C90_refuted_law",
    "Einet.Props.C90_refuted"
   ],
   "note": "false: no loss depends on the weights of the classes, so every training run keeps the random weights of the initialisation (proved for all runs; witness with a single class in the data). Proved instead: the law of samples after training. Law of samples for MirrorCfg as in C13"
  },
  {
   "property": "C91",
   "status": "proved",
   "theorems": [
    "Einet.Props.C91_gradient",
    "Einet.Props.C91_stationary"
   ],
   "note": "real arithmetic; derivatives of the exact function, not of the floating point program; dropout off; the optimum is stated for one class"
  },
  {
   "property": "C92",
   "status": "proved",
   "theorems": [
    "Einet.Props.C92_forward",
    "Einet.Props.C92_loss"
   ],
   "note": "leaf classes Normal, RatNormal, Binomial, Bernoulli, Categorical; dropout off; derivatives of the exact function, not of the floating point program; MultivariateNormal is excluded since its entries are correlated"
  },
  {
   "property": "C93",
   "status": "proved",
   "theorems": [
    "Einet.Props.C93_gradient",
    "Einet.Props.C93_normal",
    "Einet.Props.C93_binomial",
    "Einet.Props.C93_bernoulli",
    "Einet.Props.C93_categorical",
    "Einet.Props.C93_stationary"
   ],
   "note": "leaf classes Normal, RatNormal (general form), Binomial, Bernoulli, Categorical; dropout off; derivatives of the exact function, not of the floating point program; the stationary points are stated for one class and Normal means"
  },
  {
   "property": "C94",
   "status": "proved",
   "theorems": [
    "Einet.Props.C94_gradient",
    "Einet.Props.C94_outside"
   ],
   "note": "Normal leaves; dropout off; the exact function, not the floating point program"
  },
  {
   "property": "C95",
   "status": "partial",
   "theorems": [
    "Einet.Props.C95_loss_partial",
    "Einet.Props.C95_default_partial",
    "Einet.Props.C95_generate",
    "Einet.Props.C95_generated_partial",
    "Einet.Props.C95_not_mnist",
    "Einet.Props.C95_not_classes",
    "Einet.Props.C95_not_normal"
   ],
   "note": "loss for exactly the sizes that fit, list of data sets for the default circuit; refuted: mnist with the default circuit, one value per class; with channels[0] = 1 every step raises; generated images are data again for binomial leaves only"
  },
  {
   "property": "C96",
   "status": "partial",
   "theorems": [
    "Einet.Props.C96_forward_partial",
    "Einet.Props.C96_not_single_channel",
    "Einet.Props.C96_not_fits",
    "Einet.Props.C96_sample",
    "Einet.Props.C96_mpe",
    "Einet.Props.C96_law_partial",
    "Einet.Props.C96_not_evidence"
   ],
   "note": "forward in input order and sampling without evidence for all sizes that fit; with evidence every call raises (refuted); law of one sampled image for exact Gumbel noise; with channels[0] = 1 and for sizes that do not fit every forward call raises"
  },
  {
   "property": "C97",
   "status": "proved",
   "theorems": [
    "Einet.Props.C97_forward",
    "Einet.Props.C97_loss"
   ],
   "note": "real arithmetic: rounding of floats is not modelled; images of positive size and positive channels (Usual)"
  },
  {
   "property": "C98",
   "status": "proved",
   "theorems": [
    "Einet.Props.C98_forward",
    "Einet.Props.C98_parameters",
    "Einet.Props.C98_conv"
   ],
   "note": "real arithmetic: rounding of floats is not modelled; mixtures of convolutional circuits: images of positive size that fit the circuit and channels[0] > 1, since otherwise forward raises (C96)"
  },
  {
   "property": "C99",
   "status": "proved",
   "theorems": [
    "Einet.Props.C99_builds",
    "Einet.Props.C99_forward",
    "Einet.Props.C99_sample",
    "Einet.Props.C99_law",
    "Einet.Props.C99_seed"
   ],
   "note": "real arithmetic: rounding of floats is not modelled, so in float32 huge shifts lose digits; for sampling temperature_sums is not 0"
  },
  {
   "property": "C100",
   "status": "proved",
   "theorems": [
    "Einet.Props.C100_forward",
    "Einet.Props.C100_sample",
    "Einet.Props.C100_law",
    "Einet.Props.C100_conv_forward",
    "Einet.Props.C100_conv_sample",
    "Einet.Props.C100_conv_law"
   ],
   "note": "real arithmetic: rounding of floats is not modelled; temperature_sums is not 0 for sampling"
  }
 ]
}