{"id": "C01", "title": "The density returned by the model integrates to one", "statement": "For every class head c, the integral over the whole data space of exp(model(x)[.,c]) is 1, provided every leaf distribution is itself normalised.", "quantifier": "every valid configuration that builds (top-down and bottom-up, linsum / linsum2 / einsum, any depth, any number of features, channels, leaves, sums, repetitions, classes), every finite parameter setting, every random structure (permutation / feature grouping)", "why_tests_cant": "A test sums the density of one small binary model; the claim quantifies over all sizes, all parameters and continuous data spaces.", "anchors": ["simple_einet/einet.py: Einet.forward, Einet._build_structure_top_down, Einet._build_structure_bottom_up", "simple_einet/layers/linsum.py, simple_einet/layers/einsum.py, simple_einet/layers/sum.py, simple_einet/layers/mixing.py, simple_einet/layers/factorized_leaf.py"]}
{"id": "C02", "title": "NaN entries are marginalised exactly", "statement": "exp(model(x))[n,c] for an input in which a set M of entries is NaN equals the integral of exp(model(x'))[n,c] over all values of the entries in M, the other entries being fixed. If every entry is NaN, the result is 0 (probability one).", "quantifier": "every valid configuration, every parameter setting, every set M of (channel, feature) entries, every value of the remaining entries", "why_tests_cant": "Exactness of marginal inference is an integral identity over uncountably many inputs and exponentially many masks.", "anchors": ["simple_einet/einet.py: Einet.forward", "simple_einet/layers/distributions/abstract_leaf.py: AbstractLeaf.forward, _marginalize_input"]}
{"id": "C03", "title": "marginalized_scopes equals NaN in those features", "statement": "For an input without NaN, model(x, marginalized_scopes=S) equals model(x') where x' is x with every channel of the features in S set to NaN; in particular the values of x at S are irrelevant.", "quantifier": "every valid configuration, every list of in-range feature indices S, every NaN-free input", "why_tests_cant": "Quantifies over all subsets of features, inputs and parameters.", "anchors": ["simple_einet/layers/distributions/abstract_leaf.py: _marginalize_input", "simple_einet/einet.py: Einet.forward"]}
{"id": "C04", "title": "NaN outside marginalized_scopes is not silently accepted as marginalised", "statement": "When marginalized_scopes is given, a NaN at a feature that is not listed makes the affected output row NaN (it is not treated as marginalised), and only that row.", "quantifier": "every valid configuration, every scope list, every NaN pattern", "why_tests_cant": "A pattern-by-pattern claim about the interplay of two marginalisation mechanisms.", "anchors": ["simple_einet/layers/distributions/abstract_leaf.py: AbstractLeaf.forward, _marginalize_input"]}
{"id": "C05", "title": "Rows of a batch do not influence one another", "statement": "In evaluation mode, row n of model(x) is a function of row n of x only: it equals the result of evaluating that row alone, whatever the batch size and the other rows.", "quantifier": "every valid configuration, every batch size, every content of the other rows", "why_tests_cant": "Independence has to hold for all batches; a test compares a few.", "anchors": ["simple_einet/einet.py: Einet.forward", "simple_einet/layers/linsum.py, simple_einet/layers/einsum.py, simple_einet/layers/sum.py, simple_einet/layers/mixing.py: forward"]}
{"id": "C06", "title": "A valid configuration yields a usable model", "statement": "Every configuration accepted by EinetConfig.assert_valid can be constructed, and forward then returns a tensor of shape [N, num_classes] for each input of shape [N, num_channels, num_features] without raising.", "quantifier": "every configuration accepted by assert_valid, every batch size", "why_tests_cant": "The shape chain over all depths, feature counts and structures cannot be enumerated.", "anchors": ["simple_einet/einet.py: EinetConfig.assert_valid, _build_structure_top_down, _build_structure_bottom_up, Einet.forward"]}
{"id": "C07", "title": "Input rank does not matter, wrong sizes are rejected", "statement": "An input [N,D] gives the same result as [N,1,D]; an input [N,C,H,W] gives the same result as its row-major flattening [N,C,H*W]; any input whose channel or feature count disagrees with the configuration raises an error.", "quantifier": "every input tensor of rank 2, 3 or 4", "why_tests_cant": "Quantifies over all shapes and contents.", "anchors": ["simple_einet/einet.py: Einet.forward lines 134-147"]}
{"id": "C08", "title": "posterior is the Bayes posterior under a uniform class prior", "statement": "exp(posterior(x)) is nonnegative, sums to one over the classes, equals p(x|y)/sum_y' p(x|y'), and ranks classes exactly as the class-conditional likelihoods do.", "quantifier": "every number of classes >= 2 and every finite matrix of class-conditional log-likelihoods", "why_tests_cant": "Real-number identity over all inputs.", "anchors": ["simple_einet/einet.py: posterior, Einet.posterior"]}
{"id": "C09", "title": "Leaf cache is transparent while keys are used consistently", "statement": "Over any history of forward calls with and without cache_index and of reset_cache calls, a call returns the same value as the uncached model as long as, since the last reset, each key has been used with one input only; after reset_cache a key never returns an old value.", "quantifier": "every finite history of calls, every key, every input", "why_tests_cant": "A claim about all call histories.", "anchors": ["simple_einet/einet.py: Einet.forward lines 149-157, Einet.reset_cache"]}
{"id": "C10", "title": "Sum weights are normalised", "statement": "The weights of each sum node, as used in forward and in sampling, are positive and sum to one over the node's children, whatever the raw parameters and whatever the positive temperature; dividing by the temperature keeps the ranking of the children.", "quantifier": "every finite logit vector, every temperature > 0", "why_tests_cant": "Quantifies over all real parameter vectors.", "anchors": ["simple_einet/abstract_layers.py: logits_to_log_weights", "simple_einet/layers/einsum.py: EinsumLayer.forward lines 135-138"]}
{"id": "C11", "title": "The numerically stabilised einsum layer computes the plain sum of products", "statement": "EinsumLayer.forward returns log sum_{i,j} w_ij * exp(left_i + right_j) for every node, i.e. subtracting and re-adding the maxima does not change the result and never produces NaN.", "quantifier": "every input, including inputs containing -inf", "why_tests_cant": "Identity over all real inputs; the NaN case needs every child of a region to be -inf.", "anchors": ["simple_einet/layers/einsum.py: EinsumLayer.forward"]}
{"id": "C12", "title": "Feature groups of a factorized leaf partition the features", "statement": "In each repetition every input feature belongs to exactly one group, every group is non-empty, and group sizes differ by at most one.", "quantifier": "every number of features F and groups O with 1 <= O <= F, every shuffle of the group sizes, every permutation drawn", "why_tests_cant": "Quantifies over all sizes and all permutations.", "anchors": ["simple_einet/layers/factorized_leaf.py: FactorizedLeaf.__init__, FactorizedLeafSimple.__init__/forward"]}
{"id": "C13", "title": "Unconditional sampling follows the modelled distribution", "statement": "The law of the rows returned by sample(num_samples=N) (single-class model, temperature 1) is N independent draws from the density exp(model(x)).", "quantifier": "every valid configuration, every parameter setting, every N", "why_tests_cant": "Equality of two distributions for all models; statistical tests only detect gross deviations on particular models.", "anchors": ["simple_einet/einet.py: Einet.sample", "simple_einet/layers/factorized_leaf.py: _index_leaf_samples", "simple_einet/layers/linsum.py, simple_einet/layers/einsum.py, simple_einet/layers/sum.py, simple_einet/layers/mixing.py: sample methods"]}
{"id": "C14", "title": "Conditional sampling follows the conditional distribution", "statement": "For evidence e, each returned row follows p(x_missing | x_observed) = exp(model(x)) / exp(model(e)) of the model, rows being independent (single-class model, temperature 1).", "quantifier": "every valid configuration, parameters, evidence with any pattern of NaN, any batch size", "why_tests_cant": "Equality of conditional laws for all evidence patterns.", "anchors": ["simple_einet/einet.py: Einet.sample", "simple_einet/sampling_utils.py: sampling_context", "_condition_weights_on_evidence in all layers"]}
{"id": "C15", "title": "Observed evidence is returned unchanged and every hole is filled", "statement": "sample/mpe with evidence returns a tensor of the evidence's shape in which every non-NaN entry is unchanged and every NaN entry is replaced by a sampled value; with marginalized_scopes exactly the listed features are replaced. The caller's tensor is not modified.", "quantifier": "every evidence tensor, every random outcome, sampling and MPE", "why_tests_cant": "All masks, all random outcomes.", "anchors": ["simple_einet/einet.py: Einet.sample lines 683-695"]}
{"id": "C16", "title": "Sampling with class_index samples from the requested classes", "statement": "sample(num_samples=N, class_index=c) returns N rows from p(x | y=c); sample(class_index=[c_1..c_k]) returns k rows, the i-th from p(x | y=c_i).", "quantifier": "every class list, every N, differentiable or not", "why_tests_cant": "All class lists and their lengths.", "anchors": ["simple_einet/einet.py: Einet.sample lines 615-644"]}
{"id": "C17", "title": "Without class_index, classes are drawn from the uniform prior", "statement": "For num_classes > 1 and no class_index, the class of each sample is uniform (the prior used by posterior), and with evidence it follows the class posterior given the evidence.", "quantifier": "every model with num_classes > 1, every evidence", "why_tests_cant": "A distributional claim over all models.", "anchors": ["simple_einet/einet.py: _class_sampling_root (lines 327-340, 460-473), Einet.sample lines 642-644"]}
{"id": "C18", "title": "Sampling leaves the model state as it was", "statement": "After sample or mpe ends, normally or with an exception, all input caches are disabled and empty, so that later sample calls without evidence are unconditional and forward results are unaffected.", "quantifier": "every history of forward, sample and mpe calls, every point at which a call raises", "why_tests_cant": "All histories and all crash points.", "anchors": ["simple_einet/sampling_utils.py: sampling_context", "simple_einet/abstract_layers.py: _enable_input_cache, _disable_input_cache, sample"]}
{"id": "C19", "title": "A seed makes sampling reproducible and leaves the global generator untouched", "statement": "Two calls of sample with equal arguments and the same seed return the same result whatever happened in between, and the state of the global random generator after the call is the state before it, also if the call raises.", "quantifier": "every generator, every seed, every history, every exception point", "why_tests_cant": "All generator states and crash points.", "anchors": ["simple_einet/sampling_utils.py: sampling_context lines 42-46, 67-70"]}
{"id": "C20", "title": "MPE is deterministic and independent of random state", "statement": "mpe returns the same result whatever the state of the random generator, and each decision on the sampled path selects a child of maximal (posterior) weight.", "quantifier": "every model, evidence and generator state", "why_tests_cant": "All random states.", "anchors": ["simple_einet/einet.py: Einet.mpe", "_sample_from_weights in all layers"]}
{"id": "C21", "title": "MPE with evidence returns a completion of maximal probability", "statement": "The row returned by mpe has a density at least as large as that of any other completion of the evidence.", "quantifier": "every model and evidence", "why_tests_cant": "Optimality over all completions.", "anchors": ["simple_einet/einet.py: Einet.mpe, Einet.sample"]}
{"id": "C22", "title": "Differentiable and ordinary MPE agree", "statement": "mpe(is_differentiable=True) returns the same values as mpe(is_differentiable=False).", "quantifier": "every single-class model and evidence with finite log-likelihoods", "why_tests_cant": "All models and evidence.", "anchors": ["simple_einet/sampling_utils.py: index_one_hot, SIMPLE, sample_categorical_differentiably", "differentiable branches of all layers"]}
{"id": "C23", "title": "Indexing with a one-hot vector equals ordinary indexing", "statement": "index_one_hot(t, onehot(i), dim) equals t indexed at i along dim, and SIMPLE returns exactly a one-hot vector selecting a maximiser of the (perturbed) weights.", "quantifier": "every tensor (finite or not), index and noise", "why_tests_cant": "All tensors including infinities.", "anchors": ["simple_einet/sampling_utils.py: index_one_hot, SIMPLE"]}
{"id": "C24", "title": "Sampling never selects a child that does not exist", "statement": "For every random outcome all index tensors passed between layers stay within the number of children, their shapes match the layer below, and sampling completes without raising; the result has shape [N, num_channels, num_features].", "quantifier": "every valid configuration with finite parameters, every N, every random outcome", "why_tests_cant": "All random outcomes and sizes.", "anchors": ["simple_einet/abstract_layers.py: AbstractSumLayer.sample", "simple_einet/einet.py: Einet.sample"]}
{"id": "C25", "title": "Dropout never removes all children of a sum node", "statement": "In training mode with dropout in [0,1), after the resampling loop every sum node keeps at least one child, so that finite inputs give finite outputs.", "quantifier": "every mask sequence drawn, every layer type", "why_tests_cant": "All mask outcomes.", "anchors": ["simple_einet/layers/sum.py, simple_einet/layers/linsum.py, simple_einet/layers/mixing.py, simple_einet/layers/einsum.py: dropout blocks"]}
{"id": "C26", "title": "Validation accepts exactly the values within bounds", "statement": "check_valid(v, type, lo, hi) returns v if v has the type and lo <= v < hi (missing bounds unconstrained) and raises otherwise.", "quantifier": "every value, type and pair of bounds", "why_tests_cant": "All values and bounds.", "anchors": ["simple_einet/type_checks.py: check_valid"]}
{"id": "C27", "title": "EinetConfig.assert_valid accepts exactly the meaningful configurations", "statement": "assert_valid succeeds iff depth >= 0, num_features >= 2, all counts >= 1, dropout in [0,1), known layer type and structure, bottom-up only with linsum, and 2**depth <= num_features // cardinality.", "quantifier": "every configuration record", "why_tests_cant": "All configurations.", "anchors": ["simple_einet/einet.py: EinetConfig.assert_valid"]}
{"id": "C28", "title": "Mixture forward returns results in input order", "statement": "For a non-empty batch, row i of Mixture.forward(x) is the result of the component selected for row i by the clustering, evaluated on row i.", "quantifier": "every batch, every assignment of rows to clusters", "why_tests_cant": "All assignments.", "anchors": ["simple_einet/mixture.py: Mixture.forward, _separate_data_by_cluster"]}
{"id": "C29", "title": "Mixture forward marginalises", "statement": "Mixture.forward(x, marginalized_scope=S) does not depend on the values of x in S.", "quantifier": "every input and scope list", "why_tests_cant": "All inputs.", "anchors": ["simple_einet/mixture.py: Mixture.forward"]}
{"id": "C30", "title": "Mixture sampling returns the requested number of rows, aligned with the evidence", "statement": "Mixture.sample(num_samples=n) returns n rows, each produced by the component drawn for it, with multiplicities as drawn; with evidence, row i completes evidence row i.", "quantifier": "every n, every component draw, every cluster assignment", "why_tests_cant": "All draws and assignments.", "anchors": ["simple_einet/mixture.py: Mixture.sample"]}
{"id": "C31", "title": "The mode used at the leaves maximises the leaf's probability", "statement": "The value chosen for a leaf by MPE has probability (density) at least that of every other value, for Normal, Bernoulli, Binomial and Categorical leaves.", "quantifier": "every parameter value and every competing value", "why_tests_cant": "Optimality over all real parameters and all values.", "anchors": ["simple_einet/layers/distributions/abstract_leaf.py: dist_mode"]}
{"id": "C32", "title": "MultiDistributionLayer keeps features in order", "statement": "For scopes that form a permutation of the features, forward, sample and get_params report feature f's values at position f.", "quantifier": "every list of scopes partitioning the features", "why_tests_cant": "All partitions and orders.", "anchors": ["simple_einet/layers/distributions/multidistribution.py: forward, sample, get_params"]}
{"id": "C33", "title": "Permutation and inverse permutation cancel", "statement": "invert_permutation(p)[p[i]] = i and p[invert_permutation(p)[i]] = i; the bottom-up model samples feature f from the region in which forward evaluates it.", "quantifier": "every permutation of every length", "why_tests_cant": "All permutations.", "anchors": ["simple_einet/utils.py: invert_permutation", "simple_einet/einet.py: lines 177-180, 662-674"]}
{"id": "C34", "title": "Every decision of the forward grouping is mirrored by the sampler", "statement": "The leaf sampler uses for feature f the component index chosen for the region in which forward places feature f.", "quantifier": "every number of features, groups and repetitions, every permutation", "why_tests_cant": "All sizes and permutations.", "anchors": ["simple_einet/layers/factorized_leaf.py: FactorizedLeaf, FactorizedLeafSimple (forward vs _index_leaf_samples)"]}
{"id": "C35", "title": "Quantised pixel values are in the support of the chosen leaf", "statement": "Every value produced by reduce_bits(x, n_bits) for x in [0,1] is an integer in [0, 2^n_bits - 1] and lies in the support of the leaf built by get_distribution for the same n_bits.", "quantifier": "every n_bits in 1..8 and every x in [0,1]", "why_tests_cant": "All real inputs.", "anchors": ["simple_einet/utils.py: reduce_bits", "simple_einet/dist.py: get_distribution"]}
{"id": "C36", "title": "Piecewise linear leaves are proper densities", "statement": "The interpolated function is continuous, nonnegative, takes the given values at the knots, is zero outside the outermost knots and integrates to one.", "quantifier": "every strictly increasing knot list and every nonnegative value list with positive area, zero at both ends", "why_tests_cant": "Integral identity over all knot lists.", "anchors": ["simple_einet/layers/distributions/piecewise_linear.py: PiecewiseLinear.initialize, interp"]}
{"id": "C37", "title": "Histogram edges cover the data with at least one bin", "statement": "The computed edges start at or below the smallest and end at or above the largest data point, are strictly increasing and equally spaced, and there is at least one bin.", "quantifier": "every data vector", "why_tests_cant": "All data vectors.", "anchors": ["simple_einet/histogram.py: _get_bin_edges_torch, _get_outer_edges_torch"]}
{"id": "C38", "title": "Returned leaf parameters belong to the leaf that would be sampled", "statement": "sample(return_leaf_params=True) returns, for each row, channel and feature, all parameters of the leaf component from which the same path would sample.", "quantifier": "every path of sampled indices, both structures", "why_tests_cant": "All paths.", "anchors": ["simple_einet/layers/factorized_leaf.py: _index_leaf_params", "simple_einet/layers/distributions/abstract_leaf.py: dist_sample"]}
{"id": "C39", "title": "Projected RatNormal parameters respect their bounds", "statement": "The standard deviation lies in (min_sigma, max_sigma) and the mean in (min_mean, max_mean) whenever bounds are given; all accepted bounds give a positive standard deviation.", "quantifier": "every raw parameter and every accepted pair of bounds", "why_tests_cant": "All reals.", "anchors": ["simple_einet/layers/distributions/normal.py: RatNormal"]}
{"id": "C40", "title": "Convolutional circuits are normalised and sample consistently", "statement": "ConvPc(x) is a normalised density for every configuration whose image size fits the kernel sizes, and sampling routes each pixel to the component of the patch in which forward evaluates it.", "quantifier": "every image size, channel list and parameter setting", "why_tests_cant": "All sizes and parameters.", "anchors": ["simple_einet/conv_pc.py: SumLayer, ProdConv, SumProdLayer, ConvPc"]}
{"id": "C41", "title": "Leaf temperature and path temperature only rescale", "statement": "temperature_sums = 1 and temperature_leaves = 1 leave all distributions unchanged; scaling all logits and the temperature by the same factor leaves the sampling weights unchanged.", "quantifier": "every logit vector and positive temperature", "why_tests_cant": "All reals.", "anchors": ["simple_einet/abstract_layers.py: logits_to_log_weights", "simple_einet/layers/distributions/abstract_leaf.py: dist_sample lines 123-128"]}
{"id": "C42", "title": "The training sampler visits every index equally often", "statement": "In the infinite index stream every consecutive block of dataset length is a permutation of all indices.", "quantifier": "every dataset length, every block", "why_tests_cant": "Infinite stream.", "anchors": ["simple_einet/data.py: TrainingSampler"]}
{"id": "C43", "title": "Preprocessing for Gaussian leaves is invertible up to the quantisation level", "statement": "Preprocessing an image with values in [0,1] for continuous leaves returns values in [-1/2,1/2) of the same shape, and for at most seven bits the quantisation level of each pixel can be read back from the result.", "quantifier": "every image, every number of bits 1..8, every dequantisation noise in [0,1)", "why_tests_cant": "All noise values and all images; boundary values are rare.", "anchors": ["simple_einet/utils.py: preprocess, dequantize, reduce_bits"]}
{"id": "C44", "title": "Piecewise linear leaves over a discrete domain have total mass one", "statement": "After initialisation on a discrete domain, the probabilities of the values of the domain sum to one.", "quantifier": "every increasing list of domain values, all data, every smoothing constant", "why_tests_cant": "Sum identity over all data sets and domains.", "anchors": ["simple_einet/layers/distributions/piecewise_linear.py: PiecewiseLinear.initialize, PiecewiseLinearDist.log_prob"]}
{"id": "C45", "title": "Draws from a piecewise linear leaf follow its density", "statement": "The probability that a draw lies in an interval (or equals a domain value) is the integral (or value) of the stored density.", "quantifier": "every stored function, every interval or domain value", "why_tests_cant": "Statement about laws; statistical tests cannot separate close laws.", "anchors": ["simple_einet/layers/distributions/piecewise_linear.py: PiecewiseLinearDist.sample, PiecewiseLinearDist._compute_cdf"]}
{"id": "C46", "title": "Mixture weights after initialisation are cluster frequencies", "statement": "After Mixture.initialize there is one weight per component; the weight of component k is the fraction of training rows that the clustering assigned to cluster k; the weights sum to one.", "quantifier": "every non-empty training set, every outcome of the clustering, every number of components", "why_tests_cant": "A test fixes one clustering; clusterings with empty clusters are rare and depend on random initialisation.", "anchors": ["simple_einet/mixture.py: Mixture.initialize"]}
{"id": "C47", "title": "The likelihood returned by a mixture is a normalised density", "statement": "exp(Mixture.forward(x)) integrates to one over all inputs x, like the density of each component.", "quantifier": "every mixture, every clustering", "why_tests_cant": "Total mass over an unbounded or continuous input space is not reachable by sampling inputs; deviations can be small.", "anchors": ["simple_einet/mixture.py: Mixture.forward, Mixture._predict_cluster"]}
{"id": "C48", "title": "Automatic histograms use the number of bins of numpy's rule auto", "statement": "The number of bins is the smallest for which bins are at most as wide as the smaller of the Freedman-Diaconis and Sturges widths (Sturges alone if the former is zero) of the entries inside the range; it is one if there are none or all are equal. Entries outside the range, NaN and infinities have no influence.", "quantifier": "every data vector, every range", "why_tests_cant": "All data vectors; boundary cases of rounding and degenerate data.", "anchors": ["simple_einet/histogram.py: _get_bin_edges_torch, _hist_bin_auto_torch, _hist_bin_fd_torch, _hist_bin_sturges_torch"]}
{"id": "C49", "title": "Differentiable sampling has the law of ordinary sampling", "statement": "Einet.sample with is_differentiable=True and is_mpe=False returns rows whose distribution is that of ordinary sampling with the same arguments, up to the floating point guard eps in the Gumbel noise; the call returns with probability one a tensor of the documented shape.", "quantifier": "every configuration, parameters, evidence, scopes, non-zero temperature, number of samples", "why_tests_cant": "Equality of two distributions over tensors is not decidable from finitely many samples; the effect of the guard is below sampling error.", "anchors": ["simple_einet/sampling_utils.py: sample_gumbel, SIMPLE, sample_categorical_differentiably", "simple_einet/einet.py: Einet.sample"]}
{"id": "C50", "title": "Most probable explanation of a mixture", "statement": "Mixture.mpe is deterministic. With evidence, row i of the result is the most probable explanation given by the component of the cluster of row i, and observed entries are returned unchanged. Without evidence it is the explanation of the component with the largest weight.", "quantifier": "every mixture, clustering, evidence and set of marginalised scopes", "why_tests_cant": "Tests sample a few mixtures; determinism and agreement per row must hold for every clustering and evidence.", "anchors": ["simple_einet/mixture.py: Mixture.mpe, Mixture.sample"]}
{"id": "C51", "title": "Calls of a convolutional circuit are independent", "statement": "The result (or the distribution of the result) of ConvPc.forward and ConvPc.sample depends only on the arguments of the call and the current parameters, not on the calls made before, including calls that raised and calls with evidence.", "quantifier": "every ConvPc model, every finite sequence of earlier calls of forward, sample and parameter updates, and every last call", "why_tests_cant": "The claim is about all call histories; a test runs a few and compares random samples only statistically.", "anchors": ["simple_einet/conv_pc.py: sampling_context, SumLayer._condition_weights_on_evidence, SumLayer.forward, ConvPc.sample, ConvPc.forward"]}
{"id": "C52", "title": "Convolutional sums sample with the weights of forward", "statement": "SumConv.forward mixes, at every pixel, the input channels with the softmax of the kernel over the input channels, and SumConv.sample chooses the input channel of a pixel with exactly these probabilities (after dividing the logits by temperature_sums). Images that the kernel does not tile are rejected.", "quantifier": "every kernel size, numbers of channels, logits, image size, batch and requested output channels", "why_tests_cant": "Shapes agree even if the softmax runs over the wrong dimension, and sampled frequencies only give statistical evidence for one set of parameters.", "anchors": ["simple_einet/conv_pc.py: SumConv.forward, SumConv.sample, SumConv._select_weights"]}
{"id": "C53", "title": "Multivariate normal leaves define a density", "statement": "With leaf_type=MultivariateNormal (cardinality K), exp(model(x)[:, k]) is a probability density over all features and channels for every class k, and a finite batch gives one finite log density per row and class.", "quantifier": "every accepted EinetConfig with a cardinality, all parameters (means, log diagonals and off-diagonals of the Cholesky factors, sum weights), all batches", "why_tests_cant": "An integral over R^(C*F) for all parameters is not a finite computation; unit tests only check shapes of a few configurations.", "anchors": ["simple_einet/layers/distributions/multivariate_normal.py: MultivariateNormal.__init__, scale_tril, forward, _get_base_distribution", "simple_einet/layers/distributions/abstract_leaf.py: AbstractLeaf.__init__, forward", "simple_einet/einet.py: Einet._build_structure_top_down, _build_input_distribution_top_down"]}
{"id": "C54", "title": "Samples of multivariate normal leaves follow the density", "statement": "The rows returned by Einet.sample with MultivariateNormal leaves have the shape [N, num_channels, num_features], are independent, and each has the density that forward assigns to its class, including the correlations inside a block of K features.", "quantifier": "every accepted configuration with a cardinality, all parameters, all numbers of rows and class arguments, all measurable statistics of the batch", "why_tests_cant": "Equality of a distribution with a density is a statement about infinitely many events; lost correlations are invisible in shapes and marginals.", "anchors": ["simple_einet/layers/distributions/multivariate_normal.py: MultivariateNormal.sample", "simple_einet/layers/factorized_leaf.py: FactorizedLeaf.sample, FactorizedLeafSimple.sample", "simple_einet/einet.py: Einet.sample"]}
{"id": "C55", "title": "Marginalisation with multivariate normal leaves", "statement": "With MultivariateNormal leaves, model(x, marginalized_scopes=s) is the log of the density integrated over exactly the features in s, for s given as a list or a tensor, and NaN entries are integrated out likewise.", "quantifier": "every accepted configuration with a cardinality, all parameters, every scope argument, all batches", "why_tests_cant": "The right-hand side is an integral for arbitrary parameters; a test compares shapes or a few numbers.", "anchors": ["simple_einet/layers/distributions/multivariate_normal.py: MultivariateNormal.forward", "simple_einet/layers/distributions/abstract_leaf.py: AbstractLeaf._marginalize_input, forward"]}
{"id": "C56", "title": "Einets with different leaf distributions per feature define a mixed density", "statement": "With leaf_type=MultiDistributionLayer and scopes that assign every feature exactly one distribution, exp(model(x)[:, k]) is a probability density with respect to Lebesgue measure in the continuous and counting measure in the discrete features, and model(x, marginalized_scopes) is the log of its integral over exactly the entries that are NaN or listed.", "quantifier": "every accepted EinetConfig, all sum weights and leaf parameters, all assignments of distributions to features in any order, all batches with any pattern of NaN, all scope arguments", "why_tests_cant": "A mixed sum and integral over all features for all parameters is not a finite computation; a wrong order of the features after the parts are joined still gives finite numbers of the right shape.", "anchors": ["simple_einet/layers/distributions/multidistribution.py: MultiDistributionLayer.__init__, forward", "simple_einet/einet.py: Einet._build_input_distribution, forward", "simple_einet/layers/factorized_leaf.py: FactorizedLeaf.forward"]}
{"id": "C57", "title": "Samples of einets with different leaf distributions per feature", "statement": "sample and mpe of an Einet with MultiDistributionLayer leaves return a finite number for every missing entry and keep all observed ones; without evidence the rows are independent draws from the density of forward (for the requested class), with evidence from the conditional density given the observed entries of the row.", "quantifier": "every accepted EinetConfig, all weights and parameters, all assignments of distributions to features, all numbers of rows, all evidence with any pattern of holes, all measurable statistics of the batch", "why_tests_cant": "Equality of a distribution with a density concerns infinitely many events; a sampler that puts values of one part at positions of another passes shape tests.", "anchors": ["simple_einet/layers/distributions/multidistribution.py: MultiDistributionLayer.sample", "simple_einet/einet.py: Einet.sample, mpe", "simple_einet/layers/factorized_leaf.py: FactorizedLeaf.sample"]}
{"id": "C58", "title": "The reported test loss is the average negative log-likelihood of the data", "statement": "main.py's log_likelihoods turns the outputs of a model with K classes into log p(X) for p the uniform mixture of the class densities (a probability density); test() reports the average of -log p(X) over all examples of the loader and the percentage of examples whose label is the most likely class, whatever the batch size and the order of the examples.", "quantifier": "every accepted EinetConfig, all parameters, all loaders: any number of batches of any sizes, any labels, rows with any pattern of missing values", "why_tests_cant": "Independence of the split into batches is a statement about all loaders; a test uses one batch size, usually one that divides the data set.", "anchors": ["main.py: log_likelihoods, train, test"]}
{"id": "C59", "title": "The classification loss is the cross entropy of the posterior over classes", "statement": "For a classifier, the loss that is minimised is the average of -log p(label | row) for the posterior under equal class priors, it is never negative, labels outside of the classes raise, and the reported accuracy is the fraction of rows whose label is the most likely class.", "quantifier": "every accepted EinetConfig with at least two classes, all parameters, all batches and labels", "why_tests_cant": "A loss with another normalisation decreases during training as well and gives plausible numbers.", "anchors": ["models_pl.py: SpnDiscriminative._get_cross_entropy_and_accuracy", "main.py: train", "simple_einet/einet.py: Einet.posterior"]}
{"id": "C60", "title": "The loss of the generative model is the negative log-likelihood of the data", "statement": "negative_log_likelihood(data) is the average of -log p(X) over the rows (the sum with reduction='sum'; other names raise), for p the distribution of the model with equally likely classes.", "quantifier": "every accepted EinetConfig, all parameters, any number of classes, all batches", "why_tests_cant": "The average of the log-likelihoods of the classes has the same shape and sign and agrees for one class.", "anchors": ["models_pl.py: SpnGenerative.negative_log_likelihood"]}
{"id": "C61", "title": "Bits per dimension is a code length", "statement": "calc_bpd(model(x), image_shape, has_gauss_dist, n_bins) is the average over the images of -log2 q(image) per dimension, where q is a probability distribution over images: for continuous leaves the density of the pixel values before scaling to [-1/2, 1/2), whose integrals over the bins of quantised pixels add up to one; for discrete leaves the probability of the image under the model.", "quantifier": "every accepted EinetConfig with one class, all parameters, all numbers of bins, all batches of images", "why_tests_cant": "A wrong constant per dimension shifts all results alike; only the integral over all images shows that the numbers are no code lengths.", "anchors": ["simple_einet/utils.py: calc_bpd, preprocess"]}
{"id": "C62", "title": "Einets with conditional binomial leaves define a distribution over rows of counts", "statement": "For an Einet with leaf_type=ConditionalBinomial, forward of a row is the log-likelihood of the einet with ordinary binomial leaves whose logits are the base logits plus the output of cond_fn on the conditioning features of that row (first half of the features) and the unconditioned logits (second half); its exponential adds up to one over all rows of counts; marginalized_scopes and NaN sum features out; rows do not influence each other.", "quantifier": "every accepted EinetConfig, all parameters, every module cond_fn that works row by row, every list of conditioning features that can be reshaped, all batches", "why_tests_cant": "Normalisation over all rows of counts (256^F of them) and independence of other rows are statements about all inputs; shape tests pass for a model whose values do not add up to one.", "anchors": ["simple_einet/layers/distributions/binomial.py: ConditionalBinomial", "simple_einet/einet.py: Einet.forward"]}
{"id": "C63", "title": "Sampling with conditional binomial leaves draws the listed features given the others", "statement": "For an Einet with leaf_type=ConditionalBinomial, sample(evidence=x, marginalized_scopes=s) returns a batch of the shape of x in which the features not in s are unchanged and the features in s of every row follow the conditional law, under the density computed by forward, given the other features of that row, independently of other rows and of the old values of the features in s; with is_mpe the listed features are most likely values of the conditioned leaf distributions; sample without evidence draws from the model.", "quantifier": "every accepted EinetConfig, all parameters, every row-wise cond_fn, all batches of counts, all scopes", "why_tests_cant": "The law of the samples, jointly over the rows and all listed features, is a statement about all outcomes; tests see finitely many draws and shapes.", "anchors": ["simple_einet/layers/distributions/binomial.py: ConditionalBinomial.sample", "simple_einet/einet.py: Einet.sample", "simple_einet/layers/factorized_leaf.py: FactorizedLeaf.sample"]}
{"id": "C64", "title": "Calls treat tensors as values", "statement": "Calling the model, sample or mpe never changes a tensor that the caller holds, not even when the call raises; the tensor returned shares no memory with any tensor of the caller nor with any that the model keeps in its leaf cache, so a caller may later assign in place into inputs and results without affecting earlier results, cached evaluations or later calls; every history of calls returns what it would return if tensors were immutable values.", "quantifier": "every accepted EinetConfig, all parameters, every history of calls, views and in-place assignments by the caller, with any cache indices, seeds and evidence", "why_tests_cant": "Aliasing bugs show only for particular interleavings of calls and in-place assignments; the claim ranges over all histories.", "anchors": ["simple_einet/einet.py: Einet.forward, Einet.sample, Einet.reset_cache", "simple_einet/layers/distributions/abstract_leaf.py: AbstractLeaf.forward, AbstractLeaf._marginalize_input", "simple_einet/sampling_utils.py: sampling_context"]}
{"id": "C65", "title": "Preprocessing a batch does not change the batch of the caller", "statement": "preprocess of the training module returns the data in the form the model expects and leaves the tensor it was given as it was, so that preprocessing the same batch again gives the same result.", "quantifier": "every batch, every leaf distribution", "why_tests_cant": "In-place changes only show for callers that use the batch again; the claim is about all batches and all later uses.", "anchors": ["models_pl.py: LitModel.preprocess"]}
{"id": "C66", "title": "What a model samples it also accepts", "statement": "The forward pass accepts a batch exactly if every entry is missing or in the support of the leaf class, and raises ValueError otherwise. Everything the model returns from sampling, MPE or the completion of evidence is of the accepted kind: complete rows in the support, of the shape of the data, to which the same model gives finite log-likelihoods for every class.", "quantifier": "every model, leaf class, evidence, class index, temperature and every outcome of the random choices up to probability zero", "why_tests_cant": "A test draws a few samples with one leaf class; the claim is about all outcomes of the random choices, all leaf classes and all completions.", "anchors": ["simple_einet/einet.py: Einet.forward, Einet.sample, Einet.mpe", "simple_einet/layers/distributions/abstract_leaf.py: AbstractLeaf.forward, dist_sample, dist_mode", "simple_einet/layers/distributions/binomial.py: Binomial, DifferentiableBinomial", "simple_einet/layers/distributions/multidistribution.py: MultiDistributionLayer", "simple_einet/conv_pc.py: ConvPc.sample"]}
{"id": "C67", "title": "Images pass through the training module in both directions", "statement": "The Einet that make_einet builds for a data set accepts every batch of images of that data set: after preprocess, the loss of a batch of images with eight bits per pixel is a finite number. Conversely generate_samples returns images of the shape and on the scale of the data, which preprocess turns into data with a finite loss.", "quantifier": "every configuration, data set, leaf distribution, number of bits, batch of images, number of samples, both modes of sampling, every outcome of the random choices up to probability zero", "why_tests_cant": "A test runs one data set with one distribution; the claim is about all configurations, all images and all outcomes of sampling.", "anchors": ["models_pl.py: make_einet, LitModel.preprocess, SpnGenerative.generate_samples, SpnGenerative.negative_log_likelihood", "simple_einet/data.py: Shape, get_data_shape", "simple_einet/dist.py: get_distribution"]}
{"id": "C68", "title": "Gaussian leaves initialised from data match the statistics of the data", "statement": "After init_einet_stats with a data loader, every Gaussian leaf component of a channel and feature is centred, up to independent noise, at the average of that entry over all rows of the data, its variance is at least the variance of that entry over the data plus 0.001, all parameters are finite, and the call succeeds for every data set. The order of the rows does not matter.", "quantifier": "every data set of finite numbers, batch size, order of the rows, shape of the rows, sizes of the leaves, number of Einets in a mixture, every outcome of the noise", "why_tests_cant": "A test looks at one data set and one draw of the noise; the claim is about the law of the parameters for all data sets and all ways to cut them into batches.", "anchors": ["simple_einet/sampling_utils.py: init_einet_stats", "simple_einet/data.py: _make_loader", "simple_einet/layers/distributions/normal.py: Normal"]}
{"id": "C69", "title": "An Einet with piecewise linear leaves is a density model once initialised", "statement": "An Einet whose leaf type is PiecewiseLinear raises when evaluated or sampled before model.leaf.base_leaf.initialize. Initialising it from data, domains and clusters of the rows gives every leaf component the piecewise linear density fitted to its cluster. From then on the forward pass accepts every row with finite or NaN entries and reports the logarithm of a probability density; a NaN entry means that the entry is integrated out (continuous features) or summed out (discrete features); a value outside the range of the data has likelihood zero; and sample draws rows from that density.", "quantifier": "for all configurations, weights, data sets, domains, smoothing constants, assignments of rows to clusters, rows with NaN at any places, classes, and random draws", "why_tests_cant": "the total mass is an integral over an unbounded domain and a sum over all rows of a product domain; a test evaluates finitely many rows, normally inside the range of the data, where the reported values do agree with the density", "anchors": ["simple_einet/layers/distributions/piecewise_linear.py: PiecewiseLinear.initialize", "simple_einet/layers/distributions/piecewise_linear.py: PiecewiseLinear._get_base_distribution", "simple_einet/layers/distributions/piecewise_linear.py: PiecewiseLinearDist.log_prob", "simple_einet/layers/distributions/piecewise_linear.py: PiecewiseLinearDist.sample", "simple_einet/einet.py: Einet.forward", "simple_einet/einet.py: Einet.sample"]}
{"id": "C70", "title": "Training, validation and test data are disjoint parts of the data set", "statement": "get_datasets returns three parts of the named data set such that every example of the source occurs in exactly one part, features stay with their label, about nine tenths of the training source are for training, the same preprocessing is applied to all parts, the training part does not depend on the contents of held-out rows, and repeated calls return the same parts. Every name with a known shape has data and a number of classes.", "quantifier": "all data set names, all sizes and contents of the sources, all permutations of the generator and all stratified splits, all states of the global random generator", "why_tests_cant": "the claim is about data sets of every size and content; the tests would have to download the data, and see one size and one permutation each", "anchors": ["simple_einet/data.py: get_datasets", "simple_einet/data.py: get_data_shape", "simple_einet/data.py: get_data_num_classes", "simple_einet/data.py: generate_data"]}
{"id": "C71", "title": "Loaders visit every example once per pass", "statement": "Every pass over the loaders of build_dataloader yields each example of the data set exactly once, in full batches except the last; the loaders for validation and test keep the order of the data set; len(loader) is the number of batches; with loop=True the batches are full, never end, and use all examples equally often; the seed determines the order of the training examples.", "quantifier": "all data sets, batch sizes, seeds and states of the random generators, all passes and all prefixes of the endless stream", "why_tests_cant": "all sizes and batch sizes, an endless stream", "anchors": ["simple_einet/data.py: build_dataloader", "simple_einet/data.py: _make_loader", "simple_einet/data.py: TrainingSampler"]}
{"id": "C72", "title": "Scaling a shape up and down again gives the shape back", "statement": "Shape.upscale followed by Shape.downscale with the same factor of at least one returns the original shape; the number of channels is never changed.", "quantifier": "all shapes, all factors at least one, also fractional ones", "why_tests_cant": "rounding to even at ties and fractional factors: infinitely many cases", "anchors": ["simple_einet/data.py: Shape.upscale", "simple_einet/data.py: Shape.downscale"]}
{"id": "C73", "title": "The evaluation reports averages over the parts of the data set", "statement": "The evaluation at the end of main_pl.py reports, for each part of the data set, the average over its examples of the negative log-likelihood, or for a classifier the fraction of correctly classified examples. Batch size, seed, the size of the last batch and the order of the training examples have no influence. An example with a pixel outside of the support of the leaves stops the evaluation.", "quantifier": "all data sets with a known shape, all contents of the sources, batch sizes, seeds, leaf distributions and parameters", "why_tests_cant": "an average of batch averages is only right if batches are weighted; a test sees one data set and one batch size", "anchors": ["main_pl.py: main", "models_pl.py: SpnGenerative.test_step", "models_pl.py: SpnDiscriminative.test_step", "simple_einet/data.py: build_dataloader"]}
{"id": "C74", "title": "Reconstructions keep the given half of the image", "statement": "The reconstructions that main.py draws for test images show the lower part of each test image unchanged and fill the upper part with a sample of the model given the lower part of the same image.", "quantifier": "all models built from a valid configuration, all image shapes and test images, all random draws", "why_tests_cant": "the law of a random completion, for all images and shapes", "anchors": ["main.py: reconstructions", "simple_einet/einet.py: Einet.sample", "simple_einet/einet.py: Einet.mpe"]}
{"id": "C75", "title": "Most probable explanations with multivariate normal leaves", "statement": "For an Einet with multivariate normal leaves, mpe and sample(is_mpe=True) are deterministic, return a tensor of shape [N, C, F], keep the known features, and fill every other feature with the mean of its block of features under the greedily chosen component; with evidence in part of a block, the rest of the block is filled with its most likely value given that evidence.", "quantifier": "all top-down configurations whose cardinality divides the number of features, all parameters, classes, temperatures, evidence and marginalised features", "why_tests_cant": "which component a feature is taken from depends on the shuffled grouping of the blocks and on all weights; a wrong component still gives a plausible tensor of the right shape", "anchors": ["simple_einet/layers/distributions/multivariate_normal.py: MultivariateNormal._get_base_distribution", "simple_einet/layers/distributions/abstract_leaf.py: dist_mode, dist_sample", "simple_einet/layers/factorized_leaf.py: FactorizedLeaf._index_leaf_samples", "simple_einet/einet.py: Einet.mpe, Einet.sample"]}
{"id": "C76", "title": "Sampling given evidence with multivariate normal leaves", "statement": "For an Einet with multivariate normal leaves, sample(evidence=x, marginalized_scopes=s) returns independent rows; the features not in s keep their values, and the features in s follow the conditional distribution, under the density computed by the forward pass, given the features not in s.", "quantifier": "all top-down configurations whose cardinality divides the number of features, all parameters, evidence, marginalised features and all measurable statistics of the whole batch", "why_tests_cant": "the conditional distribution of correlated features cannot be read off finitely many samples, and ignoring part of the evidence still gives plausible values", "anchors": ["simple_einet/einet.py: Einet.sample", "simple_einet/layers/distributions/multivariate_normal.py: MultivariateNormal._get_base_distribution; CustomMultivariateNormalDist.log_prob, sample", "simple_einet/layers/distributions/abstract_leaf.py: AbstractLeaf._marginalize_input", "simple_einet/sampling_utils.py: sampling_context", "simple_einet/layers/factorized_leaf.py: FactorizedLeaf._index_leaf_samples"]}
{"id": "C77", "title": "Learning rate of every epoch", "statement": "A training of E epochs with main_pl.py runs the first 70 percent of the epochs (rounded down, at least one epoch) with the configured learning rate, the epochs up to 90 percent (rounded down) with a tenth of it and the rest with a hundredth; main_pwl.py halves the rate after 80 and after 90 percent; main.py keeps the configured rate.", "quantifier": "all learning rates, all numbers of epochs and all epochs", "why_tests_cant": "the milestones are computed in floating point and truncated, so they are wrong only for particular numbers of epochs; coinciding milestones and a milestone 0 count twice or before the first epoch", "anchors": ["models_pl.py: LitModel.configure_optimizers", "main_pwl.py: MultiStepLR in the training loop", "main.py: StepLR and the loop over the epochs"]}
{"id": "C78", "title": "Saving and restoring a model", "statement": "A freshly constructed Einet that loads the state dict of a trained Einet with the same configuration gives, from then on, the same log-likelihoods, posteriors, samples and most probable explanations as the trained one for all arguments, whatever its own initial parameters and random permutations were, and saving it again gives the same file; a state dict of a model of other sizes, another structure or another layer type is refused.", "quantifier": "all configurations, leaf classes, parameter values, random choices of both objects, and all arguments of forward, posterior, sample and mpe", "why_tests_cant": "depends on which tensors every module registers; a random choice that is not registered (a permutation, a scope) shows only for particular draws and inputs, and a file of another configuration may have the same names and shapes", "anchors": ["main.py: torch.save(model.state_dict()), model.load_state_dict", "simple_einet/einet.py: Einet.__init__, register_buffer", "simple_einet/layers/factorized_leaf.py: FactorizedLeaf.__init__, FactorizedLeafSimple.__init__", "simple_einet/layers/distributions"]}
{"id": "C79", "title": "Log-likelihoods of discrete data are logarithms of probabilities", "statement": "With Binomial, Bernoulli or Categorical leaves every log-likelihood is at most zero, also with missing entries; leaving out further entries (NaN or marginalized_scopes) never lowers a log-likelihood; hence the loss of the generative model is never negative.", "quantifier": "all configurations, parameters, random choices, batches of data in the support with any entries missing, and classes", "why_tests_cant": "a normalisation that is slightly wrong for some parameter values or some regions gives positive values only for particular parameters and inputs", "anchors": ["simple_einet/einet.py: Einet.forward", "simple_einet/layers/distributions: Binomial, Bernoulli, Categorical", "models_pl.py: SpnGenerative.negative_log_likelihood"]}
{"id": "C80", "title": "Number of parameters", "statement": "count_params(Einet(config)) is the number of leaf parameters (channels x features x leaves x repetitions, times the parameters of one distribution) plus the weights of the circuit, given by a closed formula in depth, num_sums, num_leaves, num_classes and layer_type, plus repetitions x classes mixture weights if there are several repetitions and one number per class if there are several classes; it does not depend on dropout, random choices or parameter values.", "quantifier": "all configurations that can be constructed, all leaf classes", "why_tests_cant": "the formula depends on five sizes, the depth and three layer types; the benchmark compares it with another implementation for a few configurations only", "anchors": ["exp_utils.py: count_params", "benchmark/benchmark_simple_vs_og.py: count_params", "simple_einet/einet.py: Einet.__init__"]}
{"id": "C81", "title": "Runs do not overwrite each other's results", "statement": "make_results_dir with default arguments returns a directory that did not exist before the call, and removes nothing; runs of different experiments, data sets or tags never share a directory.", "quantifier": "all arguments, all states of the file system, all sequences of runs with anything created in between", "why_tests_cant": "the outcome depends on the whole history of earlier runs; a test would create one or two directories", "anchors": ["exp_utils.py: make_results_dir", "exp_utils.py: save_args"]}
{"id": "C82", "title": "Seeds of processes and loader workers", "statement": "seed_all_rng(seed) makes all generators depend on the seed only; without a seed a random one is used. Each worker of a data loader starts with its own seed, different from those of all other workers, and never fails.", "quantifier": "all seeds, all earlier states of the generators, all base seeds of the loader, all numbers of workers", "why_tests_cant": "the seeds of the workers depend on a random 63-bit number and wrap around at 2^31; collisions or rejected seeds would occur for few base seeds only", "anchors": ["exp_utils.py: seed_all_rng, worker_init_reset_seed", "simple_einet/data.py: _make_loader"]}
{"id": "C83", "title": "A model trained by main_pl.py can be loaded for evaluation", "statement": "After a training run of main_pl.py without exception the directory of the run contains the checkpoint of the trained model, and a run with load_and_eval=True in this directory evaluates it.", "quantifier": "all directories and states of the file system, all sequences of runs before, all outcomes of training", "why_tests_cant": "needs complete training runs; the statement is about every history of runs and files", "anchors": ["main_pl.py: main, main_hydra", "exp_utils.py: load_from_checkpoint"]}
{"id": "C84", "title": "Saving and restoring mixtures", "statement": "The state dict of an initialised Mixture can be loaded into a new Mixture built with the same arguments, without calling initialize, and afterwards forward, sample and mpe do the same as those of the saved mixture.", "quantifier": "all configurations, numbers of components, parameters, random choices, training data and results of the clustering", "why_tests_cant": "whether the file can be loaded depends on the result of the clustering and on the number of channels; equality of all later results is a statement about all inputs", "anchors": ["simple_einet/mixture.py: Mixture.__init__, Mixture.initialize"]}
{"id": "C85", "title": "Only differences of raw weights matter", "statement": "Adding a constant to the raw weights (logits) of all children of a sum node, with a separate constant for every node of every layer, of the repetition mixing and of the class root, changes neither forward nor sample nor mpe: same values, same exceptions, same random choices with the same weights, so the same samples after the same seed. The same holds for the logits of a Categorical leaf component.", "quantifier": "all configurations, parameters, constants, inputs (valid or not), marginalised scopes and arguments of sample with temperature_sums different from 0", "why_tests_cant": "equality of two models on all inputs and of the laws of their samples; the normalisation is written separately in the forward pass and in the sampling pass of each of the five kinds of sum layers, over different dimensions", "anchors": ["simple_einet/layers/einsum.py: EinsumLayer.forward, EinsumLayer._select_weights", "simple_einet/layers/linsum.py: LinsumLayer, LinsumLayer2", "simple_einet/layers/sum.py: SumLayer", "simple_einet/layers/mixing.py: MixingLayer", "simple_einet/abstract_layers.py: logits_to_log_weights", "simple_einet/layers/distributions/categorical.py: Categorical"]}
{"id": "C86", "title": "An einet is a mixture of independent features", "statement": "For every class the likelihood of a row is a weighted average, with nonnegative weights of sum one that do not depend on the data, of products with exactly one leaf density per channel and feature. Hence it lies between the products of the smallest and of the largest component densities, equals the common product if all components of a leaf agree, and for Normal leaves the log-likelihood never exceeds the number of observed entries times -log(s*sqrt(2*pi)), where s is a lower bound of the standard deviations, in particular min_sigma for RatNormal leaves.", "quantifier": "all configurations, parameters, classes, batches and NaN patterns", "why_tests_cant": "ranges over all structures and depths; a leaf counted twice or left out in one repetition, or weights not summing to one in one layer, changes the value only slightly on examples", "anchors": ["simple_einet/einet.py: Einet.forward", "simple_einet/layers/einsum.py: EinsumLayer.forward", "simple_einet/layers/linsum.py: LinsumLayer.forward, LinsumLayer2.forward", "simple_einet/layers/sum.py: SumLayer.forward", "simple_einet/layers/mixing.py: MixingLayer", "simple_einet/layers/distributions/normal.py: RatNormal"]}
{"id": "C87", "title": "The training losses favour the true distribution", "statement": "If the data follow the distribution of one einet, then the expected training loss of every other einet on the same data space, of any structure, size and leaf type, is at least that of the first: for the negative log-likelihood of main.py on batches of independent rows, for the class-conditional negative log-likelihood of main.py with classification and for the cross entropy of models_pl.py on labelled rows with equally likely classes. For the negative log-likelihood, equality holds only if the two densities agree almost everywhere.", "quantifier": "all pairs of configurations and parameters with the same data space, all batch sizes", "why_tests_cant": "an inequality between integrals over the data space for all pairs of models; an average over samples only estimates both sides", "anchors": ["main.py: train, log_likelihoods", "models_pl.py: SpnDiscriminative._get_cross_entropy_and_accuracy", "simple_einet/einet.py: Einet.forward, Einet.posterior"]}
{"id": "C88", "title": "Log-likelihoods and training losses are smooth functions of the parameters and of the inputs", "statement": "For a fixed configuration, fixed random choices of the constructor and a leaf class with fixed keyword arguments, every entry of the log-likelihoods of a batch is finite and depends on all trainable parameters jointly as smoothly as the parameters themselves are moved (up to real analytic), and for Gaussian leaves also on the observed entries of the data; missing entries stay constant. The same holds for the training losses of main.py with and without classification and for the cross entropy of models_pl.py.", "quantifier": "all configurations, all normed parameter spaces and smooth parameter families, all batches with missing values, all orders of differentiability", "why_tests_cant": "a gradient check compares one derivative with finite differences at one point; kinks, discontinuities or infinite values elsewhere stay unseen", "anchors": ["simple_einet/einet.py: Einet.forward", "simple_einet/layers: SumLayer, LinsumLayer, LinsumLayer2, EinsumLayer, MixingLayer", "simple_einet/layers/distributions: Normal, RatNormal, Binomial, Bernoulli, Categorical", "main.py: train", "models_pl.py: SpnDiscriminative._get_cross_entropy_and_accuracy"]}
{"id": "C89", "title": "A training run of main.py makes one optimiser step per batch with the loss of the current model", "statement": "For every offered command line, main.py trains to the end: in every epoch each batch of the loader (with --debug the first three, with --dry-run only the first) leads to exactly one step of the optimiser, in order, with the finite mean negative log-likelihood (of the true class with --classification) of the model with the parameters before the step on the quantised batch; every log_interval-th batch gives a log line with its percentage of correctly classified rows.", "quantifier": "all command lines, data sets, random structures, optimisers, initial states, numbers of epochs and batches of images with pixels in [0, 1]", "why_tests_cant": "a test run covers one command line, one data set and a few steps; that no later step meets an exception or an infinite loss depends on every parameter value the optimiser may reach", "anchors": ["main.py: train, __main__", "args.py: parse_args", "simple_einet/data.py: get_data_shape", "simple_einet/utils.py: preprocess", "simple_einet/einet.py: Einet.forward"]}
{"id": "C90", "title": "Training a classifier also fits the class frequencies used for sampling", "statement": "After a classifier has been trained, rows sampled without naming a class contain the classes with the frequencies of the training data.", "quantifier": "all configurations, parameter values, data, numbers of epochs and all optimisers that leave alone what the loss does not depend on", "why_tests_cant": "after few steps the frequencies differ anyway; that they never move depends on every loss and every state of the optimiser", "anchors": ["simple_einet/einet.py: Einet.__init__ (_class_sampling_root), Einet.forward, Einet.posterior, Einet.sample", "main.py: train", "models_pl.py: SpnDiscriminative, SpnGenerative"]}
{"id": "C91", "title": "Gradients of the weights of repetitions are responsibilities minus weights", "statement": "The derivative of a log-likelihood by a raw mixing weight of a repetition is the posterior probability of the repetition given the row minus its weight, and 0 for raw weights of other classes. In training without classes the gradient of the loss vanishes exactly where every weight is the mean responsibility over the batch, and then no other choice of the weights has a smaller loss on the batch.", "quantifier": "all configurations, parameters, leaf classes, batches with missing values and all raw weights", "why_tests_cant": "gradient checks compare single points; that a vanishing gradient is a global optimum is a statement about all other weights", "anchors": ["simple_einet/layers/mixing.py: MixingLayer.forward", "simple_einet/abstract_layers.py: logits_to_log_weights", "simple_einet/einet.py: Einet.forward", "main.py: train, log_likelihoods"]}
{"id": "C92", "title": "Parameters of missing entries are not trained", "statement": "The log-likelihoods of a row do not depend on the leaf parameters of entries that are missing (NaN) in the row, and the training loss of a batch does not depend on the leaf parameters of entries that are missing in every row of the batch: changing these parameters arbitrarily gives the same numbers, so the derivatives of the loss by them are 0 (not NaN).", "quantifier": "for all valid configurations, structures, parameters, leaf classes, batches with missing entries, and all changes of the parameters of missing entries", "why_tests_cant": "A test changes a few parameters for a few masks of missing entries; the claim is about every mask and every change of any number of parameters, in every structure.", "anchors": ["simple_einet/layers/distributions/abstract_leaf.py: AbstractLeaf.forward", "simple_einet/einet.py: Einet.forward", "main.py: train"]}
{"id": "C93", "title": "Gradients of leaf parameters are responsibilities times gradients of the leaf", "statement": "For every row and class there are posterior probabilities of the leaf components (not negative, sum one over components and repetitions for every feature) such that the derivative of the log-likelihood by the leaf parameters is the posterior probability of the component times the derivative of the log-density of this component at the observed value: (x - mean)/variance for means, ((x - mean)^2/variance - 1)/2 for log-variances, x - n*p for Binomial logits, x - p for Bernoulli, indicator minus probability for Categorical logits. Training with one class is stationary in a mean exactly if the mean is the average of the observed values weighted by the posterior probabilities.", "quantifier": "for all valid configurations, structures, layer types, parameters, batches with missing entries, rows, classes, entries, components and repetitions, and (general form) all differentiable changes of all leaf parameters", "why_tests_cant": "Gradient checks compare finite differences at single points; the formula and the characterisation of stationary points are claims about all parameters, rows and structures.", "anchors": ["simple_einet/einet.py: Einet.forward", "simple_einet/layers/distributions/abstract_leaf.py: AbstractLeaf.forward", "simple_einet/layers/distributions/normal.py: Normal, RatNormal", "simple_einet/layers/distributions/binomial.py: Binomial", "simple_einet/layers/distributions/bernoulli.py: Bernoulli", "simple_einet/layers/distributions/categorical.py: Categorical", "main.py: train"]}
{"id": "C94", "title": "Gradients by the inputs point to averages of means", "statement": "With Normal leaves the derivative of a log-likelihood by a known value is the average, weighted with the posterior probabilities of the components, of mean minus value over variance. Hence beyond the largest mean of its feature and channel (over components and repetitions) a growing value strictly lowers the log-likelihood of every class, and below the smallest mean a falling value does.", "quantifier": "for all valid configurations with Normal leaves, structures, layer types, parameters, batches with missing entries, rows, classes, known entries and values", "why_tests_cant": "A test evaluates gradients at finitely many points; monotonicity on a half line and the formula hold for all values, parameters and structures.", "anchors": ["simple_einet/einet.py: Einet.forward", "simple_einet/layers/distributions/abstract_leaf.py: AbstractLeaf.forward", "simple_einet/layers/distributions/normal.py: Normal"]}
{"id": "C95", "title": "Convolutional circuits of main_pl.py can be trained on every data set", "statement": "With model=convpc, main_pl.py constructs a circuit for every known data set, training steps on images whose pixel values fit the leaves give the mean negative log-likelihood, the circuit has one log-likelihood per class, and generate_samples returns images of the shape of the data, made of modes of components of the leaves divided by 255, that can be used as data again.", "quantifier": "for all data sets, leaf distributions, sections convpc of the configuration, parameters, batches of images and numbers of classes", "why_tests_cant": "Whether a circuit fits is only seen when data are passed through it; the statement is about all data sets, circuits, parameters and batches.", "anchors": ["models_pl.py: make_convpc, SpnGenerative.negative_log_likelihood, SpnGenerative.generate_samples", "simple_einet/conv_pc.py: ConvPc.__init__, ConvPc.forward, ConvPc.sample", "simple_einet/data.py: get_data_shape", "conf/config.yaml: convpc"]}
{"id": "C96", "title": "Mixtures of convolutional circuits", "statement": "A Mixture of ConvPc circuits returns one log-likelihood per image, in the order of the images, each computed by the circuit of the image's cluster from this image alone. sample returns the requested number of images of the shape of the data, with is_mpe the most probable image of a circuit of largest weight, and with evidence it completes the evidence.", "quantifier": "for all circuits, numbers of components, clusterings, weights, batches with missing pixels, scopes, arguments of sample and laws of the noise", "why_tests_cant": "The regrouping has to be right for every assignment of images to clusters and every order; a test sees a few batches.", "anchors": ["simple_einet/mixture.py: Mixture.__init__, Mixture.forward, Mixture.sample, Mixture._predict_cluster, Mixture._separate_data_by_cluster", "simple_einet/conv_pc.py: ConvPc.forward, ConvPc.sample"]}
{"id": "C97", "title": "Log-likelihoods and losses of convolutional circuits are smooth functions of the parameters and of the inputs", "statement": "For a ConvPc circuit that accepts a batch of images, the log-likelihoods and the training loss of models_pl.py are finite for all parameters and smooth functions of all weights of the sum layers, of all leaf parameters and, for leaves with a density, of the pixels, also in batches with missing pixels.", "quantifier": "for all circuits of both structures and orders, leaf distributions, smooth families of parameters and images over normed spaces, batch sizes and orders of differentiability", "why_tests_cant": "Gradients are only checked at single points by tests; the statement is about all points and all circuits.", "anchors": ["simple_einet/conv_pc.py: ConvPc.forward, SumLayer.forward, ProdConv.forward, SumProdLayer.forward", "models_pl.py: SpnGenerative.negative_log_likelihood", "simple_einet/layers/distributions/abstract_leaf.py: AbstractLeaf.forward"]}
{"id": "C98", "title": "Log-likelihoods of mixtures are smooth functions of the parameters of the components", "statement": "For mixtures of Einets, and for mixtures of convolutional circuits that accept the images, the log-likelihoods of a batch are finite for all parameters of the components and smooth functions of all of them, whichever component each row is sent to, because the assignment of rows to components depends on the data and the centroids only. They are smooth in the data too, for leaves with a density, as long as no row changes its cluster.", "quantifier": "for all mixtures of any number of components, configurations, leaf distributions, centroids and clusterings, batches of any size with missing values, smooth families of parameters and data over normed spaces, and orders of differentiability", "why_tests_cant": "Gradients are only checked at single points by tests; the statement is about all points, all mixtures and all assignments of rows to components.", "anchors": ["simple_einet/mixture.py: Mixture.forward, Mixture._predict_cluster", "simple_einet/einet.py: Einet.forward", "simple_einet/conv_pc.py: ConvPc.forward"]}
{"id": "C99", "title": "Only differences of raw weights matter in convolutional circuits", "statement": "Adding a number to the raw weights of all children of a sum node of a ConvPc circuit, possibly another number for every node, position and layer, changes neither whether the circuit can be built nor the result or the exception of its forward pass on any input, nor the law of the images it samples, nor the images sampled after a given seed, with any arguments and any temperature of the sums other than 0.", "quantifier": "for all configurations, image shapes, leaf distributions and parameters, all shifts of all layers, all inputs of the forward pass, valid or not, and all arguments of sample", "why_tests_cant": "The statement is about all circuits, all shifts and all inputs at once; tests compare single circuits.", "anchors": ["simple_einet/conv_pc.py: SumLayer.forward, SumLayer.sample, SumLayer._select_weights, SumProdLayer.forward, SumProdLayer.sample, ConvPc.__init__, ConvPc.forward, ConvPc.sample"]}
{"id": "C100", "title": "Only differences of raw weights matter in mixtures", "statement": "Adding a number to the raw weights of all children of a sum node of any component of a Mixture, possibly another number for every node and component, changes neither the log-likelihoods of the mixture or its exceptions on any input, nor what it samples: the same random choices are made with the same weights, with or without evidence, so the law of the samples and the result after a given seed stay the same. This holds for mixtures of Einets and of ConvPc circuits.", "quantifier": "for all mixtures of any number of components, configurations, leaf distributions and parameters, all shifts, all inputs of forward, valid or not, all scopes and all arguments of sample with a temperature of the sums other than 0", "why_tests_cant": "The statement is about all mixtures, all shifts, all inputs and whole laws of samples; tests compare single mixtures.", "anchors": ["simple_einet/mixture.py: Mixture.forward, Mixture.sample, Mixture._predict_cluster", "simple_einet/einet.py: Einet.forward, Einet.sample", "simple_einet/conv_pc.py: ConvPc.forward, ConvPc.sample"]}
