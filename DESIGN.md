# Formal model of simple-einet: design

## 1. Scope

The repository in `/repo` (simple-einet at the pinned commit) is read as text. Nothing in it is built or run. The model is a
Lean 4 project in `lean/`. Model files mirror the Python functions and cite file and lines; the files `Verif/Props*.lean` contain
the theorems listed in `MANIFEST.json`. The properties are in `properties.jsonl`, attempts with wrong models in
`seeded/LOG.jsonl`.

Names of theorems: `Cxx_..._partial` proves the property under a restriction that its comment names; `Cxx_refuted...` proves that
the property is false of the code (a witness, or a statement for a whole class of inputs).

## 2. How the code is modelled

* **Numbers** (`Fl`). A torch float is `nan | ninf | pinf | fin r` with `r : ℝ`: exact real arithmetic with the IEEE rules for
  NaN and infinities. Rounding, overflow and underflow are not modelled.
* **Tensors** (`Tensor α`). A shape (list of sizes) and a function from index lists to entries. The torch operations used by
  the repository (`unsqueeze`, `squeeze`, `expand`, `view`, `permute`, `gather`, broadcasting arithmetic, slicing, `cat`,
  `repeat_interleave`, `sum`, `logsumexp`, `argmax`, ...) are defined once in `Tensor.lean`, with their size checks; a failed
  check is an error value. Strides are not modelled: `view` is allowed whenever the number of entries agrees.
* **Exceptions** are values of `Except Err` (`Res`). Functions that change module state and may raise return the state reached
  together with the error, so that the state after an exception is visible (`State.lean`, `ConvState.lean`).
* **Randomness**. A sampling procedure is a program of type `Rand α`: it is finished, fails, asks for a categorical draw, or
  asks for a draw from a measure. The same program is interpreted by its expectation (`Rand.E`, the law of the result), by
  all outcomes in its support (`Rand.All`), and by execution with a generator (`Gen.lean`, for seeds).
* **Leaves** (`BaseLeaf`). A log density per entry with respect to a reference measure, a support check, a sampler and a mode.
  The generic theorems need only `BaseLeaf.Proper` (normalised, measurable) and `BaseLeaf.Samp` (the sampler has that law).
  `LeafSpec` instantiates them: Normal, RatNormal (with projected parameters), Bernoulli, Binomial, Categorical, see
  `Dists.lean`. `MultiDistributionLayer`, `MultivariateNormal` and `ConditionalBinomial` have models of their own.
* **Parameters** (logits, leaf parameters, random permutations, group assignments) are arbitrary real numbers; `P.Random`
  only says that the random permutations are permutations. `build c P` is the constructor: it returns a model or an error.
* **Layers**. Each layer is proved equal, entry by entry, to a row function on `Fl`; the homomorphism `toP` carries it to
  `ℝ≥0∞`, where sums and products are those of a probabilistic circuit. Laws and integrals are proved there by induction over
  the chain of layers.
* **State** between calls: one flag and one cache per layer (they are switched together by `sampling_context`), the leaf cache,
  the class prior switch and the random generator.
* **Memory** (`Heap.lean`). For C64 tensors are references to storages; `view`, `unsqueeze` and `squeeze` share the storage,
  indexed assignment changes it, everything else makes a new one. `forward` and `sample` of `Einet` are transcribed a second time
  on this level and proved to refine the definitions with values. Simplification: the loop of assignments that permutes the
  features is one assignment; the input caches of the layers, which are only read, hold values.
* **Differentiable sampling**. One-hot tensors, `SIMPLE` with Gumbel noise. The noise is drawn from a measure `μ`:
  `gumbelM eps` is the law of `-log(-log(u + eps) + eps)` for uniform `u`, and `gumbelM 0` the exact Gumbel law. The noise of a
  tensor is drawn per row (the grouping of the draws is a simplification; they are independent). `DifferentiableBinomial` is the
  clipped normal of the code.
* **Mixtures**. The clustering is an arbitrary function from rows to components; KMeans itself is not modelled.
* **ConvPc** (`Conv*.lean`). Images, the layers `SumLayer`, `ProdConv`, `SumProdLayer`, both structures and orders, sampling,
  caches. `SumConv.lean` is the class `SumConv`, which `ConvPc` does not use.

## 3. Trusted base

* Lean's kernel. Axioms: at most `propext`, `Classical.choice` and `Quot.sound`; section 7 lists them per theorem (printed by
  `#print axioms`). No axiom is added, and there is no `sorry`, `native_decide` or `bv_decide`.
* That the definitions of the torch operations in `Tensor.lean` and of float arithmetic in `Fl.lean` describe torch
  (apart from rounding).
* That the transcription of the Python functions is faithful. Every definition cites its source lines.

## 4. What is modelled and what is not

| file in `/repo/simple_einet` | modelled | not modelled |
|---|---|---|
| `einet.py` | `EinetConfig.assert_valid`, `__init__`, both structure builders, `forward`, `posterior`, `mpe`, `sample` (all arguments), leaf cache | `extra_repr`, `get_device`, gradients |
| `abstract_layers.py` | shape checks, `_condition_weights_on_evidence`, `_sample_from_weights`, `_select_weights`, caches | `nn.Module` bookkeeping |
| `layers/sum.py`, `product.py`, `einsum.py`, `linsum.py`, `mixing.py` | `forward`, `sample` in index and one-hot mode, dropout loops | initial values of parameters |
| `layers/factorized_leaf.py` | both classes: constructor, `forward`, `sample`, `scopes` | |
| `layers/distributions/abstract_leaf.py` | `dist_forward`, `dist_mode`, `dist_sample`, marginalisation, caching | |
| `normal.py`, `bernoulli.py`, `binomial.py`, `categorical.py` | densities, supports, modes, laws of draws, `RatNormal` projection, `DifferentiableBinomial` | the samplers of `torch.distributions` (their law is assumed) |
| `ConditionalBinomial` in `binomial.py` | constructor, `forward`, `sample`, inside an `Einet` (`CondBinomial.lean`) | differentiable sampling; the module `cond_fn` is an arbitrary function |
| `multidistribution.py` | scopes, order of features, `forward`, `sample`, `get_params`; the layer alone and as leaf of an Einet (construction, `forward`, `sample`, `mpe`) | `get_params` inside an Einet |
| `multivariate_normal.py` | constructor, `scale_tril`, `forward` with marginalisation, `sample`, `mpe`, evidence (`Mvn.lean`: `MvnLeaf`, `MvnEinet`, `buildMvn`), inside an `Einet` of either structure | differentiable sampling, `get_params` (raises); log densities at infinite arguments are NaN |
| `piecewise_linear.py` | `interp`, `initialize`, `reset`, `log_prob`, `sample`, `mpe`, as leaf layer of an `Einet` (`Pwl.lean`) | the clustering of the data (given as an arbitrary assignment) |
| `histogram.py` | bin edges and the number of bins of the rule `auto` | weights |
| `simple_einet/mixture.py` (top level) | `forward`, `sample`, `mpe`, weights after `initialize`; with components of class `Einet` (`Mixture.lean`) and `ConvPc` (`ConvMixture.lean`) | KMeans |
| `conv_pc.py` | everything but the code after the first `return` of `SumConv._select_weights` and conditional sampling, which always raises | |
| `sampling_utils.py` | `sampling_context`, `SIMPLE`, `sample_categorical_differentiably`, `index_one_hot`, `index_tensor`, `init_einet_stats` (`LeafInit.lean`) | |
| `layers/distributions/mixture.py` (leaf) | nothing: its constructor passes the dropout where `num_repetitions` is expected, and its `forward` calls the components without `marginalized_scopes`, so no call succeeds | all |
| `type_checks.py`, `utils.py`, `dist.py` | checks, `invert_permutation`, `get_distribution` | helpers for logging and training |
| `main.py`, `models_pl.py` (outside `simple_einet`), `calc_bpd` of `utils.py` | `log_likelihoods`, losses, `test`, `negative_log_likelihood`, `_get_cross_entropy_and_accuracy`, bits per dimension (`Train.lean`); `make_einet`, `preprocess`, `generate_samples` (`Lit.lean`, `Heap.lean`); `make_convpc` and the loss and samples of its circuits (`ConvLit.lean`); `test_step`, evaluation of `main_pl.py` (`Evaluate.lean`); reconstructions of `main.py` (`Reconstruct.lean`); construction, `train` and the epochs of `main.py` with an arbitrary optimiser (`TrainLoop.lean`); learning rate schedules, also of `main_pwl.py` (`Schedule.lean`); `state_dict` and `load_state_dict` of an Einet (`StateDict.lean`) and of a Mixture (`MixState.lean`); `count_params` of `exp_utils.py` (`ParamCount.lean`); `make_results_dir`, `seed_all_rng`, `worker_init_reset_seed`, `load_from_checkpoint` and the files of `main_pl.py` (`Results.lean`) | optimiser, training loop of the trainer, logging, `make_convpc` |
| `data.py` | `Shape`, `get_data_shape`, `get_data_num_classes`, `generate_data` (generated points are a parameter), `get_datasets`, `build_dataloader`, `_make_loader`, `TrainingSampler` (`Data.lean`, `Sampler.lean`) | what the libraries deliver (downloads, files, images, stratified splits, PCA: fields of `Sources`), workers |

Also not modelled: devices and dtypes (except where a cast decides the result), logging, plotting, backpropagation (C88 and C91 to C94 are about derivatives of the exact functions) and the rules of the optimisers, the other
scripts outside `simple_einet`.

## 5. Properties

| id | property | status | proof | result and what is missing or false |
|---|---|---|---|---|
| C01 | The density returned by the model integrates to one | proved | forward = log of an expectation over induced trees; integral commutes with the finite sums, groups partition the features | Integral over all completions of the density of every class of every constructed model is 1, for every configuration that builds. |
| C02 | NaN entries are marginalised exactly | proved | same expansion, one entry at a time | exp of forward on a row with NaN = integral of exp of forward over the missing values. |
| C03 | marginalized_scopes equals NaN in those features | proved | entrywise equality of leaf outputs |  |
| C04 | NaN outside marginalized_scopes is not silently accepted as marginalised | proved | NaN propagates by induction over layers |  |
| C05 | Rows of a batch do not influence one another | proved | entry (n,c) is a function of row n |  |
| C06 | A valid configuration yields a usable model | partial | shape chain by induction on the depth | Exact condition for construction; constructed models return [N, num_classes] of finite numbers. False in general: configurations accepted by assert_valid that cannot be built (refuted). |
| C07 | Input rank does not matter, wrong sizes are rejected | partial | arithmetic of row-major views | Inputs of rank 2/4 give the result of the equivalent rank 3 input; wrong inputs are rejected except the images the code accepts by accident (refuted). |
| C08 | posterior is the Bayes posterior under a uniform class prior | proved | algebra of exp and log |  |
| C09 | Leaf cache is transparent while keys are used consistently | proved | invariant over histories of calls | histories may also contain sampling calls, calls that raise, and parameter changes |
| C10 | Sum weights are normalised | proved | algebra |  |
| C11 | The numerically stabilised einsum layer computes the plain sum of products | partial | algebra of the max trick | Exact characterisation for real and -inf inputs; a region with only -inf children yields NaN (refuted). |
| C12 | Feature groups of a factorized leaf partition the features | partial | arithmetic of group sizes, permutations | Full for FactorizedLeaf; FactorizedLeafSimple partitions but can leave a group empty (refuted). |
| C13 | Unconditional sampling follows the modelled distribution | partial | expectation of the layer sampler = product of node values, induction over layers; the value of the layers expanded into a sum over one component per region | Joint law of all rows = product of the model density, for every configuration with matching grouping (MirrorCfg, exactly the configurations with a common grouping by C34_exact); false for the other two kinds of configurations (witnesses: 25/144 instead of 13/72 with one repetition, 5/12 instead of 7/18 with several repetitions and 2**depth = num_features). For all configurations and temperatures C13_exact_law gives the law as a mixture over classes, repetitions and components, and C13_forward_mixture the density as the same mixture with the grouping of the forward pass. |
| C14 | Conditional sampling follows the conditional distribution | partial | the same with posterior weights from the caches | Joint law of all rows given evidence of rank 2, 3 or 4 = product of the conditional laws, for MirrorCfg; no evidence is the special case refuted by C13_refuted outside MirrorCfg. C14_exact_law gives the law for all configurations, temperatures of the leaves and mpe_at_leaves, with temperature_sums = 1. |
| C15 | Observed evidence is returned unchanged and every hole is filled | proved | entrywise | evidence of rank 2, 3 and 4; the caller's tensor in the model with storages (Heap.lean) |
| C16 | Sampling with class_index samples from the requested classes | partial | reduction to C13 | Index mode; with is_differentiable=True every class_index raises (refuted). A list without num_samples of the same length always raises (refuted). |
| C17 | Without class_index, classes are drawn from the uniform prior | partial | law of the class draw | Exact law; false in general: random class prior, class not conditioned on the evidence (both refuted). |
| C18 | Sampling leaves the model state as it was | partial | state machine with exception points | false after an exception inside sampling_context (no try/finally): C18_refuted; holds for all histories without such aborted calls |
| C19 | A seed makes sampling reproducible and leaves the global generator untouched | partial | abstract generator | false for calls that raise and after aborted calls |
| C20 | MPE is deterministic and independent of random state | partial | the program asks for no draw; every decision is an argmax | mpe consumes no random numbers and every decision is maximal; with evidence and several classes the class is chosen without looking at the evidence (refuted). |
| C21 | MPE with evidence returns a completion of maximal probability | partial | induction for shared modes; witness otherwise | True if all components of a leaf share their most probable values; false in general: mpe() returns a row of probability 11/54 although another one has 17/54 (refuted). |
| C22 | Differentiable and ordinary MPE agree | proved | simulation of indices by one-hot vectors | any number of classes |
| C23 | Indexing with a one-hot vector equals ordinary indexing | partial | sums with one non-zero term | exact conditions; false for tensors with infinite entries that are not selected, and for weights that are NaN or +inf |
| C24 | Sampling never selects a child that does not exist | partial | invariant over all outcomes | No random outcome raises, shape [N,C,F]; Bernoulli leaves always raise (refuted). |
| C25 | Dropout never removes all children of a sum node | partial | exit condition of the loop, for all streams of draws | Holds for mixing and einsum layers for every sequence of draws. False for sum layers with two or more repetitions (the loop tests the wrong dimension), for linsum layers (the redraw raises an IndexError) and for linsum2 layers (products themselves are dropped); what remains true is stated in the _partial theorems. |
| C26 | Validation accepts exactly the values within bounds | partial | case analysis | Exact for bounds other than 0; a bound of 0 is ignored by the code (refuted). |
| C27 | EinetConfig.assert_valid accepts exactly the meaningful configurations | partial | case analysis | Exact for depth >= 0 and dropout >= 0; negative depth and dropout are accepted by the code (refuted). |
| C28 | Mixture forward returns results in input order | proved | grouping and sorting lemmas | for every clustering function and every number of components |
| C29 | Mixture forward marginalises | partial | same | only the selection of the component ignores the marginalised features; the components are called without the scopes (refuted with densities 13/72 and 17/72) |
| C30 | Mixture sampling returns the requested number of rows, aligned with the evidence | partial | laws of grouped rows | rows are permuted with the sorting permutation instead of its inverse, so row i does not follow the mixture (refuted); MPE returns one row; laws for configurations where component samples follow their density |
| C31 | The mode used at the leaves maximises the leaf's probability | proved | inequalities, no calculus | All leaf types incl. RatNormal. |
| C32 | MultiDistributionLayer keeps features in order | partial | every feature has one owner | forward, sampling and modes are in feature order for every partition; get_params is in the order of the scopes, so it is refuted for every partition not in increasing order. The constructor does not check that the scopes cover the features. |
| C33 | Permutation and inverse permutation cancel | proved | argsort of a permutation is its inverse |  |
| C34 | Every decision of the forward grouping is mirrored by the sampler | partial | comparison of the group maps | One grouping describes both directions for MirrorCfg; false for a top-down model with one repetition (refuted). For at least two leaves MirrorCfg is exactly the condition under which this holds for all parameters (C34_exact). |
| C35 | Quantised pixel values are in the support of the chosen leaf | partial | floor arithmetic | levels fit a Binomial leaf with total_count 2^n-1 for n<=7; false for 8 bits (no rounding) and for the Categorical leaf, which get_distribution gives one category too few |
| C36 | Piecewise linear leaves are proper densities | proved | integrals of linear pieces | the interpolated function is a density; what log_prob reports is floored at -300 (C36_refuted_floor) and an empty cluster of a continuous feature stores NaN (C36_refuted_empty) |
| C37 | Histogram edges cover the data with at least one bin | proved | real arithmetic |  |
| C38 | Returned leaf parameters belong to the leaf that would be sampled | partial | index chase | true for the top-down structure; for the bottom-up structure a request for two or more rows always raises, and for one row only the mean is returned. Missing: differentiable mode |
| C39 | Projected RatNormal parameters respect their bounds | partial | bounds of the sigmoid | mean bounds equal to zero or given alone are not enforced, negative sigma bounds are accepted |
| C40 | Convolutional circuits are normalised and sample consistently | partial | the method of C01 and C13 on images | both halves for all configurations with channels[0] other than 1 and all leaves but Binomial; refuted for channels[0]=1 (every forward call raises) and for Binomial leaves (sampled images are rejected by forward). Law with exact Gumbel noise, and bounds in both directions with the guard eps |
| C41 | Leaf temperature and path temperature only rescale | proved | algebra | C13_exact_law covers all temperatures without evidence; with evidence the sums have temperature 1 (C14_exact_law). |
| C42 | The training sampler visits every index equally often | proved | blocks of the stream |  |
| C43 | Preprocessing for Gaussian leaves is invertible up to the quantisation level | proved | floor arithmetic |  |
| C44 | Piecewise linear leaves over a discrete domain have total mass one | partial | sums of tents | false for domains with gaps |
| C45 | Draws from a piecewise linear leaf follow its density | partial | law of the inverse transform | exact for whole pieces and for domains 0..m; false inside a piece and for other discrete domains |
| C46 | Mixture weights after initialisation are cluster frequencies | partial | counting | fewer weights than components if the last clusters are empty (refuted) |
| C47 | The likelihood returned by a mixture is a normalised density | partial | finite sums | true for one component; hard assignment to clusters does not give a normalised density for more (total mass 35/36 in the witness) |
| C48 | Automatic histograms use the number of bins of numpy's rule auto | proved | real arithmetic | exact real arithmetic |
| C49 | Differentiable sampling has the law of ordinary sampling | partial | Gumbel-max law, domination of measures | for all leaves but Binomial: with exact Gumbel noise the laws are equal; with the guard eps no event gets more than exp(eps*n) times its probability, and no probability changes by more than exp(eps*n)-1 in either direction. Refuted for Binomial leaves (clipped normal approximation: fractional values). Missing: class_index (raises or is C16) |
| C50 | Most probable explanation of a mixture | proved | per component C20 | greedy completion per component in the sense of C20 |
| C51 | Calls of a convolutional circuit are independent | partial | invariant over histories; witnesses | true for histories without evidence; a conditional call raises and leaves the caches enabled, after which earlier forward calls change or break sampling (refuted) |
| C52 | Convolutional sums sample with the weights of forward | partial | entries of the patches, Gumbel-max law | forward is correct for all sizes; sample normalises the logits over the rows of the image instead of the channels, so it is refuted (uniform for images of one row) and true only if the normalisers agree |
| C53 | Multivariate normal leaves define a density | partial | change of variables by the Cholesky factor, Tonelli over blocks | true for the top-down structure if the cardinality divides the number of features; other accepted configurations raise in every forward pass |
| C54 | Samples of multivariate normal leaves follow the density | partial | law of the path and change of variables; moment generating function for the witness | law of the whole batch for more than one repetition if there is one component per leaf, single features as blocks, or one group of blocks; with one repetition one value per block is returned instead of K (refuted), and with several groups features of one block are drawn from components of other blocks, which loses correlations (refuted by an expectation) |
| C55 | Marginalisation with multivariate normal leaves | partial | Tonelli over blocks; witnesses | a tensor of scopes integrates out all features of the touched blocks, so it is correct for unions of blocks and wrong for single features; lists and NaN entries raise |
| C56 | Einets with different leaf distributions per feature define a mixed density | proved | the einet is related to one with a single leaf distribution whose support and reference measure depend on the feature | hypothesis: the scopes are a partition of the features; the constructor checks only their total number (C32_refuted_coverage). NaN entries and marginalized_scopes may be combined |
| C57 | Samples of einets with different leaf distributions per feature | partial | the same relation, product laws of the parts | law of the model for the configurations in MirrorCfg, as in C13; C57_exact_law and C57_exact_given give the law for every configuration, class argument, temperature and mpe_at_leaves; missing: temperature_sums = 0, empty batches; given evidence also temperature_sums other than 1 |
| C58 | The reported test loss is the average negative log-likelihood of the data | partial | sums over batches by induction; law of total probability | missing: loaders with a batch of a single row, for which test() raises a TypeError (C58_refuted_single) |
| C59 | The classification loss is the cross entropy of the posterior over classes | partial | Bayes, algebra of logarithms; total mass of Lebesgue measure | holds for models_pl.py; false for main.py, whose loss is the one of the class-conditional likelihoods (C59_refuted_train: every classifier with continuous leaves has a row where it differs) |
| C60 | The loss of the generative model is the negative log-likelihood of the data | partial | Jensen for log, strict for the refutation | holds for one class; with several classes the loss is only an upper bound, strictly larger as soon as two classes differ on a row |
| C61 | Bits per dimension is a code length | partial | change of variables by scaling, Markov inequality | holds for continuous leaves (with the bound for uniform dequantisation noise in C61_noise); false for discrete leaves: the result is too large by log2 n_bins |
| C62 | Einets with conditional binomial leaves define a distribution over rows of counts | partial | row-wise reduction to an einet with ordinary binomial leaves, splitting of the sum over rows; witnesses | normalised if the conditioning features are in the second half of the features, which the code does not check (C62_total_refuted: total mass 2*sigmoid(1)); marginalisation is right for scopes without conditioning features and wrong for others (C62_scopes_refuted); NaN entries raise |
| C63 | Sampling with conditional binomial leaves draws the listed features given the others | partial | per row the conditional law of an einet with ordinary binomial leaves (C13), transferred by equality almost everywhere of the densities | law of the whole batch for the top-down structure, one class, configurations in MirrorCfg (as in C13) and scopes without conditioning features; false for scopes with conditioning features, whose old entries still set the logits (C63_scopes_refuted); always raises without evidence and with the bottom-up structure; mpe_at_leaves and temperature_leaves are ignored. C63_exact_law gives the law for every number of classes, configuration and tensor of scopes; missing: temperature_sums other than 1 |
| C64 | Calls treat tensors as values | proved | refinement: the model with storages simulates the one with values, by a frame invariant over histories of calls, views and assignments | forward, sample, mpe and reset_cache with storages, views and in-place assignments of the caller (Heap.lean) |
| C65 | Preprocessing a batch does not change the batch of the caller | partial | the assignment `data *= 255.0` on storages | holds for all leaves but Binomial; with binomial leaves the batch itself is multiplied by 255, again on every call (refuted) |
| C66 | What a model samples it also accepts | partial | `Full`: outcomes of the sampling program satisfy a property with total probability one, composed along the program (Accept.lean, AcceptMulti.lean); the draws of every leaf class are almost surely valid and its modes are valid | proved for Einet with one leaf class and with MultiDistributionLayer in the default mode, and for mixtures of Einets; for ConvPc except drawn Binomial values; with differentiable sampling and Binomial leaves it is false: positive probability that forward raises ValueError on the sample (refuted) |
| C67 | Images pass through the training module in both directions | partial | `makeEinet`, `getDataShape`, `litPreprocess` and `generateSamples` on top of the Einet (Lit.lean); the outcome of sampling with `mpe_at_leaves` consists of modes of the leaves with probability one (LitFacts.lean) | C67_data decides for every batch of images whether it is accepted: all with normal leaves, those of at most n_bits bits with binomial leaves, only black and white ones with categorical leaves; generated images proved right for binomial leaves; refuted: normal leaves (divided by 255 without having been multiplied), categorical leaves, fewer than 8 bits, synthetic data sets. Reals instead of floats: k/255*255 = k |
| C68 | Gaussian leaves initialised from data match the statistics of the data | partial | `initEinetStats` (LeafInit.lean) on tensors with Gaussian noise as draws; statistics of lists of rows, index arithmetic of the views, independence of the draws; decomposition of the variance within and between batches | law of the parameters for arbitrary batches of at least two rows; the means are right when the batch size divides the number of rows, the variance misses the variance between batches; refuted: means for a smaller last batch, variances for equal batches; the call raises for every data set whose size is one more than a multiple of the batch size, and for a single parameter |
| C69 | An Einet with piecewise linear leaves is a density model once initialised | partial | `PwlEinet` (Pwl.lean): the Einet of the constructor with its leaf distribution replaced by the stored functions; the exact density is the circuit over the interpolated functions, whose mass is one (C36); factors that do not depend on the component come out of the circuit; for discrete features the leaf meets the conditions of the general theorems on densities and samples | false as stated: outside the data the reported log-likelihood of a component is -300, so the reported values integrate to infinity over any single entry, and an empty cluster of a continuous feature reports likelihood one everywhere (both proved). Proved: initialisation, errors before it, the reported values agree with an exactly marginalised density wherever all components are positive and are bounded below by it everywhere, and for discrete consecutive values with smoothing the full claim; sampling for values 0, 1, 2, ... and configurations in MirrorCfg |
| C70 | Training, validation and test data are disjoint parts of the data set | partial | `getDatasets` (Data.lean) with the libraries as a parameter (`Sources`): permutations of index lists, rounding to even, statistics of columns; comparison of two tables for the absence of leaks | true for the images split by the code, the data sets that come in three parts, the binary data sets and the tables; false for synthetic data (validation is the test part), fake (all parts equal), svhn and lsun with a number of images ending in 5 (raises), digits (training data depend on the test part, no number of classes), fmnist-16 (no data), circles (not reproducible): all proved |
| C71 | Loaders visit every example once per pass | partial | chunks of lists; the stream of C42 | all parts but the last proved; the seed argument is ignored unless loop=True (proved), and both scripts use loop=False |
| C72 | Scaling a shape up and down again gives the shape back | proved | distance of the rounded number | for all rational factors of at least one; the opposite order loses the remainder (witness) |
| C73 | The evaluation reports averages over the parts of the data set | proved | `evalScript` (Evaluate.lean) composed of `getDatasets`, the loaders and the forward pass; a weighted average of batch averages is the average, invariant under permutation | the trainer averages the values of the batches weighted by the batch sizes; a part without examples is left out of the report |
| C74 | Reconstructions keep the given half of the image | partial | `reconstructions` (Reconstruct.lean); C14 and C15 for evidence of rank 4; arithmetic of row-major positions | proved for images with one channel and at least two columns (law: conditional law of the model for the structures of C14, exact law for all structures and temperatures of the leaves in C74_exact_law); false for images with several channels and for tables, where main.py raises an IndexError (C74_fail) |
| C75 | Most probable explanations with multivariate normal leaves | partial | `MvnEinet.sample` in MPE mode (Mvn.lean); caches of the forward pass by a fictitious leaf with the block densities (MvnEvidence.lean); greedy choices as in C20 | proved: determinism, greedy choices, known entries kept, means of the chosen components if there is one component, one region or blocks of one feature; false with one repetition (one value per block, or an exception given evidence), with several components and regions (component of block f % B instead of f / K), and for blocks known in part (the correlation is ignored) |
| C76 | Sampling given evidence with multivariate normal leaves | partial | caches of C75; expectation of products of test functions along the path (MvnGiven.lean), integrals over whole blocks, then the law of the batch as a product measure | proved: known entries kept; exact law for every tensor of scopes; conditional law if the listed features form whole blocks; false for blocks known in part (the correlation is ignored); one repetition and several components with several regions as in C54 |
| C77 | Learning rate of every epoch | partial | the schedulers as state machines, the milestones in double precision with rounding to nearest even (Schedule.lean); induction over the epochs, bounds for the rounding | exact rate of every epoch for fewer than 2^49 epochs; false for 90 epochs (0.7 * 90 is rounded below 63, one epoch early) and for one epoch (a hundredth of the rate from the start); the rate is a real number, the milestones are computed in double precision |
| C78 | Saving and restoring a model | partial | `stateDict` and `load` (StateDict.lean) over the registered parameters and buffers of every module; closed form of the constructor (StateDictBuild.lean), from which names and shapes determine all sizes; equality of the models up to unused modules | round trip for the same configuration up to dropout; the general theorem and the refusal of other sizes leave out files between depth 0 and positive depth (C78_refuted_depth: accepted without an error); keyword arguments of the leaves are not saved (C78_refuted_trials); leaf classes Normal, RatNormal, Binomial, Bernoulli, Categorical |
| C79 | Log-likelihoods of discrete data are logarithms of probabilities | proved | C02 and monotonicity of product measures | from the marginals of C02: the point mass at a value of the support is below the counting measure |
| C80 | Number of parameters | proved | `countParams` (ParamCount.lean) over the registered parameters with gradient; closed form of the constructor, sums of powers of two | closed form of the constructor; leaf classes Normal, RatNormal, Binomial, Bernoulli, Categorical |
| C81 | Runs do not overwrite each other's results | partial | file system as a partial function on paths, `makeResultsDir` (Results.lean); invariants of the calls, histories with arbitrary growth in between | true for the first two runs with the same arguments; the third run always gets the directory of the second and overwrites its files (refuted for all arguments); different tags can share a directory (refuted) |
| C82 | Seeds of processes and loader workers | partial | `seedAll`, `startWorker` (Results.lean); arithmetic modulo 2^31 | workers: proved, with the exact bound 2^30 on their number; seed_all_rng without a seed always raises (refuted) |
| C83 | A model trained by main_pl.py can be loaded for evaluation | partial | `mainFiles` (Results.lean): computations on files whose effects survive exceptions; invariant by induction over the runs | the checkpoint is saved as model.pt, but load_and_eval looks in a directory where no run writes and raises after every history of runs (refuted) |
| C84 | Saving and restoring mixtures | partial | `MixNet` (MixState.lean), refines `Mixture` (`mixture_init`); round trip of the components by C78, congruence of the methods of `Mixture` | exact condition under which the file is accepted; then all methods agree. False for data with several channels (the buffer of a new mixture is too small) and if no training row is in the last cluster. Einet components; leaf classes as in C78 |
| C85 | Only differences of raw weights matter | proved | relations `Plus`/`Close` between the logits and weights of the two models through all tensor operations of the layers (Shift.lean), `Rand.Alike` between the two random programs | exact arithmetic on the extended reals; in floating point the results may differ by rounding |
| C86 | An einet is a mixture of independent features | proved | weights of the induced trees from the choice of children at every node, by induction on the layers; bounds of the weighted average by its smallest and largest term |  |
| C87 | The training losses favour the true distribution | proved | Gibbs inequality from log r <= r - 1 in extended nonnegative reals (Gibbs.lean), with C01 for the total mass of the other density and C58/C59 for the values of the losses | expectations compared through positive and negative parts, so no integrability is assumed; classification losses for single labelled rows |
| C88 | Log-likelihoods and training losses are smooth functions of the parameters and of the inputs | proved | families of models over a normed space with constant structure; nonnegative numbers with smooth real representatives are closed under the sums and products of every layer (induction over the layers and over the construction), softmax weights and leaf densities are smooth, positivity (C01/C03) gives the logarithm | real arithmetic: rounding of floats is not modelled; dropout off |
| C89 | A training run of main.py makes one optimiser step per batch with the loss of the current model | partial | construction, `train` and the epoch loop of main.py with an arbitrary optimiser as a state machine; specification is an inductive relation of steps with losses given by row probabilities; induction over batches and epochs, using that acceptance and finiteness (C01, C35, C67) do not depend on the parameter values | holds for top-down structures, the four leaf types with a model, up to 8 bits and a nonzero log interval; false for --structure bottom-up, --dist multivariate_normal and --log-interval 0, which the command line offers; the optimiser is an arbitrary function, gradients are not modelled |
| C90 | Training a classifier also fits the class frequencies used for sampling | partial | two builds that differ in the class weights differ in the field classRoot only, which forward never reads; induction over the steps of C89; law of samples from C17 | false: no loss depends on the weights of the classes, so every training run keeps the random weights of the initialisation (proved for all runs; witness with a single class in the data). Proved instead: the law of samples after training. Law of samples for MirrorCfg as in C13 |
| C91 | Gradients of the weights of repetitions are responsibilities minus weights | proved | the output as function of the raw mixing weights is the logarithm of a softmax mixture of numbers that do not depend on them (from the density polynomial of C01/C03); derivative of log-sum-exp; optimality from log x <= x - 1 | real arithmetic; derivatives of the exact function, not of the floating point program; dropout off; the optimum is stated for one class |
| C92 | Parameters of missing entries are not trained | proved | the constructor with another leaf differs only in the leaf (build_otherLeaf); the density polynomial uses the leaf density of an entry only where the entry is known | leaf classes Normal, RatNormal, Binomial, Bernoulli, Categorical; dropout off; derivatives of the exact function, not of the floating point program; MultivariateNormal is excluded since its entries are correlated |
| C93 | Gradients of leaf parameters are responsibilities times gradients of the leaf | proved | the density as mixture over repetitions and components with weights that do not depend on the leaf (topP_expand, as in C86); log-densities written down from the documentation (leafLog) and proved equal to the leaf model; derivative of log-sum-exp; regrouping by component | leaf classes Normal, RatNormal (general form), Binomial, Bernoulli, Categorical; dropout off; derivatives of the exact function, not of the floating point program; the stationary points are stated for one class and Normal means |
| C94 | Gradients by the inputs point to averages of means | proved | as C93 with the row as variable instead of the parameters; strict monotonicity from the sign of the derivative on the half line | Normal leaves; dropout off; the exact function, not the floating point program |
| C95 | Convolutional circuits of main_pl.py can be trained on every data set | partial | from C40: which sizes fit, finite log-likelihoods, sampling; the table of data sets is searched completely for the default circuit | loss for exactly the sizes that fit, list of data sets for the default circuit; refuted: mnist with the default circuit, one value per class; with channels[0] = 1 every step raises; generated images are data again for binomial leaves only |
| C96 | Mixtures of convolutional circuits | partial | the lemmas on grouping and reordering of C28 and C30 with images instead of rows, the results of C40 for the components; with evidence the first component called raises | forward in input order and sampling without evidence for all sizes that fit; with evidence every call raises (refuted); law of one sampled image for exact Gumbel noise; with channels[0] = 1 and for sizes that do not fit every forward call raises |
| C97 | Log-likelihoods and losses of convolutional circuits are smooth functions of the parameters and of the inputs | proved | families of circuits over a normed space with constant structure, as in C88: nonnegative numbers with smooth real representatives are closed under the steps of the circuit (induction over the layers of both structures), the result is the logarithm of a positive one | real arithmetic: rounding of floats is not modelled; images of positive size and positive channels (Usual) |
| C98 | Log-likelihoods of mixtures are smooth functions of the parameters of the components | proved | each row is evaluated by the component of its cluster (C28, C96), whose log-likelihood is smooth in its parameters and in the row (C88, C97); with fixed data and centroids the cluster is constant | real arithmetic: rounding of floats is not modelled; mixtures of convolutional circuits: images of positive size that fit the circuit and channels[0] > 1, since otherwise forward raises (C96) |
| C99 | Only differences of raw weights matter in convolutional circuits | proved | the logarithmic softmax over the children absorbs the shift of each node, as tensors and for every index; induction over the layers of both structures; for samples the selected weights are a one-hot sum of finite raw weights, whose shift does not depend on the child, so every draw has the same weights (finite indices are an invariant of the loop over the layers) | real arithmetic: rounding of floats is not modelled, so in float32 huge shifts lose digits; for sampling temperature_sums is not 0 |
| C100 | Only differences of raw weights matter in mixtures | proved | the assignment of rows to components and the draw of components do not read the raw weights; each component call is replaced by C85 or C99, and the loops over the clusters keep the relation of equal draws with equal weights | real arithmetic: rounding of floats is not modelled; temperature_sums is not 0 for sampling |

## 6. Where the code does not do what the property says

Each item is proved (`..._refuted...`); the restricted version that holds is proved beside it.

* **C06, C27** `EinetConfig.assert_valid` accepts configurations that cannot be built (bottom-up with depth 0; negative depth) and
  a negative dropout.
* **C07** images whose height and width do not multiply to `num_features`, but whose total size divides, are accepted.
* **C11** `EinsumLayer`: a region whose children are all `-inf` gives NaN.
* **C12** `FactorizedLeafSimple` can leave a group without features.
* **C13, C14, C34** `FactorizedLeafSimple` unfolds the indices with `expand` in the wrong order when sampling, so that features
  are sampled with the component of another group. With several repetitions and `2 ** depth == num_features`,
  `FactorizedLeaf.forward` returns before it assigns features to their random groups, but the sampler uses these groups.
  Sampling and forward agree exactly in the remaining configurations (`MirrorCfg`, `C34_exact`).
* **C16** a list as `class_index` needs a matching `num_samples`; in differentiable mode every `class_index` raises.
* **C17, C20** the class root samples with its random `logits`, not with the uniform prior stored in `weights`; with evidence the
  class is not conditioned on it.
* **C18, C19, C51** `sampling_context` has no `try/finally`: after an exception the caches stay enabled and the global generator
  keeps the seed. `ConvPc.sample(evidence=...)` always raises this way and contaminates later calls.
* **C21** greedy MPE is not a maximum.
* **C23** one-hot indexing multiplies entries that are not selected by zero; infinities give NaN.
* **C24** `Bernoulli` leaves cannot be sampled (signature of `_get_base_distribution`).
* **C25** dropout can remove all children: `SumLayer` tests the wrong dimension, `LinsumLayer` raises on the redraw,
  `LinsumLayer2` drops whole products.
* **C26, C39** bounds equal to zero are ignored (`if lower_bound:`).
* **C29** `Mixture.forward` drops `marginalized_scopes` for its components. Negative scope numbers are not removed for the clustering.
* **C30** `Mixture.sample` reorders rows with the sorting permutation instead of its inverse; MPE returns one row.
* **C32** `MultiDistributionLayer.get_params` is in scope order, not feature order; coverage of the scopes is not checked.
* **C35** 8-bit images are not rounded; `get_distribution` gives `Categorical` one category too few.
* **C36, C44, C45** piecewise linear leaves: floor at -300, NaN for empty clusters, gaps in a discrete domain, draws that are not
  linear inside a piece.
* **C38** `return_leaf_params` with the bottom-up structure raises for two or more rows and returns only the mean for one.
* **C40** `ConvPc` with `channels[0] = 1` always raises; with Binomial leaves it samples values that `forward` rejects.
* **C46** fewer mixture weights than components if the last clusters are empty.
* **C47** hard assignment to clusters is not a normalised density.
* **C49** `Binomial` leaves in differentiable mode sample a clipped normal.
* **C52** `SumConv` samples with logits normalised over the rows of the image.
* **C53** `MultivariateNormal` leaves: if the cardinality does not divide `num_features` every forward pass raises (reflection padding of
  a 3-d tensor on the wrong dimension); with the bottom-up structure and cardinality above 1 as well.
* **C54** with one repetition `sample` returns one value per block; with several repetitions `FactorizedLeaf.sample` repeats the indices
  of the blocks in the wrong order (`repeat` instead of `repeat_interleave`), so that features of one block come from different
  components.
* **C55** `marginalized_scopes` is divided by the cardinality: marginalising one feature removes its whole block; lists and NaN raise.
* **C58** `test` in main.py raises a TypeError if a batch has a single row: `lls.squeeze().tolist()` is a number.
* **C59** main.py computes the posterior, throws it away and uses `nll_loss` on the class-conditional log-likelihoods.
* **C60** `SpnGenerative` averages the log-likelihoods over the classes instead of taking the log of the average.
* **C61** `calc_bpd` subtracts `log(n_bins)` per pixel also for discrete leaves (both branches are the same).
* **C62** `ConditionalBinomial`: features of the first half may be conditioned on themselves, which gives no probability distribution;
  marginalising a conditioning feature does not remove it; missing values raise, also in marginalised features; an odd number of
  features is accepted by the constructor and raises in every forward pass.
* **C63** `ConditionalBinomial.sample`: always raises without evidence (`ctx.evidence` is `None`) and with the bottom-up structure
  (`gather` with an index of one dimension less); `mpe_at_leaves` and `temperature_leaves` have no effect; the old entries of
  conditioning features count although they are listed in `marginalized_scopes` and replaced.
* **C65** `LitModel.preprocess` (models_pl.py:120-125) with binomial leaves: `data *= 255.0` changes the batch of the caller; a
  second call on the same batch multiplies again.
* **C66** differentiable sampling with `Binomial` leaves draws from a clipped normal (binomial.py:52-58), so with positive probability an entry is no integer and `forward` on the sample raises `ValueError` (`C66_refuted_differentiable`).
* **C67** `generate_samples` (models_pl.py:201-221) divides by 255 for every leaf distribution, but `preprocess` multiplies only for
  `Dist.BINOMIAL`: with normal leaves whose means are pixel values no generated pixel is brighter than 1/255
  (`C67_refuted_normal`; the logged grid is normalised, which hides it).  With `Dist.CATEGORICAL` images are not scaled to integers, so
  every batch with a grey pixel raises `ValueError` (`C67_refuted_categorical`).  With binomial leaves and `n_bits < 8` the data is scaled
  to 0..255 nevertheless and brighter pixels raise (`C67_refuted_bits`).  The data sets `synth-*` have shape (2, 1, 1), i.e. two channels
  of one pixel, for which no Einet can be built (`C67_refuted_synth`).
* **C68** `init_einet_stats` (sampling_utils.py:298-358) averages the statistics of the batches with equal weights: a smaller last batch
  (the loader has `drop_last=False`, data.py:874) counts too much (`C68_refuted_mean`), and the variance between batches is lost
  (`C68_refuted_variance`).  The variance of a batch of one row is NaN, `torch.normal` then refuses the standard deviation, so the call
  raises for every data set whose size is one more than a multiple of the batch size (`C68_remainder_one`), after having overwritten the
  means.
* **C69** `PiecewiseLinearDist.log_prob` replaces `-inf` by -300 (piecewise_linear.py:393): a value outside the range of the data has
  likelihood `e^-300` times that of the other entries instead of zero, and the reported likelihood integrates to infinity over every
  entry (`C69_refuted_mass`).  A continuous component whose cluster is empty stores NaN, which the leaf layer reads as a missing value:
  it reports likelihood one everywhere (`C69_refuted_empty`).  If only cluster 0 is used, the single count is broadcast and all stored
  weights are one.  A negative `alpha` is accepted, because the bound 0.0 is falsy (see C26).
* **C70** Synthetic data sets are generated three times from `random_state=0`, so validation and test data are identical
  (`C70_refuted_synth`); `synth-circles` has no seed and changes from call to call (`C70_refuted_circles`).  `fake` uses the same
  3000 images for all parts (`C70_refuted_fake`).  For `svhn` and `lsun` both lengths are rounded, `round(N * 0.9)` and
  `round(N * 0.1)`: for every `N` ending in 5 both round to the even neighbour and `random_split` raises (`C70_refuted_both`; the
  published sizes do not end in 5).  `digits` divides by the largest entry of the whole table, test rows included
  (`C70_refuted_leak`), and has no entry in `get_data_num_classes`; `fmnist-16` has a shape and classes but no data
  (`C70_refuted_names`).  `kddcup99` fits its one-hot encoder before the split.
* **C71** The seed given to `build_dataloader` is only used with `loop=True`; both scripts pass `loop=False`, so the order of the
  training examples follows the global generator (`C71_refuted_seed`).  An endless loader has no `len`.
* **C74** `main.py` numbers the positions over all channels, but `marginalized_scopes` counts the pixels of one channel: with
  several channels (cifar, svhn, celeba, ...) the indices exceed the number of features and the script raises an `IndexError` after
  the training; for tables (width 1) `round(0.5) = 0` gives an empty list and the same error (`C74_fail`).  The number of rows is
  taken from the width; all image data sets of the repository are square.
* **C75** With multivariate normal leaves and cardinality K >= 2: one repetition gives one value per block, and an exception with
  evidence (`C75_refuted_one_repetition`); `repeat` instead of `repeat_interleave` in `_index_leaf_samples` takes the features of a
  block from different components (`C75_refuted_repeat`); known features of a block do not influence the rest of the block, which is
  filled with the unconditional mean (`C75_refuted_correlation`).
* **C76** With multivariate normal leaves, the features to fill in are drawn jointly with the rest of their block, ignoring the known
  values of that block, which are then written back: the result does not follow the conditional distribution, even in the most
  simple model (`C76_refuted_correlation`).
* **C77** The first milestone `int(0.7 * epochs)` is one epoch early if the number of epochs is a multiple of 10 and some power of
  two lies between 70 percent (included) and 80 percent (excluded) of it, for example 90, 170 and 180 (`C77_exact`,
  `C77_refuted_ninety`).  A training of one epoch runs with a hundredth of the configured rate (`C77_refuted_one`).
* **C78** Keyword arguments of the leaves are not part of the state dict: a model with `Binomial` leaves of fewer trials (and likewise
  with other bounds of `RatNormal`) loads the file without an error and behaves differently (`C78_refuted_trials`).  A file that is
  refused has already overwritten the entries whose shapes agree, for example the leaves (`C78_failed_load_overwrites`).  The dropout
  of the configuration is replaced by the saved one (`C78_restores_partial`).  For one repetition and an even number of features a
  file of `depth = 0` is accepted by a model of `depth = 1` (`C78_refuted_depth`).
* **C80** `count_params` includes one number per class of `_class_sampling_root`, which the forward pass never reads.
* **C81** `make_results_dir` adds `_2` once only, so the third run with the same arguments gets the directory of the second; `remove_if_exists` never removes anything.
* **C82** `seed_all_rng()` raises an AttributeError (`datetime` is the module); the documented random seed is never used.
* **C83** `load_and_eval=True` always raises: checkpoints are saved as `model.pt` and looked for in `tb/version_0/checkpoints`.
* **C84** The buffer `centroids` of a new Mixture has `num_features` columns, the one of an initialised Mixture `num_channels * num_features`: for several channels the state dict can never be loaded. With an empty last cluster `mixture_weights` is shorter than the buffer, with the same effect.
* **C89** `main.py --structure bottom-up` stops with an `AttributeError` at main.py:196 (`model.leaf.base_leaf`), `--dist multivariate_normal` with a `NameError`, `--log-interval 0` with a `ZeroDivisionError` after the first step. `--dry-run` ends the epoch after the first logged batch, not the run. `--dropout` and `--mixture` are ignored.
* **C90** The logits of `_class_sampling_root` are trainable parameters, but no loss depends on them: after any training, samples without `class_index` use the class weights of the random initialisation.
* **C95** The circuit of `conf/config.yaml` (`channels: [8, 16, 16, 16]`, top-down) only accepts images whose sides are multiples of 16: with `dataset=mnist`, `fmnist`, `digits`, the tabular and the synthetic data sets it is constructed, and the first training step raises. `num_classes` of a `ConvPc` is never read; it has no `posterior`, so `classification=true` with `model=convpc` always raises, and `generate_samples(differentiable=True)` passes an argument that `ConvPc.sample` does not have.
* **C96** A `Mixture` of `ConvPc` circuits cannot be given evidence: `sample(evidence=...)` and `mpe` raise for every mixture and every evidence, because `ConvPc.sample` does.

## 7. Axioms per theorem

A theorem not listed depends on `propext`, `Classical.choice` and `Quot.sound`.

* propext: `C82_refuted_none`, `C83_load_partial`.
* propext, Classical.choice, Quot.sound: the other 468 theorems.
* propext, Quot.sound: `C42_refused`, `C82_seeded`.
