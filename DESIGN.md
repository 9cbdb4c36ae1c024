# Formal model of bayespy in Lean 4: design

Target: bayespy as pinned in `/repo` (read as text, never executed).
Properties: `properties.jsonl`.  Status per property: `MANIFEST.json`.

## 1. Trusted base

* Lean 4.33.0's kernel.  Every theorem depends on a subset of the three standard
  axioms `propext`, `Classical.choice`, `Quot.sound` (checked with `#print axioms` by
  `vcheck`).  No axioms of our own, no `sorry`, no `native_decide`, no `bv_decide`.
* Mathlib (imported module by module) for algebra, lists, finite sums, matrices, reals.
* The hand translation Python -> Lean.  Each Lean definition in `Verif/Model/*` cites
  the file and the lines it models, and says what was simplified.

### Modelling conventions (what is *not* modelled)

* **Numbers.**  Floating-point values are elements of an abstract commutative
  (semi)ring, field or of `ℝ`; rounding, overflow, NaN are not modelled (NaN is
  modelled as "missing" where the code treats it so).  Special functions that
  Mathlib lacks are abstract function parameters.
* **Arrays.**  An ndarray is a shape plus a function from multi-indices to values.
  Views/aliasing/dtype/memory layout are not modelled.  NumPy primitives
  (`np.sum`, `np.einsum`, `np.transpose`, `np.reshape`, basic slicing) are modelled by
  their documented meaning and are part of the trusted base.
* **Exceptions** are values (`Except`/`Option`); printed diagnostics are dropped.
* **Plates in distribution formulas.**  The formulas of the distributions act
  independently on each plate; they are modelled for one plate with all
  variable dimensions present.  Broadcasting over plates is treated once and for
  all in the array model (`Shape`, `NDArray`, `Message`).
* **Object identity** is modelled with node identifiers (`Nat`).
* Plotting, GP nodes, command line handling, HDF5 byte format, SciPy optimisers and
  BLAS/LAPACK are not modelled (their contract is a hypothesis where needed).

### Layout

* `Verif/Spec/*`   small specifications, written without the model's helpers;
* `Verif/Model/*`  the model of the code, function by function, with citations;
* `Verif/Lemmas/*` proofs' helper lemmas;
* `Verif/Props/*`  the property theorems, each with a concrete non-trivial instance
  (an `example`) that meets its hypotheses.
* `seeded/LOG.jsonl` log of mutation tests of the model (wrong programs on purpose).

Theorem names begin with the property id (`C01_...`).  Suffix `_partial` marks a
theorem which covers only a part of the property; `_refuted`/`_counterexample` marks a
proof that the code violates the property as stated.

## 2. Plan per property

| id | what is modelled | how it is proved |
|----|------------------|------------------|
| C01 | `broadcasted_shape` with its two nested loops on tuples with negative indices | loop invariant per axis; refinement to NumPy's rule stated with right-aligned axis lengths |
| C02 | same | from C01's characterisation: the rule only depends on the set of arguments |
| C03 | `is_shape_subset` loop | iff with the rule; order laws |
| C04 | `broadcasting_multiplier` | induction over axes; sums over boxes |
| C05 | `sum_multiply_to_plates` (both collapse stages) | induction over axes, distributivity |
| C06 | `sum_multiply` (axis normalisation, einsum meaning, keepdims) | refinement; disagreements recorded (out-of-range axes are silently ignored; scalar axis with `sumaxis=False` fails) |
| C07 | `sum_to_shape`, `repeat_to_shape` | adjointness by induction; shape claim false if X has fewer axes: refutation + partial |
| C08 | `moveaxis` in-place slice arithmetic | list permutation lemma for all ranks and signs |
| C09 | `Node._message_to_parent` | reduction to C05 and C07 |
| C10 | `Node._mask_to_parent` | boolean version of C05 |
| C11 | `Take` with one take axis, `put_simple`-based scatter add | finite sums, fibres of the index map |
| C12 | `Slice.__init__`, `_plates_from_parent`, `__reverse_indexing`, moments | per axis: Python slice semantics as arithmetic progression; adjointness |
| C13 | `tile` reshape arithmetic | div/mod index lemma per axis, induction over axes |
| C14 | `Concatenate` offsets, message split, mask split | list segments; the mask split is wrong in the code: refutation + partial |
| C15 | `Gate` moments and messages | bilinear sums |
| C16 | `Add` moments/messages for n inputs | double sums, independence as product moments |
| C17 | `ConcatGaussian` | block sums |
| C18 | `SumMultiply`: key strings, constructor, moments, messages | `np.einsum` as a sum over assignments of named axes; renaming = reindexing; messages by splitting the sum into kept and summed axes |
| C19 | converters/wrappers | finite sums |
| C20 | formulas of each distribution, one plate (`Model/Dist`, `Model/GaussianDist`, `Model/MixtureFamily`, `Model/CategoricalChain`, `Model/GaussianChain`, `Model/VaryingChain`) | the message is the unique coefficient vector of the expected log-density (`Spec.IsCoefficient`) |
| C21 | formulas with `Real.log`, factorials, abstract gammaln | algebra over ℝ |
| C22 | moments from phi | derivative of `g` in every direction (`Spec.IsMinusGradient`); exact sums and integrals |
| C23 | networks of exponential family nodes (`Model/Network`): update and lower bound; everything between two stochastic nodes is one adjoint pair of maps | Gibbs' inequality for every family (`Props/Gibbs`: normalised densities, eigenvalues, stick-breaking); induction over update sequences; plate multipliers and moments restricted to an invariant set (`Model/PlateMultiplier`, `Props/PlateMultiplier`); complete models: normal (`Props/NormalModel`), factor analysis with missing values (`Model/FactorModel`, `Props/FactorModel`), linear state-space model (`Model/StateSpace`, `Props/StateSpace`), Gaussian mixture with Wishart precisions and missing vectors (`Model/MixtureModel`, `Props/MixtureModel`), hidden Markov model (`Model/HiddenMarkov`, `Props/HiddenMarkov`) |
| C24 | gradient, set/get parameters, update | linear algebra |
| C25 | `observe`, `_set_moments`, histories | invariant by induction over operations |
| C26 | categorical fixed moments | decision logic |
| C27 | `alpha_beta_recursion` in the exp-domain | induction over the chain, sum over all paths |
| C28 | same | corollary of C27 |
| C29 | `block_banded_solve` forward/backward recursion over matrix blocks | induction over blocks |
| C30 | same | induction; block LDL factorisation |
| C31 | registration of children (`Model/Graph`) | invariant over construction histories: the registered edges are the closure of the stochastic edges; failing plate check leaves a phantom child: counterexample |
| C32 | `_get_id_list` and the check in `Node.__init__` | iff with paths; `Concatenate` is exempt by design |
| C33 | `_update_mask` propagation, masks in an abstract join-semilattice | one update repairs all masks it invalidates; uniqueness by induction on the age of nodes |
| C34 | `delete` with the set-mutation semantics | refutation (RuntimeError as soon as there is a child) + partial |
| C35 | BFS in `get_converter` | invariant of BFS, termination measure; partial: only direct bases are explored |
| C36 | `VB.update` loop | induction over iterations |
| C37 | `_append_iterations`/`_end_iteration_step` | invariant |
| C38 | `save`/`load` on a key-value file | round trip; autosave index off by one: refutation + partial |
| C39 | `save` as a sequence of file writes with crash points | refutation; partial for completed saves |
| C40 | `VB.__init__` name check | refutation (check never fires) + partial |
| C41 | dedup and sum | list lemmas |
| C42 | `optimize`, `pattern_search` | invariant over steps |
| C43 | `logsumexp`, `normalized_exp` | reals |
| C44 | `unique` | list induction |
| C45 | integer helpers | integer arithmetic |
| C46 | `rotate`, `rotate_matrix`, `translate` of each Gaussian node (`Model/Rotate`) | matrix algebra; one axis of an array and chains by Kronecker products |
| C47 | `random.intervals` | list/nat arithmetic for every draw |
| C48 | `block_banded` | block index arithmetic |
| C49 | plate loops of `chol_solve` | refutation for broadcast plates + partial |
| C50 | mixture formulas | finite sums; cluster plate not last: refutation + partial |
| C51 | `mean` | sums with missing values |
| C52 | autosave in `_end_iteration_step` | frames of the steps |
| C53 | `set_annealing` and the following iteration | convergence flag |
| C54 | success of `block_banded_solve` | Schur complements, block LDL factorisation |
| C55 | `_message_from_children` | induction over the children |
| C56 | `Node._compute_message` | same splitting of sums over named axes as C18 |
| C57 | `compute_gradient`, `get_gradient` | derivative of the moments along lines and of the lower bound (`bound_setPhi`); Γ is analytic, trigamma positive by convexity and recurrence |
| C58 | `RotationOptimizer.rotate`, `RotateGaussianARD` | entropy and prior terms of one block as functions of R (`ard_terms`, `ardBoundUpdate_eq`), likelihood term invariant because (R⁻ᵀw)ᵀ(Rx) = wᵀx, bound of the network as a sum (`fa_bound`) |
| C59 | cost function of `RotationOptimizer.rotate` | derivatives along curves: log det, quadratic terms, log of the rates; chain rule through R⁻ᵀ |
| C60 | `GammaShape`, `Concentration` (`gamma.py`, `dirichlet.py`) | `log Γ` lies above its tangents, digamma is an increasing bijection; Minka's surrogate for one turn; concavity of the Dirichlet normaliser; monotone iteration and Tarski's fixed point argument |
| C61 | random() draws from the node's distribution and leaves the node alone | volume of the set of uniform draws that give each category; change of variables for the Gaussian; densities of the generators of NumPy against exp(logpdf); refutations with concrete parameters |
| C62 | the checks of observed and initial values (`Model/Support`): arrays with integer types that wrap, floats with NaN and infinities | decision logic per family; factorials for f; refutations with concrete arrays |
| C63 | Marginals of Gaussian-gamma nodes | `Model/Marginals`, `Props/Marginals`: marginalisation of Gaussian densities through the Schur complement, Tonelli, and the gamma integral |
| C64 | Unit plate axes of the parents of chains | `Model/ChainArrays`, `Props/ChainArrays`: the formulas on NumPy arrays compared with those for one plate in `Model/GaussianChain` |
| C65 | Predictive density of a mixture | `Model/Integrated`, `Props/Integrated`: the result compared with `log Σ p exp` of the expected log-density |
| C66 | Bound of the rotation of Gaussian Markov chains | `Model/TransformChain`, `Props/TransformChain`: the lower-bound terms of the rotated states compared with the computed bound, up to a constant |
| C67 | Gradient of the rotation cost of Gaussian Markov chains | `Props/TransformChainGradient`: derivatives along curves of rotations and plate rotations, compared with the returned arrays |
| C68 | Rotation of the complete linear state-space model | `Model/StateSpaceRotation`, `Props/StateSpaceRotation`: contributions of all nodes after the rotation collected into the terms of C58 and C66 |
| C69 | plate maps of the distributions and the plates set up by the constructors | maps as functions on shapes; a soundness predicate which mixtures preserve, so that mixtures of mixtures are covered |
| C70 | Spec relation `Dist.Uses` between plates of the node and elements of the parent; the code is a chain of array operations each of which carries the mask along such a relation, and the relations compose | Model/Weights.lean, Props/Weights.lean |
| C71 | the multiplier which fits is defined by the plate maps with complete own axes of length one; compared with the broadcast of the raw multipliers | Model/Multipliers.lean, Props/Multipliers.lean |
| C72 | utils/random.py densities and entropies | Gaussian integrals from the exact moments of the standard normal, gamma integrals from the Mellin transform of log |
| C73 | utils/random.py covariance, correlation, svd, sphere; misc.dist_haversine | equivalences for covariance, characteristic polynomial for svd, Lebesgue measure for sphere, unoriented angle for the distance |
| C74 | misc.invpsi as it is computed (C60 uses the exact inverse) | digamma is concave, and convex in the reciprocal of its argument, by its series; so a Newton step squares the relative error |
| C75 | networks of maximum likelihood nodes and functions as numbered nodes, the bound as a differentiable function of all values | strong induction for the derivatives of the values, recursion depth lemma for the messages, sums exchanged |
| C76 | arrays with row-major reshape; multi-indices as lists, matrices indexed by them | positions of blocks of multi-indices multiply out; the numbering is a bijection, so matrices transfer to Fin n where C49 and the Cholesky lemmas apply |
| C77 | covariance functions | direct; Schur product theorem and power series for positive semidefiniteness, Vandermonde for definiteness |
| C78 | the sums of setup as functions of the moments of B and of the weights or probabilities | a lemma on the terms of rotated chains by the sums of the rotated dynamics, Kronecker products for the axis of the weights, C66 and C67 for the rest |
| C79 | arrays over plates and axes; each function equals the matrix operation at every plate | broadcasting of blocks of axes, sums over multi-indices, induction over the loop of `_dot` and over the factors of `dot` |
| C80 | Gaussian and GaussianARD on whole arrays: plates that broadcast, any variable axes | `GaussianMomentsOn` states the equations on one plate; a calculus of plate operations (`po_*`) carries C76 and C79 through the code; reshaping is an equivalence of indices; gradients come from C57 |
| C81 | Gaussian-gamma, Wishart and wrappers on whole arrays | array calculus of C79/C80, one statement per formula on every plate |
| C82 | Rotations and translations on whole arrays | einsum with ellipsis proved once, then one statement per method on every plate |
| C83 | Lower bound and log density of a node on whole arrays | floats with NaN and infinities as entries; one statement per plate, then the sum of C04 |
| C84 | Gamma, Poisson, binomial, Dirichlet and multinomial formulas on whole arrays | reductions over the last axis proved once, then one statement per method on every plate |
| C85 | `block_banded_solve` and `compute_moments_and_cgf` of chains on arrays with plates | simulation: each plate of the array recursion runs the one-plate recursion of C29/C30/C54 |
| C86 | constants made from arrays for the classes named in the statement; set_value | the constructor reads the plates from the first moment; shapes and values come from C76, C79, C62, C26 and C03 |
| C87 | `alpha_beta_recursion` on arrays with plates, -inf and NaN | per-plate invariants of both passes with NaN, then every step of the array recursion does the per-plate step on each plate; path sums from C27 |
| C88 | Ellipses, opacity, contour tables, error bands and Hinton squares against the curves and areas they stand for | eigenvector algebra in two dimensions, index arithmetic of row-major tables |
| C89 | Nested mixtures of MultiMixture against sums over all clusters with products of probabilities | induction over the variables with C50 at every level |
| C90 | Bound of every network against the integral of its joint density over the unobserved variables | the log joint is affine in the statistics of each variable, so its expectation under the approximation is its value at the moments; Jensen with exp(x) ≥ 1 + x |
| C91 | `update(repeat=None)` ends (`Props/Termination.lean`, `Props/TerminationModels.lean`, `Props/TerminationChain.lean`, `Props/TerminationMixture.lean`, `Props/TerminationHidden.lean`) | The engine of `Model/Engine.lean` on a network of `Model/Network.lean` (`Model/EngineNet.lean`): monotone bounds (C23) below a number converge; the relative change then falls below the tolerance unless the limit is zero; the evidence (C90) of the normal model is bounded with the gamma integral; in factor analysis the part of every variable but the noise level is not positive, and the noise level is compared with its distribution given observations without error; in the state-space model the determinant of the precision of the chain is at least that of its first state, so the part of the chain is not positive either; in the Gaussian mixture model the geometric means of the probabilities have a sum of at most one, and each precision matrix is compared with its distributions given no and given all observations, in the ratio of the share of its cluster; in the hidden Markov model the same holds for the sum over all paths, by induction over time |

## 3. Mutation tests (`seeded/LOG.jsonl`)

Each line is one wrong edit of the model, made in a scratch copy.  `failed` lists the
declarations that stopped compiling.  This alone is weak evidence: a proof script can break
although the theorem is still true, and when a helper lemma fails the modules above it are not
rebuilt.  The field `evidence` therefore says what is known:

* *claim instance evaluated*: a concrete instance of the English claim was evaluated; it holds
  on the model and fails on the edited model, so a theorem that states the claim cannot hold;
* *property theorem itself no longer compiles*: falsity of the statement was not evaluated
  (mostly definitions over the reals, which do not evaluate);
* *equivalent edit* / *stayed true*: the edit does not change the claim; no evidence.

## 4. Findings: where the code violates a property

Each is a theorem with a concrete witness; the property is then `partial` in `MANIFEST.json`.

| id | behaviour of the code | theorem |
| --- | --- | --- |
| C06 | `sum_multiply(..., sumaxis=True)` accepts out-of-range axes; a scalar `axis` with `sumaxis=False` raises | `C06_out_of_range_accepted_counterexample`, `C06_scalar_axis_kept_counterexample` |
| C07 | `sum_to_shape` returns too few axes / ignores zero-length axes | `C07_shape_fewer_axes_counterexample`, `C07_shape_zero_length_counterexample` |
| C10 | a node with an empty plate axis can mark its parent active | `C10_empty_plates_counterexample` |
| C12 | `X[::-1]` and other slices with a negative step reaching the first element: the moments and messages are empty | `C12_reverse_refuted` |
| C13 | `tile` of an array without axes with no tiles raises | `C13_empty_tiles_counterexample` |
| C14 | the mask sent to every parent but the last is too long, `_mask_to_parent` raises | `C14_mask_raises` |
| C20 | `GaussianMarkovChain`: a noise precision shared by the `D` components (moments of shape `(1,)`, as a `Gamma` node with plates `(D,)` and scalar parameters has before its first update) enters the normaliser once instead of `D` times; a scalar precision raises `IndexError` | `C20_gaussian_chain_noise_refuted`, `C20_gaussian_chain_noise_raises` |
| C21 | `Gaussian(..., ndim=2)`: the normalising constant uses the length of the last axis only, so the log-density is too large | `C21_gaussian_two_axes_refuted` |
| C19 | `GaussianToGaussian` with `ndim > 0`: `make_diag` multiplies by the identity over all axes, so the off-diagonal part of the message for the kept axes is lost | `C19_gaussian_to_gaussian_refuted` |
| C19 | `CategoricalMarkovChainToCategorical`: a message with a unit (or missing) time axis gives an empty message (or `IndexError`) | `C19_markov_chain_to_categorical_refuted` |
| C50 | `Mixture` with `cluster_plate` other than -1: the normalisation is added to the message of the selector with its axes exchanged, or the code raises | `C50_cluster_plate_refuted`, `C50_cluster_plate_raises` |
| C23 | with `phi_bias` an update can decrease the bound: the update adds the bias, the bound ignores it | `C23_bias_refuted` |
| C24 | on a fully observed node `update()` does nothing but the Riemannian gradient need not vanish | `C24_observed_refuted` |
| C25 | `observe` with a mask of wrong shape raises after changing the node | `C25_bad_mask_refuted` |
| C26 | boolean categories pass the check but index as a mask: wrong category, or moments that sum to zero | `C26_boolean_refuted` |
| C29 | `block_banded_solve` raises for invertible, indefinite matrices | `C29_indefinite_refuted` |
| C31 | a failed construction leaves the node registered with its parents | `C31_failed_construction_counterexample` |
| C32 | `Concatenate` accepts dependent parents | `C32_concatenate_counterexample` |
| C34 | `delete` raises for nodes with children and for deterministic nodes | `C34_refuted`, `C34_deterministic_counterexample` |
| C35 | converters of a grandparent class registered late are not found | `C35_grandparent_counterexample` |
| C38 | annealing not saved; autosave off by one; subset loading breaks `update` | `C38_annealing_counterexample`, `C38_autosave_counterexample`, `C38_subset_counterexample` |
| C39 | the checkpoint is truncated before it is rewritten | `C39_crash_refuted`, `C39_failing_save_counterexample` |
| C40 | nodes with equal names are accepted and shadow each other | `C40_never_raises_refuted`, `C40_equal_names_counterexample` |
| C42 | first step unchecked, slight decreases accepted, no reset on errors | `C42_first_step_counterexample`, `C42_decrease_counterexample`, `C42_not_reset_counterexample` |
| C49 | `chol_solve` uses the last matrix for all plates of a shared vector | `C49_shared_vector_refuted`, `C49_leading_unit_axes_refuted` |
| C57 | `Dirichlet.compute_gradient` multiplies elementwise with ψ'(φ)-ψ'(Σφ) instead of subtracting ψ'(Σφ)Σg: right only for g = 0 | `C57_dirichlet_refuted` |
| C57 | `Multinomial.compute_gradient` aligns the plates of `N` with the categories: `ValueError` or the trials of another plate | `C57_multinomial_trials_raises`, `C57_multinomial_trials_refuted` |
| C57 | the gradient includes the bias, which the bound ignores; elements outside of the mask have a gradient although the bound does not depend on them | `C57_bias_refuted`, `C57_masked_refuted` |
| C58 | `RotateGaussianARD.setup` sums over all plates, masked or not: when a row or column has no observed value the cost may decrease while the lower bound decreases too | `C58_unobserved_refuted` |
| C59 | `RotateGaussianARD._compute_bound` (line 901) scales the gradient by the prior shapes along the wrong axis: wrong gradient when the shapes of `alpha` differ | `C59_shape_refuted` |
| C60 | `GammaShape` maximises its regularisation `m0`, `m1` too, but `lower_bound_contribution` is 0: the bound decreases | `C60_gamma_shape_regularisation_refuted` |
| C60 | `Concentration` restarts from ones and stops at a relative tolerance: an update at the maximiser decreases the bound | `C60_concentration_refuted` |
| C60 | the default regularisation of `Concentration` has no maximiser without data: the result is determined by the tolerance | `C60_concentration_default_refuted` |
| C60 | the contribution of a `Concentration` with plates is an array: `VB.update` raises `ValueError` | `C60_concentration_plates_raises` |
| C60 | `VB.compute_lowerbound` passes a keyword that `GammaShape` and `Concentration` do not accept: `TypeError` | `C60_compute_lowerbound_raises` |
| C61 | `CategoricalDistribution.random` subtracts the maximum from `phi[0]` in place: after `random()` `pdf()` of the node sums to `exp(-max(phi))` and the lower bound has changed by `max(phi)` per element until the next update | `C61_categorical_pdf`, `C61_categorical_random_refuted`, `C61_shift_bound` |
| C61 | `CategoricalMarkovChain.random()` normalises the rows of `phi[1]` one by one; after messages from children the states are drawn from the wrong distribution | `C61_chain_random_refuted` |
| C61 | `GaussianGamma.random()` takes `-phi[2]` for the rate of the gamma variable (author: "This is incorrect, I think"); wrong unless the mean is zero, and the gamma numbers are too small on average | `C61_gaussianGamma_random_iff`, `C61_gaussianGamma_mean` |
| C61 | `random.wishart(nu, V)` returns `X Xᵀ` of shape `nu × nu` instead of `Xᵀ X` | `C61_wishart_refuted` |
| C62 | `Poisson`/`Binomial`/`Multinomial.observe` compute `gammaln(x+1)` in the integer type of the data: the largest value of the type (255 for `uint8`) is accepted with `f = -inf` | `C62_poisson`, `C62_poisson_refuted` |
| C62 | `observe(x, mask=mask)` raises if an element excluded by the mask is not in the support | `C62_masked_refuted` |
| C62 | `BinomialMoments.compute_fixed_moments` calls `super()` without the value: `initialize_from_value` and `initialize_from_random` of binomial and Bernoulli nodes always raise | `C62_binomial_initialize_raises`, `C62_bernoulli_initialize_refuted` |
| C62 | initial values: negative Poisson counts and multinomial counts with a wrong sum are accepted | `C62_poisson_value_refuted`, `C62_multinomial_value_refuted` |
| C62 | `Gamma.observe` accepts 0 (log-density NaN) and NaN; `Dirichlet.observe` accepts zero probabilities (log-density NaN); `Wishart.observe` accepts matrices that are not symmetric and stores the log-determinant of another matrix | `C62_gamma_zero_refuted`, `C62_gamma_nan_refuted`, `C62_dirichlet_zero_refuted`, `C62_wishart_refuted` |
| C62 | `logpdf` of a categorical node with a probability of zero is NaN for every category | `C62_categorical_logpdf_refuted` |
| C63 | `GaussianGamma.get_marginal_logpdf`, `get_gaussian_mean_and_variance` and `plotmatrix` read `self.ndim`, an attribute no node has: `AttributeError` on every call | `C63_marginal_raises` |
| C63 | The joint marginal of `get_marginal_logpdf` adds the log determinant of the covariance instead of subtracting it: its exponential integrates to that determinant, 2/3 in the example | `C63_joint_partial`, `C63_joint_refuted` |
| C63 | `plotmatrix` divides the covariance by E[tau] and `gaussian_gamma_to_t` divides it again: the variance of the density drawn is the true one divided by E[tau] | `C63_plot_partial`, `C63_plot_refuted` |
| C64 | Gaussian Markov chain whose dynamics and noise precisions are nodes with plates `(D,)` before their first update (moments with a unit axis): `np.sum(nu_AA, axis=-3)` counts one row instead of D, and `misc.diag` of the unit axis fills the whole D×D block with the precision, so the block of the last state is singular | `C64_gmc_phi1_unit`, `C64_gmc_phi1_refuted` |
| C64 | The cumulant of a Gaussian Markov chain counts the log precision of a unit row axis once instead of D times, and raises `IndexError` for a scalar precision | `C64_gmc_cgf_refuted`, `C64_gmc_cgf_raises` |
| C64 | Inputs of a Gaussian Markov chain with plates that no other parent has: the constructor accepts them, the update raises | `C64_inputs_plates_raises` |
| C64 | `_GammaToDiagonalWishart` counts the logarithm of a unit axis once: wrong log determinant before the gamma node is updated | `C64_diag_wishart_refuted` |
| C64 | Varying dynamics: the contraction over rows has one term if both dynamics and noise have a unit row axis | `C64_varying_rows_refuted` |
| C65 | `Mixture.integrated_logpdf_from_parents` moves the cluster axis to the end and then sums the axis `cluster_plate`: with `cluster_plate=-2` the result is wrong when there are as many points as clusters and `ValueError` otherwise | `C65_cluster_plate_refuted`, `C65_cluster_plate_raises` |
| C65 | The same function raises for `cluster_plate` other than -1 when `f` of the mixed distribution is a scalar (Gaussian, Wishart...): `np.expand_dims` of a scalar | `C65_scalar_f_raises` |
| C69 | `GaussianARD(mu, alpha, shape=s)` does not compare the last plate axes of the parents with `s`: `Node.__init__` accepts parents of plates `(3,)` for `shape=(2,)` (only `initialize_from_prior` fails later) | `C69_gaussian_ard_refuted`, `C69_gaussian_ard_shape_iff` |
| C69 | `GaussianMarkovChain(..., inputs=U)` ignores the plates of `U` when it infers its plates; with inputs of plates `(5, N-1)` and no other plates the node gets plates `()` | `C69_markov_chain_inputs_refuted`, `C69_markov_chain_inputs_iff` |
| C69 | `GaussianMarkovChain(..., inputs=U, n=N)` accepts inputs whose time axis has length zero | `C69_markov_chain_no_inputs_refuted` |
| C71 | Plate multipliers of parents with axes of their own (times, clusters, elements) are not mapped to the plates of the node (`node.py` 389, marked TODO): a batch of sequences with local dynamics weights gets multiplier 100 instead of 10, and for the states of a chain the right multiplier is rejected | `C71_varying_refuted`, `C71_mixture_refuted`, `C71_unchain_refuted` |
| C75 | `MaximumLikelihood.get_riemannian_gradient` leaves out the regularisation, which `lower_bound_contribution` subtracts: with `regularization` the gradient given to the optimiser is not that of the bound | `C75_regularization_refuted` |
| C76 | `misc.flatten_axes(X, 0)` raises TypeError (`np.prod(()) = 1.0` is not a valid axis length), so fixed moments of scalar Gaussian-Wishart variables cannot be computed | `C76_no_axes_refuted` |
| C77 | covfunc_zeros uses the local variable inputs before its assignment and covfunc_pp2 the undefined name x and functions that scipy.spatial.distance does not have: both always raise | `C77_zeros_raises`, `C77_pp2_raises` |
| C77 | gp_standardize_input turns N points without coordinates into no points | `C77_no_coordinates_refuted` |
| C78 | RotateVaryingMarkovChain and RotateSwitchingMarkovChain assert that the second parent of the chain is a WrapToGaussianGamma node; the second parent of VaryingGaussianMarkovChain and SwitchingGaussianMarkovChain is the precision of the initial state, so they always raise for the nodes they are documented for | `C78_own_dynamics_raises` |
| C78 | RotateSwitchingMarkovChain checks the length of the last plate of Z only when Z has no plates, where it raises IndexError; any other length is accepted | `C78_switching_plates_refuted` |
| C79 | `inv(A, ndim)` and `mmdot(A, B, ndim)` are not implemented for two or more axes, which their docstring and argument offer | `C79_inv_refuted`, `C79_mmdot_refuted` |
| C79 | `logdet_tri` of an array of matrices is one number, the sum over all plates, because `np.sum` has no axis | `C79_logdet_tri_refuted` |
| C79 | The docstring of `outer` gives the axes of the result in turns, but all axes of the first array come first | `C79_outer_docstring_refuted` |
| C79 | `make_diag` with kept axes zeroes the elements off the diagonal of the kept blocks | `C79_make_diag_refuted` |
| C80 | The gradient of Gaussian and GaussianARD over two or more variable axes raises, because `linalg.mmdot` is not implemented for them | `C80_gradient_refuted` |
| C80 | A random draw of Gaussian over two or more axes raises NotImplementedError, because `linalg.solve_triangular` handles one axis only; GaussianARD reshapes and works | `C80_random_refuted` |
| C80 | `GaussianDistribution.compute_moments_and_cgf` raises IndexError for a variable without axes and plates, through the unused line `k = np.shape(phi[0])[-1]` | `C80_moments_refuted` |
| C81 | `WrapToGaussianWishart` accepts combinations of parents for which its moments and messages raise `NotImplementedError` | `C81_wrap_wishart_refuted` |
| C81 | The message of a Wishart node to its degrees of freedom raises `NotImplementedError` | `C81_wishart_refuted` |
| C82 | `Gaussian.rotate` of a variable over several axes raises `NotImplementedError` | `C82_gaussian_rotate_refuted` |
| C82 | `GaussianGamma.rotate` and `translate` of a variable over several axes, or none, raise `NotImplementedError` | `C82_gaussian_gamma_refuted` |
| C82 | `rotate_covariance` with a matrix for every plate multiplies on the right by the matrix of the plate numbered like the row | `C82_rotate_covariance_plates_refuted` |
| C83 | `logpdf` of a categorical value is NaN if another category has probability zero (`0 * -inf`, handled in the lower bound but not here) | `C83_logpdf_refuted` |
| C85 | `block_banded_solve` (linalg.py): if the diagonal blocks have plates and the super-diagonal blocks do not (a chain with shared dynamics and different observed entries on its plates), `chol_solve` gives every plate the solution of the last plate, so the posterior and the log determinant of the other plates are wrong without any error. | `C85_shared_offdiagonal`, `C85_shared_offdiagonal_refuted` |
| C86 | `GaussianMoments.from_values` accepts an array with fewer axes than asked for; the constant then has moments over fewer axes. | `C86_gaussian_few_axes`, `C86_gaussian_axes_refuted` |
| C86 | `GaussianGammaMoments.from_values` with `ndim=0` gives the shape `((), (), (), ())`, so every pair of arrays with fewer than four axes is rejected with `ValueError`. | `C86_gaussian_gamma_scalar_raises`, `C86_gaussian_gamma_scalar_refuted` |
| C86 | `MultinomialMoments.from_values` passes `(D,)` instead of `D`, so a constant has the dims `(((D,),),)`. | `C86_multinomial_partial`, `C86_multinomial_dims_refuted` |
| C86 | `ConcentrationMoments` accepts sample sizes that are all zero and then has NaN as its second moment. | `C86_concentration_zero_refuted` |
| C86 | `Constant.set_value` stores the new moments before checking their shapes, so after a `ValueError` the constant holds moments that do not fit its plates. | `C86_set_value_raises`, `C86_set_value_refuted` |
| C86 | `Constant.set_value` does not change `x`, so `random()` returns the value given at first. | `C86_random_refuted` |
| C88 | gaussian_mixture_2d draws a wrong ellipse when eigh returns eigenvectors that form a rotation (line 483: the angle is arctan(W[0,1]/W[0,0]), a row of W instead of an eigenvector) | `C88_mixture_ellipse_partial`, `C88_mixture_ellipse_refuted` |
| C88 | ellipse_from_cov and ellipse_from_precision give matplotlib the semi-axes as width and height, so the ellipse is at scale/2 standard deviations | `C88_cov_ellipse_partial`, `C88_cov_ellipse_refuted` |
| C88 | contour reshapes the grid to (len(x), len(y)) although its rows belong to y: with different numbers of x and y the tables are no grid | `C88_contour_refuted` |
| C88 | A Hinton diagram of a zero matrix shows full black squares (0/0 is NaN and Python min(1, nan) is 1) | `C88_hinton_zero_refuted` |
| C91 | `VB._end_iteration_step` (`vmp.py` lines 738-743) divides the change of the bound by the mean of the absolute bounds. If both are zero, as for a `Gamma(1, 1)` node without data after its update, the quotient is NaN, which is not below the tolerance: `update(repeat=None)` never returns, although nothing changes any more | `C91_zero_refuted`, `C91_no_data_refuted` |
