{
 "claims": [
  {
   "property": "C01",
   "status": "proved",
   "theorems": [
    "Verif.C01_broadcasted_shape_iff",
    "Verif.C01_broadcasted_shape_raises_iff",
    "Verif.C01_broadcasted_shape_error_class",
    "Verif.C01_broadcast_unique"
   ],
   "note": "broadcasted_shape modelled with its two loops and negative indexing; iff with NumPy's rule, ValueError otherwise."
  },
  {
   "property": "C02",
   "status": "proved",
   "theorems": [
    "Verif.C02_broadcasted_shape_same_elements",
    "Verif.C02_broadcasted_shape_perm",
    "Verif.C02_broadcasted_shape_group",
    "Verif.C02_broadcasted_shape_assoc",
    "Verif.C02_broadcasted_shape_idem",
    "Verif.C02_total_plates_same_elements",
    "Verif.C02_total_plates_explicit",
    "Verif.C02_total_plates_inferred_least"
   ],
   "note": "Result (and failure) depends only on the set of shapes; grouping, associativity, idempotence; also for Node._total_plates with given or inferred plates."
  },
  {
   "property": "C03",
   "status": "proved",
   "theorems": [
    "Verif.C03_is_shape_subset_iff",
    "Verif.C03_is_shape_subset_iff_broadcast",
    "Verif.C03_refl",
    "Verif.C03_trans",
    "Verif.C03_antisymm"
   ],
   "note": "iff with broadcastability and with broadcasted_shape; reflexive, transitive, antisymmetric."
  },
  {
   "property": "C04",
   "status": "proved",
   "theorems": [
    "Verif.C04_multiplier_value",
    "Verif.C04_multiplier_sum"
   ],
   "note": ""
  },
  {
   "property": "C05",
   "status": "proved",
   "theorems": [
    "Verif.C05_sum_multiply_to_plates",
    "Verif.C05_sum_multiply_to_plates_default",
    "Verif.C05_sum_multiply_to_plates_rejects"
   ],
   "note": ""
  },
  {
   "property": "C06",
   "status": "partial",
   "theorems": [
    "Verif.C06_sum_axes_partial",
    "Verif.C06_sum_scalar_axis_partial",
    "Verif.C06_sum_all",
    "Verif.C06_keep_all",
    "Verif.C06_keep_axes",
    "Verif.C06_keep_axes_out_of_range",
    "Verif.C06_no_arguments",
    "Verif.C06_incompatible",
    "Verif.C06_out_of_range_accepted_counterexample",
    "Verif.C06_scalar_axis_kept_counterexample"
   ],
   "note": "Every axis specification is proved to give the requested reduction; the code refutes the rejection of out-of-range axes for sumaxis=True and raises TypeError for a scalar axis with sumaxis=False (counterexample theorems)."
  },
  {
   "property": "C07",
   "status": "partial",
   "theorems": [
    "Verif.C07_adjoint",
    "Verif.C07_raises_iff",
    "Verif.C07_shape_partial",
    "Verif.C07_shape_fewer_axes_counterexample",
    "Verif.C07_shape_zero_length_counterexample",
    "Verif.C07_repeat_to_shape"
   ],
   "note": "Adjointness and the exact failure condition are proved; the claim on the resulting shape is refuted when the array has fewer axes than the target or a zero-length axis (counterexample theorems)."
  },
  {
   "property": "C08",
   "status": "proved",
   "theorems": [
    "Verif.C08_moveaxis_axes",
    "Verif.C08_moveaxis",
    "Verif.C08_moveaxis_out_of_range",
    "Verif.C08_moveaxis_negative",
    "Verif.C08_moveaxis_roundtrip"
   ],
   "note": ""
  },
  {
   "property": "C09",
   "status": "proved",
   "theorems": [
    "Verif.C09_message_to_parent",
    "Verif.C09_rejects"
   ],
   "note": "One array of the message (the code treats them independently); plate multipliers included as the factor r. Callable messages are not modelled. Misfitting shapes raise ValueError (C09_rejects)."
  },
  {
   "property": "C10",
   "status": "partial",
   "theorems": [
    "Verif.C10_active_iff_partial",
    "Verif.C10_rejects",
    "Verif.C10_empty_plates_counterexample"
   ],
   "note": "Proved for all plates without empty axes; for a plate axis of length zero the parent can be told it is active although the node has no plates (counterexample theorem)."
  },
  {
   "property": "C11",
   "status": "proved",
   "theorems": [
    "Verif.C11_moments",
    "Verif.C11_message",
    "Verif.C11_adjoint",
    "Verif.C11_mask",
    "Verif.C11_plates",
    "Verif.C11_rejects"
   ],
   "note": "moments, message, mask, adjointness and plates for every index array with entries in [-L, L) (repeated and negative ones included), any surrounding plates and variable axes, and messages of any broadcast shape; the message plate axis argument given as a negative axis, as the constructor requires"
  },
  {
   "property": "C12",
   "status": "partial",
   "theorems": [
    "Verif.C12_init",
    "Verif.C12_too_many",
    "Verif.C12_plates",
    "Verif.C12_moments_partial",
    "Verif.C12_message_partial",
    "Verif.C12_mask_partial",
    "Verif.C12_adjoint_partial",
    "Verif.C12_reverse_refuted"
   ],
   "note": "acceptance and plates for all indices with integers, slices, new axes and at most one Ellipsis; moments, message, mask and adjointness for all of them whose slices with a negative step do not reach the first position. For those the code is wrong: slice(*s.indices(n)) has stop -1, which NumPy reads as the last position (C12_reverse_refuted: X[::-1]). Indices with an empty result are rejected by design"
  },
  {
   "property": "C13",
   "status": "partial",
   "theorems": [
    "Verif.C13_plates",
    "Verif.C13_message",
    "Verif.C13_moments",
    "Verif.C13_adjoint",
    "Verif.C13_mask",
    "Verif.C13_empty_tiles_counterexample"
   ],
   "note": "moments, message, adjointness, mask and plates for all plates and tiles with at least one axis (tiles at least one for masks and plates); missing: tile(X, ()) of a node without plates, where the code raises (C13_empty_tiles_counterexample)"
  },
  {
   "property": "C14",
   "status": "partial",
   "theorems": [
    "Verif.C14_moments",
    "Verif.C14_message",
    "Verif.C14_partition",
    "Verif.C14_mask_partial",
    "Verif.C14_mask_raises",
    "Verif.C14_plates"
   ],
   "note": "moments, messages and the partition of the message among the parents are proved for any number of parents, axis and broadcast shapes; the mask part holds for the last parent and for masks with a unit concatenation axis only: for every other parent the split in _compute_weights_to_parent uses one cut instead of two and _mask_to_parent raises (C14_mask_raises)"
  },
  {
   "property": "C15",
   "status": "proved",
   "theorems": [
    "Verif.C15_moments",
    "Verif.C15_message_X",
    "Verif.C15_message_Z",
    "Verif.C15_one_hot",
    "Verif.C15_adjoint",
    "Verif.C15_mask",
    "Verif.C15_plates",
    "Verif.C15_choose"
   ],
   "note": "Gate with any gated plate axis, any broadcasting of plates, any number of moments: moments, both messages, equality of the three inner products, one-hot selection, masks and plates. Choose is modelled as its composition of Slice, Concatenate and Gate (C15_choose). In the message to Z the moments of X have their variable axes in full and the message from the children has at least as many axes as the variable"
  },
  {
   "property": "C16",
   "status": "proved",
   "theorems": [
    "Verif.C16_moments",
    "Verif.C16_message"
   ],
   "note": "moments for independent inputs and the message as the exact coefficient of the parent's moments, for any number of inputs, plates and variable axes; the message theorem assumes the child's second natural parameter message symmetric, as every GaussianMoments message is meant to be, and at least two inputs (the constructor rejects fewer)"
  },
  {
   "property": "C17",
   "status": "proved",
   "theorems": [
    "Verif.C17_moments",
    "Verif.C17_message"
   ],
   "note": "moments of the concatenation for any number of independent inputs of any lengths and any broadcasting of plates, including the block assignments and the block diagonal; the message as the exact coefficient of the parent's moments, assuming the child's second message symmetric and its variable axes in full (the code slices them)"
  },
  {
   "property": "C18",
   "status": "proved",
   "theorems": [
    "Verif.C18_gamma_message",
    "Verif.C18_constructor",
    "Verif.C18_parse",
    "Verif.C18_dot",
    "Verif.C18_first_moment",
    "Verif.C18_second_moment",
    "Verif.C18_expectation",
    "Verif.C18_gamma_moments",
    "Verif.C18_message",
    "Verif.C18_message_constant",
    "Verif.C18_renaming"
   ],
   "note": "Key string parsing, acceptance by the constructor, both moments, the Gaussian-gamma moments, expectation, independence of key names, and the messages to every Gaussian or Gaussian-gamma parent as adjoints of the moments, for every number of factors, key assignment and plates. The message of the children is masked before (as Node._message_from_children does), so its plates include those of the mask; a message to a constant parent raises (C18_message_constant). The Gaussian-gamma messages are for plates without empty axes."
  },
  {
   "property": "C19",
   "status": "partial",
   "theorems": [
    "Verif.C19_complement",
    "Verif.C19_complement_value",
    "Verif.C19_categorical_to_bernoulli",
    "Verif.C19_markov_chain_to_categorical_partial",
    "Verif.C19_markov_chain_to_categorical_refuted",
    "Verif.C19_to_gaussian_gamma",
    "Verif.C19_wrap_gaussian_gamma_mean",
    "Verif.C19_wrap_gaussian_gamma_precision",
    "Verif.C19_wrap_gaussian_wishart_mean",
    "Verif.C19_wrap_gaussian_wishart_precision",
    "Verif.C19_wrap_gaussian_wishart_needs_symmetry",
    "Verif.C19_scale_wishart_matrix",
    "Verif.C19_scale_wishart_scale",
    "Verif.C19_wrap_fixed",
    "Verif.C19_scale_fixed",
    "Verif.C19_gaussian_to_gaussian_partial",
    "Verif.C19_gaussian_to_scalar",
    "Verif.C19_gaussian_to_gaussian_refuted",
    "Verif.C19_chain_emissions",
    "Verif.C19_chain_transition",
    "Verif.C19_chain_to_gaussian",
    "Verif.C19_chain_to_gaussian_fixed"
   ],
   "note": "Adjointness for Complement, CategoricalToBernoulli, GaussianToGaussianGamma, WrapToGaussianGamma, WrapToGaussianWishart (symmetric precision) and Wishart.scale, all dimensions, one plate at a time, _MarkovChainToGaussian of a Gaussian Markov chain (C19_chain_to_gaussian); CategoricalMarkovChainToCategorical for messages with a full time axis and GaussianToGaussian for messages that are diagonal in the kept axes (always so for ndim=0). Refuted: GaussianToGaussian with kept axes drops the off-diagonal part of the message; CategoricalMarkovChainToCategorical of a message with a unit time axis gives an empty message, without the axis it raises."
  },
  {
   "property": "C20",
   "status": "partial",
   "theorems": [
    "Verif.C20_categorical_chain_initial",
    "Verif.C20_categorical_chain_transition",
    "Verif.C20_gamma_shape",
    "Verif.C20_gamma_rate",
    "Verif.C20_poisson",
    "Verif.C20_binomial",
    "Verif.C20_dirichlet",
    "Verif.C20_multinomial",
    "Verif.C20_gaussianARD_scalar",
    "Verif.C20_gaussian_chain_initial",
    "Verif.C20_gaussian_chain_inputs",
    "Verif.C20_gaussian_chain_dynamics",
    "Verif.C20_gaussian_chain_noise_full",
    "Verif.C20_gaussian_chain_noise_shared",
    "Verif.C20_gaussian_chain_noise_refuted",
    "Verif.C20_gaussian_chain_noise_raises",
    "Verif.C20_gaussian",
    "Verif.C20_gaussianARD",
    "Verif.C20_gaussianGamma_mean",
    "Verif.C20_gaussianGamma_shape",
    "Verif.C20_gaussianGamma_rate",
    "Verif.C20_wishart_scale",
    "Verif.C20_mixture_selector",
    "Verif.C20_mixture_parameter",
    "Verif.C20_dyn_mean",
    "Verif.C20_dyn_precision",
    "Verif.C20_varying_chain_dynamics",
    "Verif.C20_varying_chain_weights",
    "Verif.C20_switching_chain_dynamics",
    "Verif.C20_switching_chain_classes"
   ],
   "note": "Every listed family, one plate at a time: Gamma (both parents), Poisson, Binomial/Bernoulli, Dirichlet/Beta, Multinomial/Categorical, Gaussian, GaussianARD, Gaussian-gamma (all parents), Wishart (the message to the degrees of freedom is not implemented in the code), mixtures, CategoricalMarkovChain (initial state and transitions), GaussianMarkovChain (initial state, inputs, and dynamics; second moments symmetric). Refuted for broadcast moments of the noise of the Gaussian chain: a precision shared by the D components is counted once in the normaliser although its message counts it D times (C20_gaussian_chain_noise_refuted), and a scalar precision raises IndexError; right when the last axis is full (C20_gaussian_chain_noise_full, _shared). Also the chains with varying and with switching dynamics (dynamics, weights, classes; the code has no messages to their other parents)."
  },
  {
   "property": "C21",
   "status": "partial",
   "theorems": [
    "Verif.C21_categorical_chain",
    "Verif.C21_gaussianARD_scalar",
    "Verif.C21_gaussian_chain",
    "Verif.C21_gaussian",
    "Verif.C21_gaussian_two_axes_refuted",
    "Verif.C21_gaussianARD",
    "Verif.C21_gaussianGamma",
    "Verif.C21_wishart",
    "Verif.C21_poisson",
    "Verif.C21_gamma",
    "Verif.C21_dirichlet",
    "Verif.C21_dirichlet_unnormalised",
    "Verif.C21_multinomial",
    "Verif.C21_categorical",
    "Verif.C21_binomial",
    "Verif.C21_beta",
    "Verif.C21_varying_chain",
    "Verif.C21_switching_chain"
   ],
   "note": "Proved for every listed family and all Markov chains (also with varying and switching dynamics) with fixed parents, one plate at a time, parameters in the interior of their range; refuted for Gaussian with two or more variable axes, where the normalising constant uses the length of the last axis only (C21_gaussian_two_axes_refuted)."
  },
  {
   "property": "C22",
   "status": "proved",
   "theorems": [
    "Verif.C22_categorical_chain_normaliser",
    "Verif.C22_categorical_chain_moments",
    "Verif.C22_categorical_chain_total",
    "Verif.C22_dirichlet_normaliser",
    "Verif.C22_dirichlet_expectation",
    "Verif.C22_beta_expectation",
    "Verif.C22_wishart_normaliser",
    "Verif.C22_wishart_expectation",
    "Verif.C22_gamma_normaliser",
    "Verif.C22_gamma_mean",
    "Verif.C22_gamma_log_mean",
    "Verif.C22_gaussian_chain",
    "Verif.C22_gaussian_normaliser",
    "Verif.C22_gaussian_mean",
    "Verif.C22_gaussian_second",
    "Verif.C22_gaussian_expectation",
    "Verif.C22_gaussian_chain_normaliser",
    "Verif.C22_gaussian_chain_expectation",
    "Verif.C22_gaussianGamma_normaliser",
    "Verif.C22_gaussianGamma_expectation",
    "Verif.C22_gaussian_gradient",
    "Verif.C22_gaussianARD_scalar_gradient",
    "Verif.C22_gaussianGamma_gradient",
    "Verif.C22_wishart_gradient",
    "Verif.C22_gaussian_identities",
    "Verif.C22_beta_normaliser",
    "Verif.C22_gamma_gradient",
    "Verif.C22_poisson_gradient",
    "Verif.C22_binomial_gradient",
    "Verif.C22_dirichlet_gradient",
    "Verif.C22_multinomial_gradient",
    "Verif.C22_multinomial_normaliser",
    "Verif.C22_multinomial_expectation",
    "Verif.C22_binomial_normaliser",
    "Verif.C22_binomial_expectation",
    "Verif.C22_poisson_normaliser",
    "Verif.C22_poisson_expectation"
   ],
   "note": "Minus the gradient of g for every family (any dimension), and the exact expectations and normalisers (integrals or sums) of multinomial/categorical, binomial/Bernoulli, Poisson, gamma, Dirichlet and Beta, Wishart of any size (over the positive definite matrices), Gaussian of any dimension, Gaussian-gamma, categorical Markov chains and Gaussian Markov chains. One plate at a time; Cholesky-based solving is exact; the truncated branch of Gaussian (external truncnorm package) is not modelled."
  },
  {
   "property": "C23",
   "status": "partial",
   "theorems": [
    "Verif.C23_categorical_chain_sound",
    "Verif.C23_factor_model",
    "Verif.C23_gamma_sound",
    "Verif.C23_poisson_sound",
    "Verif.C23_binomial_sound",
    "Verif.C23_dirichlet_sound",
    "Verif.C23_multinomial_sound",
    "Verif.C23_gaussian_sound",
    "Verif.C23_gaussianARD_sound",
    "Verif.C23_gaussianGamma_sound",
    "Verif.C23_wishart_sound",
    "Verif.C23_gaussianARD_scalar_sound",
    "Verif.C23_gaussian_chain_sound",
    "Verif.C23_hidden_markov",
    "Verif.C23_maximiser",
    "Verif.C23_update",
    "Verif.C23_twice",
    "Verif.C23_sequence",
    "Verif.C23_mixture_sound",
    "Verif.C23_mixture_certain",
    "Verif.C23_gaussian_mixture",
    "Verif.C23_normal_model",
    "Verif.C23_biased_update",
    "Verif.C23_bias_refuted",
    "Verif.C23_multiplier_factor",
    "Verif.C23_multiplier_maximiser",
    "Verif.C23_multiplier_update",
    "Verif.C23_multiplier_sequence",
    "Verif.C23_counts_multiplier",
    "Verif.C23_state_space",
    "Verif.C23_varying_chain_sound",
    "Verif.C23_switching_chain_sound"
   ],
   "note": "Proved for networks of Gamma, Poisson, Binomial, Dirichlet, Multinomial, Gaussian, GaussianARD, Gaussian-gamma and Wishart nodes, mixtures and all Markov chains with any plates, masks, partial observations and annealing, provided what lies between the nodes is adjoint (C13-C19) and the new parameters are valid; without such provisos for the normal model with unknown mean and precision and for factor analysis with missing values (C23_factor_model). Refuted for nodes with phi_bias (C23_bias_refuted); the bound with the bias terms never decreases (C23_biased_update). With plate multipliers: C23_multiplier_update for any positive multipliers, C23_multiplier_factor for the factor of the messages, C23_counts_multiplier for a complete model. Also for the complete Gaussian mixture model with Dirichlet weights, Wishart precisions and missing vectors (C23_gaussian_mixture). Also for the complete linear state-space model: a Gaussian Markov chain with unknown dynamics under ARD, input signals, unknown emission matrix and noise, missing values (C23_state_space). Also for the complete hidden Markov model with unknown initial probabilities, transition matrix and Gaussian emissions, and missing vectors (C23_hidden_markov)."
  },
  {
   "property": "C24",
   "status": "partial",
   "theorems": [
    "Verif.C24_zero_iff_partial",
    "Verif.C24_unit_step_partial",
    "Verif.C24_observed_refuted"
   ],
   "note": "zero iff at the update, and unit step = update, for all nodes that are not fully observed, any annealing and any distribution that respects broadcasting. Not true for a fully observed node: update() does nothing while the gradient does not vanish (C24_observed_refuted)"
  },
  {
   "property": "C25",
   "status": "partial",
   "theorems": [
    "Verif.C25_observe",
    "Verif.C25_history",
    "Verif.C25_new_values",
    "Verif.C25_unobserve",
    "Verif.C25_failed_observe",
    "Verif.C25_bad_mask_refuted"
   ],
   "note": "observe fixes exactly the masked plates; no sequence of update/initialize_*/set_parameters (with any messages, any distribution, whether or not calls raise) changes them; successful operations give the unobserved plates the new moments; unobserve; a value of wrong shape leaves the node unchanged. Not true for a mask of wrong shape, which raises after changing the node (C25_bad_mask_refuted)"
  },
  {
   "property": "C26",
   "status": "partial",
   "theorems": [
    "Verif.C26_one_hot",
    "Verif.C26_rejected",
    "Verif.C26_boolean_refuted"
   ],
   "note": "one-hot moments that sum to one for all integer arrays of valid categories, ValueError for all others and for other element types. Not true for boolean arrays, which pass the check but are used as a mask (C26_boolean_refuted)"
  },
  {
   "property": "C27",
   "status": "proved",
   "theorems": [
    "Verif.C27_exact",
    "Verif.C27_no_posterior",
    "Verif.C27_finite"
   ],
   "note": "Potentials may be zero (-inf); per plate; exact real arithmetic. If no state sequence has positive weight the code computes NaN, which is also proved."
  },
  {
   "property": "C28",
   "status": "proved",
   "theorems": [
    "Verif.C28_consistent",
    "Verif.C28_to_categorical"
   ],
   "note": "Includes the exact marginals of all times after conversion to categorical moments."
  },
  {
   "property": "C29",
   "status": "partial",
   "theorems": [
    "Verif.C29_solves_partial",
    "Verif.C29_indefinite_refuted"
   ],
   "note": "Whenever the function returns, x solves the system. Refuted for invertible pivots that are not positive definite: Cholesky raises (counterexample theorem; C54 characterises success). One plate; LAPACK by contract."
  },
  {
   "property": "C30",
   "status": "proved",
   "theorems": [
    "Verif.C30_inverse_blocks_and_logdet"
   ],
   "note": "One plate; LAPACK's Cholesky routines by contract (existence of the factor is proved)."
  },
  {
   "property": "C31",
   "status": "partial",
   "theorems": [
    "Verif.C31_registration_partial",
    "Verif.C31_failed_construction_counterexample",
    "Verif.C31_messages_partial",
    "Verif.C31_removal_partial"
   ],
   "note": "Registration, message coverage and removal proved for all histories of constructions, observe and unobserve. Missing and refuted: a construction that fails in the plate check leaves the failed node registered with its parents."
  },
  {
   "property": "C32",
   "status": "partial",
   "theorems": [
    "Verif.C32_dependent_rejected_partial",
    "Verif.C32_independent_accepted",
    "Verif.C32_concatenate_counterexample"
   ],
   "note": "Both directions proved for all graphs reachable by any history and all node kinds except Concatenate, which accepts dependent parents by design (counterexample theorem)."
  },
  {
   "property": "C33",
   "status": "proved",
   "theorems": [
    "Verif.C33_least",
    "Verif.C33_determined",
    "Verif.C33_order",
    "Verif.C33_reachable",
    "Verif.C33_local"
   ],
   "note": "For all histories of constructions, observe and unobserve: least fixed point, path characterisation, and independence of the order. The plate relation of one edge is abstract here; Node._mask_to_parent itself is C10."
  },
  {
   "property": "C34",
   "status": "partial",
   "theorems": [
    "Verif.C34_leaf_partial",
    "Verif.C34_refuted",
    "Verif.C34_deterministic_counterexample"
   ],
   "note": "Refuted in general: delete raises for every node with a registered child, and for every unregistered deterministic node with parents. Proved for stochastic leaves."
  },
  {
   "property": "C35",
   "status": "partial",
   "theorems": [
    "Verif.C35_sound",
    "Verif.C35_terminates",
    "Verif.C35_shortest_partial",
    "Verif.C35_grandparent_counterexample",
    "Verif.C35_register"
   ],
   "note": "Soundness and termination proved for all converter graphs. Completeness and minimality proved if inherited converters are visible from the class or a direct base; refuted otherwise (grandparent converters registered late)."
  },
  {
   "property": "C36",
   "status": "proved",
   "theorems": [
    "Verif.C36_update",
    "Verif.C36_update_raises",
    "Verif.C36_repeat_none"
   ],
   "note": "For every environment (any floats, any node updates that may raise): order of updates, number of iterations, early stop, exceptions propagate, repeat=None."
  },
  {
   "property": "C37",
   "status": "proved",
   "theorems": [
    "Verif.C37_append_only",
    "Verif.C37_sum",
    "Verif.C37_optimize"
   ],
   "note": "Histories over all reachable engine states; the recorded total equals the sum of the recorded terms in the code's order of additions."
  },
  {
   "property": "C38",
   "status": "partial",
   "theorems": [
    "Verif.C38_save_load_nodes",
    "Verif.C38_round_trip",
    "Verif.C38_annealing_counterexample",
    "Verif.C38_autosave_counterexample",
    "Verif.C38_subset_counterexample"
   ],
   "note": "Explicit save/load restores nodes, histories and masks and all continuations agree (full model, and subsets of nodes). Refuted: annealing is not saved; autosave stores an iteration count one too small; loading a subset into a new engine makes the next update raise IndexError."
  },
  {
   "property": "C39",
   "status": "partial",
   "theorems": [
    "Verif.C39_unknown_node_partial",
    "Verif.C39_crash_refuted",
    "Verif.C39_failing_save_counterexample"
   ],
   "note": "Refuted: the file is truncated first, so dying before the last write always leaves an unloadable file, and a save that raises destroys the checkpoint. Partial: an unknown node raises before the file is touched."
  },
  {
   "property": "C40",
   "status": "partial",
   "theorems": [
    "Verif.C40_index_by_name_partial",
    "Verif.C40_never_raises_refuted",
    "Verif.C40_equal_names_counterexample"
   ],
   "note": "Lookup by name finds the node when names are distinct; the check in VB.__init__ never raises (refuted), so equal names shadow each other."
  },
  {
   "property": "C41",
   "status": "proved",
   "theorems": [
    "Verif.C41_lower_bound"
   ],
   "note": "Each node contributes once whatever the multiplicity in the argument list; exact arithmetic for the equality of sums."
  },
  {
   "property": "C42",
   "status": "partial",
   "theorems": [
    "Verif.C42_steps_partial",
    "Verif.C42_halving_partial",
    "Verif.C42_optimize_partial",
    "Verif.C42_pattern_search_partial",
    "Verif.C42_first_step_counterexample",
    "Verif.C42_decrease_counterexample",
    "Verif.C42_not_reset_counterexample"
   ],
   "note": "optimize: every recorded step of every execution is not below the previous bound unless np.allclose calls them equal, and the nodes end at the last accepted step. Refuted: the first step of a new engine is not compared, slight decreases are accepted, no reset when computing the bound raises. pattern_search: proved without collapsed nodes under the stated contract of the minimiser."
  },
  {
   "property": "C43",
   "status": "proved",
   "theorems": [
    "Verif.C43_logsumexp",
    "Verif.C43_logsumexp_empty",
    "Verif.C43_logsumexp_real",
    "Verif.C43_logsumexp_shifted_exponents",
    "Verif.C43_normalized_exp",
    "Verif.C43_normalized_exp_shift"
   ],
   "note": "Over the reals extended with -inf; floating-point rounding is not modelled."
  },
  {
   "property": "C44",
   "status": "proved",
   "theorems": [
    "Verif.C44_unique",
    "Verif.C44_unique_of_nodup",
    "Verif.C44_unique_idempotent"
   ],
   "note": ""
  },
  {
   "property": "C45",
   "status": "proved",
   "theorems": [
    "Verif.C45_ceildiv",
    "Verif.C45_ceildiv_zero",
    "Verif.C45_slicelen",
    "Verif.C45_slicelen_zero_step",
    "Verif.C45_zipper_merge",
    "Verif.C45_zipper_merge_nothing",
    "Verif.C45_find_set_index"
   ],
   "note": ""
  },
  {
   "property": "C46",
   "status": "proved",
   "theorems": [
    "Verif.C46_gaussian_rotate",
    "Verif.C46_gaussian_rotate_back",
    "Verif.C46_opposite_rotations",
    "Verif.C46_opposite_args",
    "Verif.C46_gaussian_translate",
    "Verif.C46_gaussian_translate_back",
    "Verif.C46_gaussian_gamma_rotate",
    "Verif.C46_gaussian_gamma_translate",
    "Verif.C46_gaussian_ard_rotate",
    "Verif.C46_gaussian_ard_rotate_back",
    "Verif.C46_axis",
    "Verif.C46_axis_raises",
    "Verif.C46_rotate_matrix",
    "Verif.C46_gaussian_rotate_plates",
    "Verif.C46_gaussian_chain_rotate",
    "Verif.C46_gaussian_chain_rotate_back"
   ],
   "note": "Gaussian.rotate (also with a plate rotation Q), rotate_matrix, GaussianARD.rotate for any number of axes and any axis, _GaussianTemplate.translate, GaussianGamma.rotate and translate, GaussianMarkovChain.rotate: the stored moments and normaliser are those of the new parameters; rotating or translating back restores the node; opposite rotations leave both moments of the inner product unchanged. One plate at a time, exact real arithmetic, positive definite precision."
  },
  {
   "property": "C47",
   "status": "proved",
   "theorems": [
    "Verif.C47_intervals_valid",
    "Verif.C47_intervals_raises_iff"
   ],
   "note": ""
  },
  {
   "property": "C48",
   "status": "proved",
   "theorems": [
    "Verif.C48_block_banded",
    "Verif.C48_blocks_cover",
    "Verif.C48_block_banded_rejects"
   ],
   "note": "Blocks are two-dimensional; promotion by np.atleast_2d is not modelled."
  },
  {
   "property": "C49",
   "status": "partial",
   "theorems": [
    "Verif.C49_values_partial",
    "Verif.C49_own_matrix_partial",
    "Verif.C49_shared_vector_refuted",
    "Verif.C49_leading_unit_axes_refuted",
    "Verif.C49_chol_inv",
    "Verif.C49_solves_partial",
    "Verif.C49_chol_inv_inverse"
   ],
   "note": "Refuted in general: when U has a plate axis on which b is missing or of unit length every plate gets the last matrix, and two missing axes can give an IndexError. Proved exactly what is computed when the broadcast plates have at most one axis more than b, and that each plate solves its own system when the non-unit plate axes of U are plate axes of b. chol_inv is proved in full. ndim > 1 is C76; sparse factors are not modelled."
  },
  {
   "property": "C50",
   "status": "partial",
   "theorems": [
    "Verif.C50_phi",
    "Verif.C50_cgf",
    "Verif.C50_moments_self",
    "Verif.C50_message_parameters",
    "Verif.C50_logpdf",
    "Verif.C50_message_selector_partial",
    "Verif.C50_selector_adjoint_partial",
    "Verif.C50_cluster_plate_refuted",
    "Verif.C50_cluster_plate_raises"
   ],
   "note": "Natural parameters, normalisation and message to the cluster parameters for every cluster plate axis and any broadcasting; message to the selector and its conjugacy for cluster_plate=-1. Refuted for other cluster plates: the normalisation is added with its axes exchanged (C50_cluster_plate_refuted) or the code raises (C50_cluster_plate_raises)."
  },
  {
   "property": "C51",
   "status": "proved",
   "theorems": [
    "Verif.C51_mean"
   ],
   "note": "Exact arithmetic."
  },
  {
   "property": "C52",
   "status": "proved",
   "theorems": [
    "Verif.C52_autosave"
   ],
   "note": "Any iteration that ends."
  },
  {
   "property": "C53",
   "status": "proved",
   "theorems": [
    "Verif.C53_annealing"
   ],
   "note": "The property of the following iteration is for any keys, tolerance and node updates."
  },
  {
   "property": "C54",
   "status": "proved",
   "theorems": [
    "Verif.C54_succeeds_iff_posDef",
    "Verif.C54_counts"
   ],
   "note": "One plate; LAPACK's Cholesky routines by contract."
  },
  {
   "property": "C55",
   "status": "proved",
   "theorems": [
    "Verif.C55_message_from_children"
   ],
   "note": "Array messages; callable messages (black-box inference) are not modelled."
  },
  {
   "property": "C56",
   "status": "proved",
   "theorems": [
    "Verif.C56_compute_message",
    "Verif.C56_rejects",
    "Verif.C56_empty_plates_raises"
   ],
   "note": "Any number of arrays, plates and variable axes. The property excludes empty plate axes, for which the reshape can raise (C56_empty_plates_raises)."
  },
  {
   "property": "C57",
   "status": "partial",
   "theorems": [
    "Verif.C57_gamma",
    "Verif.C57_multinomial",
    "Verif.C57_gaussianARD_scalar",
    "Verif.C57_gaussian",
    "Verif.C57_dirichlet_refuted",
    "Verif.C57_bound",
    "Verif.C57_normal_model",
    "Verif.C57_bias_refuted",
    "Verif.C57_masked_refuted",
    "Verif.C57_multinomial_arrays",
    "Verif.C57_multinomial_trials_raises",
    "Verif.C57_multinomial_trials_refuted"
   ],
   "note": "Chain rule for Gamma, Multinomial/Categorical (number of trials without plates, with arrays), Gaussian and GaussianARD with at most one variable axis (symmetric matrices), and from it the gradient of the lower bound in every network, without provisos for the normal model. Refuted for Dirichlet and Beta, whose gradient is right only where it vanishes (C57_dirichlet_refuted); for Multinomial with trials per plate (wrong values or ValueError); with phi_bias; for elements outside of the mask, on which the bound does not depend. GaussianARD with more variable axes raises in mmdot (not modelled)."
  },
  {
   "property": "C58",
   "status": "partial",
   "theorems": [
    "Verif.C58_ard_fixed",
    "Verif.C58_ard_update",
    "Verif.C58_factor_model",
    "Verif.C58_unobserved_refuted"
   ],
   "note": "The bound of the factor model (faNet: X, W with ARD precision alpha, tau, masked data) changes by exactly cost(I)-cost(R) for every invertible R and does not decrease if the cost does not increase; needs every row and column to have an observed value. Without that it is violated: the cost counts elements outside of the mask (C58_unobserved_refuted). Block-level identities for any plates, prior means and shapes: C58_ard_fixed, C58_ard_update. Rotation over the plate axis (Q) and RotateGaussianMarkovChain: see C66."
  },
  {
   "property": "C59",
   "status": "partial",
   "theorems": [
    "Verif.C59_ard_fixed",
    "Verif.C59_ard_update",
    "Verif.C59_cost",
    "Verif.C59_factor_model",
    "Verif.C59_shape_refuted"
   ],
   "note": "Derivative along every curve for the blocks with fixed and with updated precision and for the whole cost. With prior shapes of alpha that differ over the rotated axis the returned gradient is wrong (C59_shape_refuted). Rotation over the plate axis (Q): see C67."
  },
  {
   "property": "C60",
   "status": "partial",
   "theorems": [
    "Verif.C60_gamma_shape_maximises",
    "Verif.C60_gamma_shape_bound_partial",
    "Verif.C60_gamma_shape_regularisation_refuted",
    "Verif.C60_gamma_shape_mle",
    "Verif.C60_concentration_bound",
    "Verif.C60_concentration_step",
    "Verif.C60_concentration_fixed_point",
    "Verif.C60_concentration_update",
    "Verif.C60_concentration_terminates",
    "Verif.C60_concentration_refuted",
    "Verif.C60_concentration_maximiser_iff",
    "Verif.C60_concentration_default_refuted",
    "Verif.C60_concentration_mle",
    "Verif.C60_concentration_plates_raises",
    "Verif.C60_compute_lowerbound_raises"
   ],
   "note": "GammaShape: the update is the unique maximiser and the maximum likelihood estimate without regularisation; with one the bound may decrease, because the regularisation is not part of the contribution (refuted). Concentration: every turn of the loop increases the bound, the fixed points are exactly the maximisers, there is one exactly if the exponentials of the mean logarithms sum to less than one, then the loop ends, and the result is within the tolerance; an update at the maximiser decreases the bound (refuted, size of the tolerance), the default regularisation without data has no maximiser (refuted), plates raise ValueError and compute_lowerbound raises TypeError. misc.invpsi is taken as exact (its error is bounded in C74)."
  },
  {
   "property": "C61",
   "status": "partial",
   "theorems": [
    "Verif.C61_categorical",
    "Verif.C61_categorical_range",
    "Verif.C61_categorical_raises",
    "Verif.C61_bernoulli",
    "Verif.C61_categorical_random",
    "Verif.C61_categorical_pdf",
    "Verif.C61_categorical_random_refuted",
    "Verif.C61_shift_bound",
    "Verif.C61_chain_random_partial",
    "Verif.C61_chain_random_prior",
    "Verif.C61_chain_random_refuted",
    "Verif.C61_gaussian_random",
    "Verif.C61_gaussian_scalar_random",
    "Verif.C61_gamma_random",
    "Verif.C61_poisson_random",
    "Verif.C61_binomial_random",
    "Verif.C61_multinomial_random",
    "Verif.C61_dirichlet_random",
    "Verif.C61_dirichlet_normalised",
    "Verif.C61_gaussianGamma_density",
    "Verif.C61_gaussianGamma_random_iff",
    "Verif.C61_gaussianGamma_mean",
    "Verif.C61_wishart_refuted"
   ],
   "note": "Proved, one plate element at a time: categorical and Bernoulli draws by inversion have exactly the probabilities asked for; Categorical, Gaussian, GaussianARD, Gamma, Poisson, Binomial, Multinomial and Dirichlet draw from the density their pdf computes (Gaussian: for every measurable set), and a categorical Markov chain does so for its prior. The generators of NumPy are given by their documented distributions. Refuted: CategoricalDistribution.random shifts phi of the node in place, so that pdf no longer sums to one and the lower bound changes (C61_categorical_random_refuted, C61_shift_bound); CategoricalMarkovChain draws from the wrong distribution after messages from children (C61_chain_random_refuted); GaussianGamma draws from the wrong distribution unless the mean is zero (C61_gaussianGamma_random_iff); random.wishart returns a matrix of the wrong shape (C61_wishart_refuted)."
  },
  {
   "property": "C62",
   "status": "partial",
   "theorems": [
    "Verif.C62_poisson_accepts",
    "Verif.C62_poisson",
    "Verif.C62_poisson_bool",
    "Verif.C62_poisson_float",
    "Verif.C62_poisson_refuted",
    "Verif.C62_masked_refuted",
    "Verif.C62_poisson_value_refuted",
    "Verif.C62_binomial_accepts",
    "Verif.C62_binomial",
    "Verif.C62_binomial_value_raises",
    "Verif.C62_binomial_initialize_raises",
    "Verif.C62_bernoulli_initialize_refuted",
    "Verif.C62_multinomial_accepts",
    "Verif.C62_multinomial",
    "Verif.C62_multinomial_value_refuted",
    "Verif.C62_gamma_accepts",
    "Verif.C62_gamma",
    "Verif.C62_gamma_zero_refuted",
    "Verif.C62_gamma_nan_refuted",
    "Verif.C62_dirichlet_accepts",
    "Verif.C62_dirichlet",
    "Verif.C62_dirichlet_zero_refuted",
    "Verif.C62_beta_accepts",
    "Verif.C62_wishart",
    "Verif.C62_wishart_refuted",
    "Verif.C62_categorical_logpdf_refuted"
   ],
   "note": "Exact acceptance conditions, moments and f are proved for all families and all arrays, with broadcasting of the number of trials, ranges of the integer types, NaN and infinities. The property as stated is false: see the refutations (overflow of x+1, masked elements are checked, zero/NaN for gamma, zeros for Dirichlet, matrices that are not symmetric for Wishart, initial values not checked or always refused, 0*(-inf) in logpdf)."
  },
  {
   "property": "C63",
   "status": "partial",
   "theorems": [
    "Verif.C63_marginal_raises",
    "Verif.C63_student_partial",
    "Verif.C63_gamma_partial",
    "Verif.C63_joint_partial",
    "Verif.C63_location",
    "Verif.C63_mean_variance_partial",
    "Verif.C63_plot_partial",
    "Verif.C63_joint_refuted",
    "Verif.C63_plot_refuted"
   ],
   "note": "The Student t and gamma marginals, the location and the mean and variance are proved against integrals of the node density, for every selection of distinct elements and every measurable set. The statement fails: the methods other than get_gaussian_location read self.ndim, which these nodes do not have, so they always raise; the joint marginal carries the determinant of the covariance as a factor too many; plotmatrix divides the squared scale twice by the mean of the gamma number."
  },
  {
   "property": "C64",
   "status": "partial",
   "theorems": [
    "Verif.C64_gmc_phi1_partial",
    "Verif.C64_gmc_phi1_unit",
    "Verif.C64_gmc_phi0_partial",
    "Verif.C64_gmc_phi2",
    "Verif.C64_gmc_cgf_partial",
    "Verif.C64_gmc_message_inputs_partial",
    "Verif.C64_gmc_cgf_raises",
    "Verif.C64_inputs_plates_raises",
    "Verif.C64_wrap_second",
    "Verif.C64_gmc_phi1_refuted",
    "Verif.C64_gmc_cgf_refuted",
    "Verif.C64_diag_wishart_partial",
    "Verif.C64_diag_wishart_refuted",
    "Verif.C64_cmc_phi1",
    "Verif.C64_varying_rows_partial",
    "Verif.C64_varying_rows_refuted"
   ],
   "note": "False in general (refuted with witnesses): row axes are summed at their stored length and misc.diag of a unit axis fills the block. Proved for arrays with full row axes and any other unit axes, for phi2 and discrete chains without restriction; exact value for unit row axes."
  },
  {
   "property": "C65",
   "status": "partial",
   "theorems": [
    "Verif.C65_no_overflow",
    "Verif.C65_integrated_partial",
    "Verif.C65_lower_bound_partial",
    "Verif.C65_cluster_plate_refuted",
    "Verif.C65_cluster_plate_raises",
    "Verif.C65_scalar_f_raises"
   ],
   "note": "Proved for cluster_plate = -1 (all plates, moments, numbers of clusters), with the Jensen bound; exponents never positive and zero for some cluster for every cluster plate. For other cluster plates the code sums the wrong axis: refuted, wrong value or ValueError; and np.expand_dims raises for distributions whose f is a scalar."
  },
  {
   "property": "C66",
   "status": "proved",
   "theorems": [
    "Verif.C66_ard_plates",
    "Verif.C66_ard_plates_fixed",
    "Verif.C66_chain",
    "Verif.C66_chain_block"
   ],
   "note": "Proved for all dimensions, chain lengths, inputs, plates, shared dynamics, consistent posterior states and both values of precompute: the terms after rotate equal the bound plus a constant independent of the rotation, for unit innovation noise (which the class assumes), scalar priors of alpha in the full block and rotations whose columns do not sum to zero (rotate_plates raises the column sums to the power -2)."
  },
  {
   "property": "C67",
   "status": "proved",
   "theorems": [
    "Verif.C67_cost",
    "Verif.C67_ard_plates",
    "Verif.C67_chain",
    "Verif.C67_chain_block"
   ],
   "note": "Proved for all dimensions, chain lengths, inputs, plates, shared dynamics, consistent states and both values of precompute, along arbitrary curves of R and Q: both gradients of the ARD block, the gradient of the chain and of the whole block including the rotation of the dynamics by the transposed inverse, and the cost of the optimiser. Priors of alpha with plates are outside the statement (C59 refutes the gradient there)."
  },
  {
   "property": "C68",
   "status": "proved",
   "theorems": [
    "Verif.C68_state_space",
    "Verif.C68_state_space_gradient"
   ],
   "note": "C68_state_space and C68_state_space_gradient, for the complete network of Model/StateSpace; builds on C66 (chain and dynamics), C58 (emission matrix) and C23 (updates of alpha and gamma). A row of C without an observed value makes the cost wrong, as C58_unobserved_refuted shows for factor analysis."
  },
  {
   "property": "C69",
   "status": "partial",
   "theorems": [
    "Verif.C69_default",
    "Verif.C69_gaussian_ard",
    "Verif.C69_gaussian_ard_shape_iff",
    "Verif.C69_markov_chain",
    "Verif.C69_markov_chain_inputs_iff",
    "Verif.C69_markov_chain_inputs_given",
    "Verif.C69_varying_chain",
    "Verif.C69_switching_chain",
    "Verif.C69_categorical_chain",
    "Verif.C69_mixture_default",
    "Verif.C69_mixture_gaussian_ard",
    "Verif.C69_mixture_markov_chain",
    "Verif.C69_mixture_categorical_chain",
    "Verif.C69_mixture_mixture",
    "Verif.C69_gate",
    "Verif.C69_unchain",
    "Verif.C69_gaussian_ard_refuted",
    "Verif.C69_markov_chain_inputs_refuted",
    "Verif.C69_markov_chain_no_inputs_refuted"
   ],
   "note": "Refuted by the code in two places. GaussianARD with a given shape drops the last plate axes of its parents without comparing them with the shape, and GaussianMarkovChain computes its plates without the input signals (Node.__init__ computes the total plates of all parents again but throws them away). With initialize=False such nodes are accepted; by default they fail later, in initialize_from_prior. Proved: all other nodes, and exact conditions for these two. Only the part of the constructors about plates is modelled; chain lengths are positive."
  },
  {
   "property": "C70",
   "status": "proved",
   "theorems": [
    "Verif.C70_parent_mask",
    "Verif.C70_unchain",
    "Verif.C70_to_gaussian"
   ],
   "note": "C70_parent_mask covers every kind of distribution with its own plate maps, including mixtures nested to any depth, by one theorem over the kinds; the elements a variable depends on are specified in Spec/Weights.lean independently of the code. C70_unchain and C70_to_gaussian cover the nodes which make parts of a variable plates. Gate, Take, Concatenate and the other deterministic nodes are under C15 and the properties of those nodes."
  },
  {
   "property": "C71",
   "status": "partial",
   "theorems": [
    "Verif.C71_multiplier_partial",
    "Verif.C71_plain",
    "Verif.C71_ratio",
    "Verif.C71_to_gaussian",
    "Verif.C71_take_concatenate",
    "Verif.C71_varying_refuted",
    "Verif.C71_mixture_refuted",
    "Verif.C71_unchain_refuted"
   ],
   "note": "Proved for distributions on the plates of their parents (C71_plain), for all kinds when the parents with axes of their own have multipliers of ones (C71_multiplier_partial), for Gaussian arrays made plates (C71_to_gaussian), for the ratio applied to messages (C71_ratio) and for Take and Concatenate. Refuted otherwise: no distribution maps the multiplier of a parent with own axes, so it lands on the wrong axis (C71_varying_refuted, C71_mixture_refuted, C71_unchain_refuted)."
  },
  {
   "property": "C72",
   "status": "proved",
   "theorems": [
    "Verif.C72_gaussian_logpdf",
    "Verif.C72_gaussian_entropy",
    "Verif.C72_gamma_logpdf",
    "Verif.C72_gamma_entropy",
    "Verif.C72_gradients",
    "Verif.C72_logodds"
   ],
   "note": "Log-densities equal the logarithms of the spec densities; entropies equal minus the integral of p log p; gradients by linearity; log odds as an equivalence."
  },
  {
   "property": "C73",
   "status": "proved",
   "theorems": [
    "Verif.C73_covariance",
    "Verif.C73_covariance_raises",
    "Verif.C73_correlation",
    "Verif.C73_svd",
    "Verif.C73_sphere",
    "Verif.C73_sphere_range",
    "Verif.C73_haversine"
   ],
   "note": "Draws of NumPy and the orthogonal factors of QR are arguments of the model. Exceptions of covariance are characterised."
  },
  {
   "property": "C74",
   "status": "proved",
   "theorems": [
    "Verif.C74_invpsi",
    "Verif.C74_quadratic",
    "Verif.C74_converges"
   ],
   "note": "Exact real arithmetic. The relative error after n steps is at most 0.6^(2^n), for every argument; 1e-7 for the five steps of the code."
  },
  {
   "property": "C75",
   "status": "partial",
   "theorems": [
    "Verif.C75_gradient",
    "Verif.C75_regularization_refuted",
    "Verif.C75_wishart"
   ],
   "note": "C75_gradient proves it without regularisation for all networks, by the fixed point equation of the messages and the chain rule; C75_wishart for the Wishart moments. C75_regularization_refuted: the gradient of the regularisation is left out (the code has a TODO), so with regularisation the statement is false. Other moment classes than Wishart take no gradient argument: a maximum likelihood node as their parent raises TypeError when its gradient is asked for (read off the code, not modelled). Plate multipliers and masks are not modelled."
  },
  {
   "property": "C76",
   "status": "partial",
   "theorems": [
    "Verif.C76_flatten",
    "Verif.C76_reshape",
    "Verif.C76_raises",
    "Verif.C76_no_axes_refuted",
    "Verif.C76_chol",
    "Verif.C76_chol_raises",
    "Verif.C76_inverse",
    "Verif.C76_logdet",
    "Verif.C76_solve",
    "Verif.C76_solve_matrix",
    "Verif.C76_solve_no_axes"
   ],
   "note": "C76_flatten, C76_reshape, C76_raises for the two functions; C76_chol, C76_chol_raises, C76_inverse, C76_logdet, C76_solve, C76_solve_matrix, C76_solve_no_axes for the Cholesky functions with any number of axes. C76_no_axes_refuted: an empty block raises TypeError instead of giving a unit axis, because np.prod(()) is a float (GaussianWishartMoments(()).compute_fixed_moments meets this). scipy's cho_factor and cho_solve by contract; square roots of negative numbers (ndim=0) are not modelled."
  },
  {
   "property": "C77",
   "status": "partial",
   "theorems": [
    "Verif.C77_input",
    "Verif.C77_input_raises",
    "Verif.C77_no_coordinates_refuted",
    "Verif.C77_se",
    "Verif.C77_se_matrix",
    "Verif.C77_se_variance",
    "Verif.C77_delta",
    "Verif.C77_pp2_new",
    "Verif.C77_pp2",
    "Verif.C77_pp2_shape",
    "Verif.C77_zeros_raises",
    "Verif.C77_pp2_raises"
   ],
   "note": "C77_input, C77_input_raises for the inputs; C77_se, C77_se_matrix (positive definite exactly if the points are different, by the Schur product theorem and a Vandermonde argument), C77_se_variance; C77_delta; C77_pp2_new, C77_pp2, C77_pp2_shape for the piecewise polynomials. Refuted for covfunc_zeros and covfunc_pp2, which never return (C77_zeros_raises, C77_pp2_raises), and for points without coordinates, which get lost (C77_no_coordinates_refuted). Division by zero (amplitude or lengthscale zero, r = 1 in gp_cov_pp2) is excluded."
  },
  {
   "property": "C78",
   "status": "partial",
   "theorems": [
    "Verif.C78_switching",
    "Verif.C78_varying",
    "Verif.C78_varying_gradient",
    "Verif.C78_switching_gradient",
    "Verif.C78_switching_block",
    "Verif.C78_multiple",
    "Verif.C78_multiple_gradient",
    "Verif.C78_own_dynamics_raises",
    "Verif.C78_wrapped_dynamics",
    "Verif.C78_switching_plates_refuted"
   ],
   "note": "The bounds and gradients are right for ordinary chains whose dynamics is a weighted sum or a choice of Gaussian matrices, with inputs, and with alpha for the switching rotator; RotateMultiple is right. The constructors refuse every VaryingGaussianMarkovChain and SwitchingGaussianMarkovChain, and the number of transitions of Z is not checked. Weights and B with common plates, which the source says give wrong results, and the part of RotateGaussianARD with two variable axes are not covered."
  },
  {
   "property": "C79",
   "status": "partial",
   "theorems": [
    "Verif.C79_outer",
    "Verif.C79_inner",
    "Verif.C79_mvdot",
    "Verif.C79_transpose",
    "Verif.C79_diag",
    "Verif.C79_make_diag",
    "Verif.C79_get_diag",
    "Verif.C79_get_diag_all",
    "Verif.C79_dot_two",
    "Verif.C79_dot_two_raises",
    "Verif.C79_dot",
    "Verif.C79_dot_few",
    "Verif.C79_tracedot",
    "Verif.C79_inv",
    "Verif.C79_inv_raises",
    "Verif.C79_inv_refuted",
    "Verif.C79_mmdot_partial",
    "Verif.C79_mmdot_refuted",
    "Verif.C79_logdet_chol",
    "Verif.C79_logdet_tri_partial",
    "Verif.C79_logdet_tri_refuted",
    "Verif.C79_logdet_cov",
    "Verif.C79_make_diag_refuted",
    "Verif.C79_make_diag_same",
    "Verif.C79_outer_docstring_refuted",
    "Verif.C79_outer_raises"
   ],
   "note": "outer, inner, mvdot, transpose, dot of any number of factors, tracedot, diag, get_diag, logdet_chol and logdet_cov proved for all plates and axes; inv and mmdot are proved for 0 and 1 axes and shown to raise for more, make_diag is proved without kept axes and shown to lose the elements off the diagonal of kept blocks, logdet_tri is right for one matrix and shown to add up the plates."
  },
  {
   "property": "C80",
   "status": "partial",
   "theorems": [
    "Verif.C80_moments_partial",
    "Verif.C80_moments_refuted",
    "Verif.C80_ard_moments",
    "Verif.C80_ard_phi",
    "Verif.C80_ard_cgf",
    "Verif.C80_ard_message",
    "Verif.C80_ard_message_raises",
    "Verif.C80_ard_weights",
    "Verif.C80_ard_fixed",
    "Verif.C80_ard_fixed_raises",
    "Verif.C80_fixed_partial",
    "Verif.C80_gradient_partial",
    "Verif.C80_gradient_refuted",
    "Verif.C80_random_partial",
    "Verif.C80_random_refuted",
    "Verif.C80_ard_random",
    "Verif.C80_ard_random_one"
   ],
   "note": "Proved on every plate and for any axes: the moments and the cumulant function of Gaussian (for C49's plates of the solver, and with at least one axis or plate) and of GaussianARD; natural parameters, cumulant function, message and mask of GaussianARD from parents that broadcast over plates and variable axes; fixed moments; draws of GaussianARD over any axes and of Gaussian over one axis; the gradient for at most one axis. Refuted: Gaussian without axes and plates raises IndexError; draws of Gaussian over two axes and gradients of both classes over two axes raise; the constant of Gaussian counts only the last axis (C21)."
  },
  {
   "property": "C81",
   "status": "partial",
   "theorems": [
    "Verif.C81_gaussian",
    "Verif.C81_gaussian_raises",
    "Verif.C81_gaussian_gamma",
    "Verif.C81_wishart",
    "Verif.C81_wishart_refuted",
    "Verif.C81_gaussian_gamma_moments",
    "Verif.C81_gaussian_gamma_fixed",
    "Verif.C81_wishart_moments",
    "Verif.C81_wishart_moments_raises",
    "Verif.C81_wishart_expectation",
    "Verif.C81_wishart_fixed",
    "Verif.C81_wishart_gradient",
    "Verif.C81_convert",
    "Verif.C81_wrap_gamma",
    "Verif.C81_wrap_wishart_partial",
    "Verif.C81_wrap_wishart_refuted",
    "Verif.C81_scaled"
   ],
   "note": "Proved for arrays with any broadcasting plates and any variable axes: messages, natural parameters, moments, cumulant functions and fixed moments of Gaussian, Gaussian-gamma and Wishart nodes and of the converters and wrappers. Refuted for the Wishart message to the degrees of freedom and for WrapToGaussianWishart with the combinations of parents it accepts but does not handle, which are not implemented."
  },
  {
   "property": "C82",
   "status": "partial",
   "theorems": [
    "Verif.C82_rotate_mean",
    "Verif.C82_rotate_covariance",
    "Verif.C82_axis_raises",
    "Verif.C82_ard_rotate",
    "Verif.C82_ard_rotate_raises",
    "Verif.C82_gaussian_rotate_partial",
    "Verif.C82_gaussian_rotate_refuted",
    "Verif.C82_translate",
    "Verif.C82_translate_raises",
    "Verif.C82_gaussian_gamma_rotate_partial",
    "Verif.C82_gaussian_gamma_translate_partial",
    "Verif.C82_gaussian_gamma_refuted",
    "Verif.C82_rotate_covariance_plates_refuted",
    "Verif.C82_matrix_dot_vector",
    "Verif.C82_transpose_covariance",
    "Verif.C82_rotate_plates",
    "Verif.C82_rotate_plates_raises"
   ],
   "note": "Proved for arrays with any broadcasting plates and any number of variable axes: rotate_mean, rotate_covariance with one matrix, transpose_covariance, matrix_dot_vector, GaussianARD.rotate, rotate_plates, translate, the rotation and translation of Gaussian and Gaussian-gamma nodes over one axis, and the errors for wrong axes and biases. Refuted: Gaussian.rotate and GaussianGamma.rotate and translate over more or fewer axes raise NotImplementedError, and rotate_covariance with a matrix for every plate takes the matrix from the wrong plate on the right side."
  },
  {
   "property": "C83",
   "status": "partial",
   "theorems": [
    "Verif.C83_lower_bound",
    "Verif.C83_lower_bound_all",
    "Verif.C83_annealing_raises",
    "Verif.C83_logpdf_partial",
    "Verif.C83_logpdf_raises",
    "Verif.C83_logpdf_refuted"
   ],
   "note": "(1)-(3) proved for arrays over the extended reals with NaN. (4) proved where the parameters are finite; refuted otherwise: logpdf multiplies -inf by 0, giving NaN for a possible category beside an impossible one."
  },
  {
   "property": "C84",
   "status": "proved",
   "theorems": [
    "Verif.C84_gamma",
    "Verif.C84_gamma_raises",
    "Verif.C84_gamma_moments",
    "Verif.C84_gamma_moments_raises",
    "Verif.C84_gamma_gradient",
    "Verif.C84_poisson",
    "Verif.C84_poisson_raises",
    "Verif.C84_poisson_moments",
    "Verif.C84_binomial",
    "Verif.C84_binomial_raises",
    "Verif.C84_binomial_moments",
    "Verif.C84_dirichlet",
    "Verif.C84_dirichlet_moments",
    "Verif.C84_dirichlet_moments_raises",
    "Verif.C84_multinomial",
    "Verif.C84_multinomial_raises",
    "Verif.C84_multinomial_moments",
    "Verif.C84_multinomial_moments_raises",
    "Verif.C84_logsumexp_shift"
   ],
   "note": "Real numbers instead of floats; for the multinomial distribution floats with NaN and infinities but without rounding. FloatingPointError is modelled as an exception of its own. The gradients of the Dirichlet and multinomial distributions are the subject of C57."
  },
  {
   "property": "C85",
   "status": "partial",
   "theorems": [
    "Verif.C85_plates_partial",
    "Verif.C85_shared_offdiagonal",
    "Verif.C85_shared_offdiagonal_refuted",
    "Verif.C85_moments_partial",
    "Verif.C85_wrong_shape"
   ],
   "note": "`C85_plates_partial` (success exactly for positive definite matrices on all plates; solution, inverse blocks and log determinant per plate) and `C85_moments_partial` (moments and log normaliser per plate) hold if the super-diagonal blocks have every plate of the diagonal blocks. Without that the full statement is false: `C85_shared_offdiagonal` says what the code computes, `C85_shared_offdiagonal_refuted` gives a witness. `C85_wrong_shape`: ValueError."
  },
  {
   "property": "C86",
   "status": "partial",
   "theorems": [
    "Verif.C86_gamma_prior",
    "Verif.C86_gamma_prior_raises",
    "Verif.C86_gamma",
    "Verif.C86_gamma_raises",
    "Verif.C86_gaussian",
    "Verif.C86_gaussian_few_axes",
    "Verif.C86_gaussian_axes_refuted",
    "Verif.C86_gaussian_gamma_partial",
    "Verif.C86_gaussian_gamma_scalar_raises",
    "Verif.C86_gaussian_gamma_scalar_refuted",
    "Verif.C86_wishart_prior",
    "Verif.C86_wishart_prior_raises",
    "Verif.C86_wishart",
    "Verif.C86_wishart_not_posdef",
    "Verif.C86_wishart_wrong_shape",
    "Verif.C86_dirichlet",
    "Verif.C86_dirichlet_raises",
    "Verif.C86_dirichlet_number_raises",
    "Verif.C86_beta",
    "Verif.C86_beta_raises",
    "Verif.C86_concentration_partial",
    "Verif.C86_concentration_raises",
    "Verif.C86_concentration_zero_refuted",
    "Verif.C86_categorical",
    "Verif.C86_categorical_raises",
    "Verif.C86_poisson",
    "Verif.C86_poisson_raises",
    "Verif.C86_multinomial_partial",
    "Verif.C86_multinomial_dims_refuted",
    "Verif.C86_set_value",
    "Verif.C86_set_value_rejected",
    "Verif.C86_set_value_raises",
    "Verif.C86_set_value_refuted",
    "Verif.C86_random_refuted"
   ],
   "note": "Plates, dims and moments are proved for the classes named in the statement; refuted where the code differs: Gaussian values with too few axes, scalar Gaussian-gamma values, dims of multinomial constants, concentrations that are all zero, set_value after a shape error, random() after set_value. Zero among positive concentrations and Gaussian-gamma over no axes have no value theorem."
  },
  {
   "property": "C87",
   "status": "proved",
   "theorems": [
    "Verif.C87_plates",
    "Verif.C87_finite",
    "Verif.C87_raises"
   ],
   "note": "Real numbers instead of floats; NaN is modelled as no value and -inf as bottom, both through every step. The time axis is modelled as a list of arrays over the plates."
  },
  {
   "property": "C88",
   "status": "partial",
   "theorems": [
    "Verif.C88_mixture_ellipse_partial",
    "Verif.C88_cov_ellipse_partial",
    "Verif.C88_cov_ellipse_refuted",
    "Verif.C88_precision_ellipse_partial",
    "Verif.C88_mixture_ellipse_refuted",
    "Verif.C88_visibility",
    "Verif.C88_contour_partial",
    "Verif.C88_contour_points",
    "Verif.C88_contour_refuted",
    "Verif.C88_levels",
    "Verif.C88_contourplot",
    "Verif.C88_band",
    "Verif.C88_gaussian_band",
    "Verif.C88_hinton",
    "Verif.C88_hinton_default_partial",
    "Verif.C88_hinton_zero_refuted",
    "Verif.C88_hinton_error",
    "Verif.C88_hinton_error_default"
   ],
   "note": "Proved: when exactly the ellipse of gaussian_mixture_2d is right (eigenvectors with determinant -1, or axis-parallel, or a circle), opacity, contour plots with as many x as y, contourplot, levels, bands, Hinton diagrams of matrices that are not zero. Refuted: the ellipse of gaussian_mixture_2d for eigenvectors that form a rotation; ellipse_from_cov and ellipse_from_precision draw half the scale; contour with different numbers of x and y; the Hinton diagram of zeros."
  },
  {
   "property": "C89",
   "status": "proved",
   "theorems": [
    "Verif.C89_nesting",
    "Verif.C89_phi",
    "Verif.C89_cgf",
    "Verif.C89_message_variable",
    "Verif.C89_message_parameter",
    "Verif.C89_certain"
   ],
   "note": "By induction over the variables on top of C50; the formulas of the mixed distribution are arguments as there. The moments of a sliced categorical variable are modelled as unit plates before the cluster axis. The sum over the axes of the earlier variables is that of every message to a parent."
  },
  {
   "property": "C90",
   "status": "proved",
   "theorems": [
    "Verif.C90_lower_bound_subspace",
    "Verif.C90_lower_bound",
    "Verif.C90_exact_subspace",
    "Verif.C90_exact",
    "Verif.C90_normal_model",
    "Verif.C90_factor_model",
    "Verif.C90_state_space",
    "Verif.C90_gaussian_mixture",
    "Verif.C90_hidden_markov",
    "Verif.C90_gamma_poisson"
   ],
   "note": "C90_lower_bound_subspace and C90_lower_bound for every network of the model, with the evidence as the integral of the joint density over the product of the measures of the latent variables (Spec/Evidence.lean); the random variables behind gamma, Gaussian, GaussianARD, Wishart, Gaussian-gamma, Dirichlet, multinomial, binomial, Poisson, mixtures and both Markov chains are built from C22. C90_exact: with one unobserved node the bound after its update is the log evidence. C90_normal_model writes the evidence as the integral of the product of the textbook densities, C90_gamma_poisson likewise with equality; C90_factor_model, C90_state_space, C90_gaussian_mixture and C90_hidden_markov give the whole models after any sequence of updates, with missing values. Numbers are exact reals; the term f of observed values is assumed to be the one C21 computes."
  },
  {
   "property": "C91",
   "status": "partial",
   "theorems": [
    "Verif.C91_engine",
    "Verif.C91_network",
    "Verif.C91_network_ends",
    "Verif.C91_normal_model",
    "Verif.C91_normal_model_ends",
    "Verif.C91_zero_refuted",
    "Verif.C91_no_data_refuted",
    "Verif.C91_state_space",
    "Verif.C91_state_space_ends",
    "Verif.C91_hidden_markov",
    "Verif.C91_hidden_markov_ends",
    "Verif.C91_gaussian_mixture",
    "Verif.C91_gaussian_mixture_ends",
    "Verif.C91_factor_model",
    "Verif.C91_factor_model_ends"
   ],
   "note": "Proved for every engine state reached by any history, without callback and auto-save: if the updates of a network do not decrease its bound and the bound is bounded above, the loop returns after some number of iterations, or runs for ever with bounds tending to zero; with an upper bound below zero it always returns. For the model of normal observations (through the evidence) and for factor analysis, the linear state-space model, the Gaussian mixture model and the hidden Markov model with missing values (directly) the upper bound is proved, by numbers which do not depend on the data, for all data, masks and hyperparameters. Refuted where the bound is zero: for a model without data the test is 0/0 < tol, and update(repeat=None) never returns. Real arithmetic with NaN; rounding is not modelled. Missing: upper bounds for the other models."
  }
 ]
}