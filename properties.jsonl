{"id": "C01", "title": "Broadcasted plates follow NumPy's rule", "statement": "misc.broadcasted_shape(s1,...,sn) returns a shape exactly when the given shapes are mutually broadcastable under NumPy's right-aligned rule, and then axis k (counted from the right) of the result has the unique length different from one among the k-th axes of the arguments (one if there is none; missing axes count as one) and the result has as many axes as the longest argument. In every other case it raises ValueError.", "quantifier": "for every finite list of shapes of any lengths with any axis lengths (including zero)", "why_tests_cant": "There are infinitely many combinations of ranks and lengths; tests sample a few small tuples and do not cover e.g. many arguments mixing missing, unit and zero-length axes.", "anchors": [{"file": "bayespy/utils/misc.py", "symbols": ["broadcasted_shape"]}]}
{"id": "C02", "title": "Plates of a node do not depend on the order or grouping of its parents", "statement": "Broadcasting plates is commutative, associative and idempotent, including whether it raises: resolving the plates of any permutation, regrouping or repetition of the same collection of parents gives the same plates or fails in the same cases.", "quantifier": "for all shapes and for all permutations and groupings of any number of arguments", "why_tests_cant": "Order independence ranges over all permutations of all shape lists; example tests cannot exhaust them.", "anchors": [{"file": "bayespy/utils/misc.py", "symbols": ["broadcasted_shape"]}, {"file": "bayespy/inference/vmp/nodes/node.py", "symbols": ["Node._total_plates"]}]}
{"id": "C03", "title": "is_shape_subset decides 'can be broadcast to'", "statement": "misc.is_shape_subset(sub, full) is true iff an array of shape `sub` can be broadcast to exactly shape `full` (iff broadcasting the two shapes succeeds and gives `full`). The relation is reflexive, transitive and antisymmetric up to leading unit axes.", "quantifier": "for all pairs (triples) of shapes", "why_tests_cant": "Decision over all pairs of shapes; unit tests contain a handful of literals.", "anchors": [{"file": "bayespy/utils/misc.py", "symbols": ["is_shape_subset", "broadcasted_shape"]}]}
{"id": "C04", "title": "The plate multiplier accounts exactly for broadcast axes", "statement": "misc.broadcasting_multiplier(plates, *args) returns r such that summing the product of the arguments over their own joint broadcast shape and multiplying by r equals summing it over all of `plates`. Whenever it succeeds, r is the product of the lengths of exactly those plate axes which are unit or missing in every argument.", "quantifier": "for all plates and all collections of argument shapes for which the function does not raise", "why_tests_cant": "Equality of sums over arbitrary index boxes and arbitrary values cannot be covered by sampled arrays.", "anchors": [{"file": "bayespy/utils/misc.py", "symbols": ["broadcasting_multiplier"]}]}
{"id": "C05", "title": "sum_multiply_to_plates equals explicit broadcast, multiply and sum", "statement": "misc.sum_multiply_to_plates(*arrays, to_plates, from_plates, ndim) equals what one gets by explicitly broadcasting all arrays to from_plates, multiplying elementwise and summing over every axis that is unit or missing in to_plates, although the code never materialises the broadcast axes.", "quantifier": "for all arrays, all values in a commutative ring, all target and source plates and any ndim", "why_tests_cant": "The optimisation drops broadcast axes and compensates with a multiplier; correctness is a statement over all shape combinations.", "anchors": [{"file": "bayespy/utils/misc.py", "symbols": ["sum_multiply_to_plates", "sum_multiply", "broadcasting_multiplier", "axes_to_collapse"]}]}
{"id": "C06", "title": "sum_multiply computes the requested reduction for every axis specification", "statement": "misc.sum_multiply(*args, axis, sumaxis, keepdims) equals multiplying the broadcast arguments and summing over the selected axes (or over the complement if sumaxis is False), with negative axes counted from the end, and it raises for out-of-range axes.", "quantifier": "for all argument lists, all axis specifications, both flags", "why_tests_cant": "The einsum key construction depends on ranks and flags jointly; infinite input space.", "anchors": [{"file": "bayespy/utils/misc.py", "symbols": ["sum_multiply"]}]}
{"id": "C07", "title": "sum_to_shape is the adjoint of repeat/broadcast", "statement": "Summing an array to a shape with misc.sum_to_shape is adjoint to broadcasting from this shape: for any array y of the target shape, <sum_to_shape(X,s), y> = <X, broadcast(y)>. The result has shape s or the call raises.", "quantifier": "for all arrays X and target shapes s", "why_tests_cant": "An identity over all arrays and shapes.", "anchors": [{"file": "bayespy/utils/misc.py", "symbols": ["sum_to_shape", "repeat_to_shape"]}]}
{"id": "C08", "title": "moveaxis only permutes axes and is undone by the opposite move", "statement": "misc.moveaxis(A, from, to) returns the array whose axes are those of A with axis `from` moved to position `to` and the relative order of all others preserved; moveaxis(moveaxis(A,i,j),j,i) = A; negative axes are equivalent to counting from the end; out-of-range axes raise.", "quantifier": "for all ranks, all axes (negative and non-negative)", "why_tests_cant": "Quantifies over all ranks and axis pairs.", "anchors": [{"file": "bayespy/utils/misc.py", "symbols": ["moveaxis"]}]}
{"id": "C09", "title": "Messages to parents are masked, plate-exact sums", "statement": "The message a node sends to a parent (Node._message_to_parent) equals, at each parent plate, the sum of the node's local message over all the node's plates that map to this parent plate and are not masked out; broadcast (not materialised) plates in the message or in the mask are counted with their full multiplicity, and the result always broadcasts to the parent's plates and dims.", "quantifier": "for all plates of parent and child, all masks, all messages whose shapes broadcast to the plates", "why_tests_cant": "Correct counting is a statement over all combinations of broadcast axes in message, mask, child plates and parent plates.", "anchors": [{"file": "bayespy/inference/vmp/nodes/node.py", "symbols": ["Node._message_to_parent", "Node._mask_to_parent"]}, {"file": "bayespy/utils/misc.py", "symbols": ["sum_multiply_to_plates", "sum_to_shape"]}]}
{"id": "C10", "title": "A parent plate is active iff some unmasked child plate maps to it", "statement": "The mask a node passes to a parent (Node._mask_to_parent) is True at a parent plate iff at least one of the child's plates that map to it is True in the child's mask; hence a parent never ignores data and never uses fully masked data.", "quantifier": "for all masks and all broadcast-compatible plates", "why_tests_cant": "Quantifies over all boolean masks and shapes.", "anchors": [{"file": "bayespy/inference/vmp/nodes/node.py", "symbols": ["Node._mask_to_parent", "Node._update_mask"]}]}
{"id": "C11", "title": "Take is adjoint: each parent element receives exactly the messages of the children that took it", "statement": "For the Take node, the message to the parent at an element is the sum of the child messages over all output positions whose index selects this element (repeated indices add up, unselected elements get zero), so sum(m_child*u_child) = sum(m_parent*u_parent). Negative indices select from the end.", "quantifier": "for all index arrays (any multiplicities, negative indices), all plate lengths and all messages", "why_tests_cant": "Aliasing of repeated or negative indices ranges over all index arrays.", "anchors": [{"file": "bayespy/inference/vmp/nodes/take.py", "symbols": ["Take"]}, {"file": "bayespy/utils/misc.py", "symbols": ["put_simple", "put"]}]}
{"id": "C12", "title": "Slicing a node selects what Python/NumPy slicing selects and its message is the adjoint", "statement": "For node[...] with integers, slices, new axes and Ellipsis, the resulting plates, moments and masks are those NumPy basic indexing of an array of the node's plates gives, and the message to the parent puts each child message back to the selected position and zero elsewhere (so <m_child,u_child> = <m_parent,u_parent>).", "quantifier": "for all plates, all index expressions accepted by NumPy, all messages", "why_tests_cant": "Infinite family of start/stop/step combinations incl. negative and out-of-range.", "anchors": [{"file": "bayespy/inference/vmp/nodes/node.py", "symbols": ["Slice", "slicelen", "Node.__getitem__"]}]}
{"id": "C13", "title": "tile repeats plates and sums messages over the copies", "statement": "tile(X, reps) has plates reps*plates and moments equal to the repeated moments; the message to the parent sums the child message over all copies, so <m_child,u_child> = <m_parent,u_parent>; masks are propagated as 'any copy active'.", "quantifier": "for all plates, repetitions and messages", "why_tests_cant": "All repetition counts and plate shapes.", "anchors": [{"file": "bayespy/inference/vmp/nodes/deterministic.py", "symbols": ["tile"]}]}
{"id": "C14", "title": "Concatenate splits messages to the right parents", "statement": "Concatenate(X1,...,Xn) along a plate axis has the concatenated moments; parent i receives exactly the segment of the child's message (and mask) that corresponds to its own elements; the segments partition the axis.", "quantifier": "for any number of parents with any lengths along the axis", "why_tests_cant": "Off-by-one in segment boundaries shows only for particular positions and numbers of parents.", "anchors": [{"file": "bayespy/inference/vmp/nodes/concatenate.py", "symbols": ["Concatenate"]}]}
{"id": "C15", "title": "Gate/Choose mixes moments linearly and sends consistent messages to selector and inputs", "statement": "Gate(Z,X): the output moment is sum_k z_k x_k; the messages satisfy <m_child,u> = <m_Z, z> = <m_X, x> for every child message, for one-hot z the output is the selected input, and the message to unselected inputs is zero.", "quantifier": "for all numbers of clusters, all (soft or hard) selector moments, all inputs and messages", "why_tests_cant": "Bilinear identity over all real inputs.", "anchors": [{"file": "bayespy/inference/vmp/nodes/gate.py", "symbols": ["Gate", "Choose"]}]}
{"id": "C16", "title": "Add computes exact moments of a sum of independent variables and its messages are consistent", "statement": "For Add(X1,...,Xn) the first moment is the sum of the first moments and the second moment equals E[(sum x)(sum x)^T] for independent inputs; the message to each parent is the coefficient of this parent's moments in <m_child,u>.", "quantifier": "for any number of inputs, any dimension, all moments", "why_tests_cant": "Cross terms for n inputs: needs an identity for all n.", "anchors": [{"file": "bayespy/inference/vmp/nodes/add.py", "symbols": ["Add"]}]}
{"id": "C17", "title": "ConcatGaussian assembles exact joint moments and splits messages", "statement": "The moments of ConcatGaussian are the moments of the concatenation of independent vectors and the message to each parent is the coefficient of its moments in <m_child,u>.", "quantifier": "for any number of inputs of any lengths", "why_tests_cant": "Block index arithmetic for arbitrary numbers and sizes of blocks.", "anchors": [{"file": "bayespy/inference/vmp/nodes/concat_gaussian.py", "symbols": ["ConcatGaussian"]}]}
{"id": "C18", "title": "SumMultiply computes the requested contraction for both moments, independently of key names", "statement": "SumMultiply/Dot computes E of the requested contraction, the second moment contracts duplicated keys, and renaming the keys injectively changes nothing; the message to each parent is the coefficient of its moments.", "quantifier": "for all factor counts, key assignments and moments", "why_tests_cant": "Key assignments form an infinite family.", "anchors": [{"file": "bayespy/inference/vmp/nodes/dot.py", "symbols": ["SumMultiply", "Dot"]}]}
{"id": "C19", "title": "Conversions between moment types are adjoint", "statement": "Converter nodes and wrappers (Complement, CategoricalToBernoulli, CategoricalMarkovChainToCategorical, GaussianToGaussian, GaussianToGaussianGamma, WrapToGaussianGamma, WrapToGaussianWishart, Wishart.scale) satisfy <m_child, u_child(u_parents)> = <m_parent_i, u_parent_i> + terms not depending on parent i, so conversion never changes the objective.", "quantifier": "for all moments and messages, all dimensions", "why_tests_cant": "Identity over all real arrays and dimensions.", "anchors": [{"file": "bayespy/inference/vmp/nodes/beta.py", "symbols": ["Complement"]}, {"file": "bayespy/inference/vmp/nodes/bernoulli.py", "symbols": ["CategoricalToBernoulli"]}, {"file": "bayespy/inference/vmp/nodes/categorical_markov_chain.py", "symbols": ["CategoricalMarkovChainToCategorical"]}, {"file": "bayespy/inference/vmp/nodes/gaussian.py", "symbols": ["GaussianToGaussian", "GaussianToGaussianGamma", "WrapToGaussianGamma", "WrapToGaussianWishart"]}, {"file": "bayespy/inference/vmp/nodes/wishart.py", "symbols": ["_ScaledWishart"]}]}
{"id": "C20", "title": "VMP messages are the exact coefficients of the expected log-density", "statement": "For each distribution, for each parent: <log p(x|parents)> computed as <phi(u_parents),u>+g(u_parents)+f equals <m_parent,u_parent> plus a remainder that does not depend on this parent's moments. (Conjugacy: the messages to parents and the natural parameters from parents come from the same log-density.)", "quantifier": "for all moments of node and parents (Gamma, Dirichlet, Beta, Multinomial, Categorical, Binomial/Bernoulli, Poisson, Gaussian, GaussianARD, Gaussian-gamma, Wishart, Markov chains)", "why_tests_cant": "Numerical gradient checks test single points and dimensions only.", "anchors": [{"file": "bayespy/inference/vmp/nodes/gamma.py", "symbols": ["GammaDistribution"]}, {"file": "bayespy/inference/vmp/nodes/dirichlet.py", "symbols": ["DirichletDistribution"]}, {"file": "bayespy/inference/vmp/nodes/multinomial.py", "symbols": ["MultinomialDistribution"]}, {"file": "bayespy/inference/vmp/nodes/binomial.py", "symbols": ["BinomialDistribution"]}, {"file": "bayespy/inference/vmp/nodes/poisson.py", "symbols": ["PoissonDistribution"]}, {"file": "bayespy/inference/vmp/nodes/gaussian.py", "symbols": ["GaussianDistribution", "GaussianARDDistribution", "GaussianGammaDistribution"]}, {"file": "bayespy/inference/vmp/nodes/wishart.py", "symbols": ["WishartDistribution"]}, {"file": "bayespy/inference/vmp/nodes/categorical.py", "symbols": ["CategoricalDistribution"]}, {"file": "bayespy/inference/vmp/nodes/categorical_markov_chain.py", "symbols": ["CategoricalMarkovChainDistribution"]}, {"file": "bayespy/inference/vmp/nodes/gaussian_markov_chain.py", "symbols": ["GaussianMarkovChainDistribution"]}]}
{"id": "C21", "title": "Log-densities agree with the textbook densities", "statement": "For fixed parents, logpdf(x) = <phi,u(x)>+g+f(x) equals the logarithm of the documented density (Poisson, binomial, multinomial, categorical, gamma, Dirichlet/Beta, Gaussian, GaussianARD, Wishart up to the abstract special functions).", "quantifier": "for all parameter values and observations in the support", "why_tests_cant": "Equality of functions on infinite domains.", "anchors": [{"file": "bayespy/inference/vmp/nodes/expfamily.py", "symbols": ["ExponentialFamilyDistribution.compute_logpdf", "ExponentialFamily.logpdf"]}, {"file": "bayespy/inference/vmp/nodes/poisson.py", "symbols": ["PoissonDistribution"]}, {"file": "bayespy/inference/vmp/nodes/binomial.py", "symbols": ["BinomialDistribution"]}, {"file": "bayespy/inference/vmp/nodes/multinomial.py", "symbols": ["MultinomialDistribution"]}, {"file": "bayespy/inference/vmp/nodes/gamma.py", "symbols": ["GammaDistribution"]}]}
{"id": "C22", "title": "Moments are the expectations under the distribution with the given natural parameters", "statement": "compute_moments_and_cgf returns u = -grad g, equivalently u is the exact expectation of the sufficient statistics and exp(-g) the exact normaliser (finite discrete families exactly; Gaussian through first and second moment identities).", "quantifier": "for all natural parameters", "why_tests_cant": "Identity over all real parameters.", "anchors": [{"file": "bayespy/inference/vmp/nodes/multinomial.py", "symbols": ["MultinomialDistribution.compute_moments_and_cgf"]}, {"file": "bayespy/inference/vmp/nodes/binomial.py", "symbols": ["BinomialDistribution.compute_moments_and_cgf"]}, {"file": "bayespy/inference/vmp/nodes/poisson.py", "symbols": ["PoissonDistribution.compute_moments_and_cgf"]}, {"file": "bayespy/inference/vmp/nodes/gaussian.py", "symbols": ["GaussianDistribution.compute_moments_and_cgf", "GaussianARDDistribution.compute_moments_and_cgf"]}]}
{"id": "C23", "title": "Updating a node never decreases the lower bound", "statement": "A VB update of an unobserved node (with annealing 1) sets its distribution to the maximiser of the lower bound given the others, so the lower bound after update() is at least the one before, and updating twice in a row changes nothing.", "quantifier": "for all models in the modelled class, all states of the other nodes, all current distributions of the node, all sequences of updates", "why_tests_cant": "Monotonicity holds for every state; tests only observe a few runs.", "anchors": [{"file": "bayespy/inference/vmp/nodes/expfamily.py", "symbols": ["ExponentialFamily._update_phi_from_parents", "ExponentialFamily._update_distribution_and_lowerbound", "ExponentialFamily.lower_bound_contribution"]}, {"file": "bayespy/inference/vmp/vmp.py", "symbols": ["VB.update"]}]}
{"id": "C24", "title": "The Riemannian gradient vanishes exactly at the VB update and a unit step is the update", "statement": "get_riemannian_gradient() is zero iff the current natural parameters equal what update() would set, and adding the gradient with step one to get_parameters() and calling set_parameters() gives the same parameters and moments as update(), for any annealing value.", "quantifier": "for all parameter values, messages and annealing > 0", "why_tests_cant": "Universal algebraic identity.", "anchors": [{"file": "bayespy/inference/vmp/nodes/expfamily.py", "symbols": ["ExponentialFamily.get_riemannian_gradient", "ExponentialFamily.get_parameters", "ExponentialFamily.set_parameters", "ExponentialFamily._update_phi_from_parents"]}]}
{"id": "C25", "title": "Observed plates are never modified by inference", "statement": "After observe(x, mask), no sequence of update, initialize_* or set_parameters calls changes the moments at observed plates, while unobserved plates always take the new values; unobserve makes all plates updatable again; a failed observe (wrong shape) leaves the node unchanged.", "quantifier": "for all masks, values and all histories of operations", "why_tests_cant": "Histories are unbounded.", "anchors": [{"file": "bayespy/inference/vmp/nodes/stochastic.py", "symbols": ["Stochastic._set_moments", "Stochastic.update", "Stochastic.observe", "Stochastic.unobserve"]}, {"file": "bayespy/inference/vmp/nodes/expfamily.py", "symbols": ["ExponentialFamily.observe", "ExponentialFamily._set_moments_and_cgf"]}]}
{"id": "C26", "title": "Categorical observations become one-hot moments or are rejected", "statement": "Observing integer categories gives moments that are exactly one-hot at the observed category; non-integers, negative values or values >= number of categories raise; consequently the moments always sum to one.", "quantifier": "for all arrays of categories and any number of categories", "why_tests_cant": "Quantifies over all values and lengths.", "anchors": [{"file": "bayespy/inference/vmp/nodes/categorical.py", "symbols": ["CategoricalMoments.compute_fixed_moments", "CategoricalDistribution"]}]}
{"id": "C27", "title": "The forward-backward recursion gives exact chain posteriors", "statement": "random.alpha_beta_recursion returns the exact posterior marginal of the first state, the exact pairwise posteriors of consecutive states and minus the exact log-normaliser of the chain defined by the unnormalised potentials, i.e. what summing over all D^(N+1) state sequences gives.", "quantifier": "for all chain lengths N >= 1, all numbers of states and all potentials", "why_tests_cant": "Number of paths is exponential and lengths are unbounded.", "anchors": [{"file": "bayespy/utils/random.py", "symbols": ["alpha_beta_recursion"]}, {"file": "bayespy/inference/vmp/nodes/categorical_markov_chain.py", "symbols": ["CategoricalMarkovChainDistribution.compute_moments_and_cgf"]}]}
{"id": "C28", "title": "Pairwise chain posteriors are mutually consistent", "statement": "The moments of a categorical Markov chain are proper and consistent: each pairwise table is non-negative and sums to one, and the marginal of time n computed from the pair (n-1,n) equals that from (n,n+1); so converting to categorical moments yields proper marginals.", "quantifier": "for all lengths, state counts, potentials", "why_tests_cant": "Universal over lengths and potentials.", "anchors": [{"file": "bayespy/utils/random.py", "symbols": ["alpha_beta_recursion"]}, {"file": "bayespy/inference/vmp/nodes/categorical_markov_chain.py", "symbols": ["CategoricalMarkovChainToCategorical"]}]}
{"id": "C29", "title": "block_banded_solve solves the block-tridiagonal system", "statement": "linalg.block_banded_solve(A,B,y) returns x that satisfies the symmetric block tridiagonal system with diagonal blocks A and super-diagonal blocks B, whenever the successive pivots are invertible.", "quantifier": "for all numbers of blocks, all block sizes and all right-hand sides", "why_tests_cant": "Unbounded recursion depth and arbitrary matrices.", "anchors": [{"file": "bayespy/utils/linalg.py", "symbols": ["block_banded_solve"]}, {"file": "bayespy/inference/vmp/nodes/gaussian_markov_chain.py", "symbols": ["TemplateGaussianMarkovChainDistribution.compute_moments_and_cgf"]}]}
{"id": "C30", "title": "block_banded_solve returns the true inverse blocks and determinant", "statement": "The returned diagonal blocks V and super-diagonal blocks C are the corresponding blocks of the inverse of the full matrix and ldet is the log-determinant (the product of pivot determinants equals the determinant).", "quantifier": "for all numbers and sizes of blocks", "why_tests_cant": "Unbounded recursion depth.", "anchors": [{"file": "bayespy/utils/linalg.py", "symbols": ["block_banded_solve"]}]}
{"id": "C31", "title": "The graph is registered consistently for all construction histories", "statement": "After any sequence of node constructions, a deterministic node is registered as a child of its parents iff it has (transitively) a stochastic descendant, a stochastic node iff it was constructed with this parent; thus messages from children cover exactly the stochastic descendants; removal undoes registration.", "quantifier": "for all finite histories of constructing nodes", "why_tests_cant": "Histories are unbounded.", "anchors": [{"file": "bayespy/inference/vmp/nodes/node.py", "symbols": ["Node.__init__", "Node._add_child", "Node._remove_child"]}, {"file": "bayespy/inference/vmp/nodes/deterministic.py", "symbols": ["Deterministic._add_child", "Deterministic._remove_child"]}]}
{"id": "C32", "title": "Dependent parents are rejected", "statement": "Constructing a node raises iff two of its parents share a stochastic node through paths of deterministic nodes (each stochastic node may influence a node through at most one parent).", "quantifier": "for all graphs", "why_tests_cant": "All graph shapes.", "anchors": [{"file": "bayespy/inference/vmp/nodes/node.py", "symbols": ["Node.__init__"]}, {"file": "bayespy/inference/vmp/nodes/deterministic.py", "symbols": ["Deterministic._get_id_list"]}, {"file": "bayespy/inference/vmp/nodes/stochastic.py", "symbols": ["Stochastic._get_id_list"]}]}
{"id": "C33", "title": "Masks reflect reachability of observations after any history", "statement": "After any sequence of observe/unobserve calls, a plate of a node is active iff it is observed or some stochastic/deterministic descendant plate mapping to it is active; the order of the observe calls does not matter.", "quantifier": "for all graphs and all sequences of observe/unobserve calls", "why_tests_cant": "Unbounded histories and graphs.", "anchors": [{"file": "bayespy/inference/vmp/nodes/node.py", "symbols": ["Node._update_mask"]}, {"file": "bayespy/inference/vmp/nodes/stochastic.py", "symbols": ["Stochastic._set_mask", "Stochastic.unobserve"]}, {"file": "bayespy/inference/vmp/nodes/expfamily.py", "symbols": ["ExponentialFamily.observe"]}]}
{"id": "C34", "title": "delete() removes a node and its descendants", "statement": "node.delete() removes the node and all its descendants from the children of all their parents without raising, for any graph.", "quantifier": "for all graphs", "why_tests_cant": "Depends on graph topology.", "anchors": [{"file": "bayespy/inference/vmp/nodes/node.py", "symbols": ["Node.delete", "Node._remove_child"]}]}
{"id": "C35", "title": "Moment conversion finds a shortest chain of registered converters", "statement": "Moments.get_converter(target) returns a chain of registered converters (through base classes) leading from the source class to (a subclass of) the target whenever one exists, with as few converters as possible; otherwise it raises NoConverterError; it terminates for every converter graph, including cyclic ones.", "quantifier": "for all converter registrations", "why_tests_cant": "All graphs, including cyclic.", "anchors": [{"file": "bayespy/inference/vmp/nodes/node.py", "symbols": ["Moments.get_converter", "Moments.add_converter"]}]}
{"id": "C36", "title": "VB.update performs at most `repeat` iterations and stops exactly on convergence", "statement": "VB.update(repeat=n) performs the minimal number k<=n of iterations such that iteration k converged, else n; each iteration updates the requested nodes in the given order, increases the iteration count by one and appends one bound value; with repeat=None it stops only on convergence.", "quantifier": "for all schedules of nodes, tolerances, bounds and histories", "why_tests_cant": "Unbounded executions.", "anchors": [{"file": "bayespy/inference/vmp/vmp.py", "symbols": ["VB.update", "VB._end_iteration_step", "VB.has_converged"]}]}
{"id": "C37", "title": "The history of lower bounds is append-only", "statement": "For every history of updates, loading excluded, VB.L[:iter] and VB.l[node][:iter] are never modified by later operations, and the entry i of L equals the sum of the entries i of all l[node].", "quantifier": "for all histories of update, optimize and repeat calls", "why_tests_cant": "Unbounded executions.", "anchors": [{"file": "bayespy/inference/vmp/vmp.py", "symbols": ["VB._append_iterations", "VB._end_iteration_step", "VB.loglikelihood_lowerbound", "VB.compute_lowerbound"]}]}
{"id": "C38", "title": "Saving and loading restores the inference state", "statement": "load(filename) after save(filename) into an equally constructed model restores all moments, parameters, observation masks, iteration count and the bound history, so that continuing gives the same results as not having stopped. ", "quantifier": "for all states and histories, all sets of saved nodes", "why_tests_cant": "All states; crash/restart points unbounded.", "anchors": [{"file": "bayespy/inference/vmp/vmp.py", "symbols": ["VB.save", "VB.load", "VB._end_iteration_step"]}, {"file": "bayespy/inference/vmp/nodes/stochastic.py", "symbols": ["Stochastic._save", "Stochastic._load"]}, {"file": "bayespy/inference/vmp/nodes/expfamily.py", "symbols": ["ExponentialFamily._save", "ExponentialFamily._load"]}]}
{"id": "C39", "title": "A failing save does not destroy the previous checkpoint", "statement": "If save(filename) raises (or the process dies during the save) the previously saved checkpoint in the same file is still loadable.", "quantifier": "for every crash point during save", "why_tests_cant": "Crash points cannot be enumerated by unit tests.", "anchors": [{"file": "bayespy/inference/vmp/vmp.py", "symbols": ["VB.save"]}]}
{"id": "C40", "title": "Nodes in a VB model have unique names", "statement": "Constructing VB with two distinct nodes of the same (non-empty) name raises, so that indexing by name is unambiguous and save/load cannot mix up nodes.", "quantifier": "for all lists of nodes", "why_tests_cant": "All lists.", "anchors": [{"file": "bayespy/inference/vmp/vmp.py", "symbols": ["VB.__init__", "VB.__getitem__"]}]}
{"id": "C41", "title": "The lower bound sums each node once", "statement": "VB.loglikelihood_lowerbound()/compute_lowerbound() is the sum of the contributions of the distinct nodes of the model and does not depend on the order in which nodes were given nor on repeated mentions.", "quantifier": "for all lists of nodes with repetitions", "why_tests_cant": "All lists.", "anchors": [{"file": "bayespy/inference/vmp/vmp.py", "symbols": ["VB.__init__", "VB.compute_lowerbound", "VB.loglikelihood_lowerbound"]}, {"file": "bayespy/utils/misc.py", "symbols": ["unique"]}]}
{"id": "C42", "title": "Gradient optimisation never accepts a decreasing step", "statement": "VB.optimize accepts a new parameter value only if the bound does not decrease relative to the last accepted point; otherwise the parameters are reset to it. Pattern search likewise never ends with a smaller bound than it started with.", "quantifier": "for all objective functions and step sequences", "why_tests_cant": "All executions.", "anchors": [{"file": "bayespy/inference/vmp/vmp.py", "symbols": ["VB.optimize", "VB.pattern_search"]}]}
{"id": "C43", "title": "logsumexp and normalized_exp are exact and shift invariant", "statement": "misc.logsumexp(X) equals log(sum(exp(X))) and is unaffected by the internal shift; misc.normalized_exp returns positive numbers that sum to one and are proportional to exp, together with the log-normaliser; adding a constant to all inputs does not change the probabilities.", "quantifier": "for all real arrays along the reduced axis of positive length", "why_tests_cant": "Universal over reals.", "anchors": [{"file": "bayespy/utils/misc.py", "symbols": ["logsumexp", "normalized_exp"]}]}
{"id": "C44", "title": "unique removes duplicates keeping first occurrences in order", "statement": "misc.unique(l) contains exactly the elements of l, each once, in the order of first occurrence.", "quantifier": "for all lists", "why_tests_cant": "All lists.", "anchors": [{"file": "bayespy/utils/misc.py", "symbols": ["unique"]}]}
{"id": "C45", "title": "Integer helper functions are exact", "statement": "misc.ceildiv(a,b) is the ceiling of a/b for all integers a and nonzero b; node.slicelen gives the number of elements a slice selects; misc.zipper_merge interleaves; misc.find_set_index finds the block containing an index.", "quantifier": "for all integers / lists", "why_tests_cant": "Infinite integer domains, sign combinations.", "anchors": [{"file": "bayespy/utils/misc.py", "symbols": ["ceildiv", "zipper_merge", "find_set_index"]}, {"file": "bayespy/inference/vmp/nodes/node.py", "symbols": ["slicelen"]}]}
{"id": "C46", "title": "Rotating or translating a Gaussian posterior keeps parameters and moments consistent", "statement": "After rotate(R) (and translate(b)) the stored moments and cgf are exactly those which recomputing them from the stored natural parameters would give; rotating by R and then by R^{-1} restores the node; rotating a factor pair oppositely leaves the product unchanged.", "quantifier": "for all dimensions, invertible R, shifts b and all posterior parameters", "why_tests_cant": "Identity over all invertible matrices of all sizes.", "anchors": [{"file": "bayespy/inference/vmp/nodes/gaussian.py", "symbols": ["Gaussian.rotate", "_GaussianTemplate.translate", "GaussianGamma.rotate", "GaussianGamma.translate"]}, {"file": "bayespy/inference/vmp/nodes/gaussian_markov_chain.py", "symbols": ["TemplateGaussianMarkovChainDistribution.rotate"]}]}
{"id": "C47", "title": "random.intervals returns non-overlapping intervals inside the sequence", "statement": "For every possible random draw, the returned starts are increasing, consecutive intervals are separated by at least `gap`, and all intervals lie in [0,N); the call raises iff they cannot fit.", "quantifier": "for all N, length, amount, gap and every outcome of the random generator", "why_tests_cant": "The random outcomes cannot be exhausted.", "anchors": [{"file": "bayespy/utils/random.py", "symbols": ["intervals"]}]}
{"id": "C48", "title": "block_banded builds the block tridiagonal matrix that block_banded_solve inverts", "statement": "misc.block_banded(D, B) places D[n] at diagonal block n, B[n] at block (n,n+1), its transpose at (n+1,n), zero elsewhere.", "quantifier": "for all numbers and sizes of blocks (sizes may vary)", "why_tests_cant": "All sizes.", "anchors": [{"file": "bayespy/utils/misc.py", "symbols": ["block_banded"]}]}
{"id": "C49", "title": "Batched triangular/Cholesky solves handle each plate with its own matrix", "statement": "linalg.chol_solve(U,b) (and solve_triangular, chol_inv) gives for each plate of the broadcast plates of U and b the solution of the system of this plate.", "quantifier": "for all broadcast-compatible plates of U and b", "why_tests_cant": "All plate shape combinations.", "anchors": [{"file": "bayespy/utils/linalg.py", "symbols": ["chol_solve", "solve_triangular", "chol_inv"]}]}
{"id": "C50", "title": "Mixture messages weigh each cluster by its responsibility", "statement": "In a Mixture, the natural parameters equal the responsibility-weighted sums over clusters, the message to the selector is the expected log-density per cluster and the message to the cluster parameters is the underlying distribution's message weighted by responsibility; for every cluster plate axis.", "quantifier": "for all numbers of clusters, cluster plates and moments", "why_tests_cant": "Identity over all inputs and axis positions.", "anchors": [{"file": "bayespy/inference/vmp/nodes/mixture.py", "symbols": ["MixtureDistribution"]}]}
{"id": "C51", "title": "misc.mean and masks ignore missing values exactly", "statement": "misc.mean(X) ignoring NaNs equals the mean over the non-missing elements.", "quantifier": "for all arrays with any pattern of missing values", "why_tests_cant": "All missing patterns.", "anchors": [{"file": "bayespy/utils/misc.py", "symbols": ["mean"]}]}
{"id": "C52", "title": "Automatic saves happen at the right iterations", "statement": "With autosave every N iterations, an iteration that ends writes the checkpoint iff the new iteration count is a multiple of N, and what is written is what save() would write after that iteration apart from the counter.", "quantifier": "for all models, callbacks, settings and iteration counts", "why_tests_cant": "All iteration histories.", "anchors": [{"file": "bayespy/inference/vmp/vmp.py", "symbols": ["VB._end_iteration_step", "VB.set_autosave", "VB.save"]}]}
{"id": "C53", "title": "Changing the annealing coefficient never looks like convergence", "statement": "set_annealing sets the coefficient of exactly the nodes of the model, changes nothing else in the nodes, and the iteration that follows is never reported as converged.", "quantifier": "for all models, coefficients, states and tolerances", "why_tests_cant": "All reachable engine states.", "anchors": [{"file": "bayespy/inference/vmp/vmp.py", "symbols": ["VB.set_annealing", "VB._end_iteration_step"]}]}
{"id": "C54", "title": "block_banded_solve succeeds exactly for positive definite systems", "statement": "block_banded_solve returns a result iff the symmetric block tridiagonal matrix is positive definite; otherwise it raises, and wrong numbers of blocks raise ValueError.", "quantifier": "for all numbers and sizes of blocks and all symmetric diagonal blocks", "why_tests_cant": "All matrices.", "anchors": [{"file": "bayespy/utils/linalg.py", "symbols": ["block_banded_solve", "chol"]}]}
{"id": "C55", "title": "Messages of several children add up", "statement": "The message a node receives from its children is, at every plate and dimension, the sum of the messages each child sends (absent messages count as zero), and it broadcasts to the node's plates and dims.", "quantifier": "for any number of children and all message shapes that broadcast to the node", "why_tests_cant": "Any number of children with any broadcast patterns.", "anchors": [{"file": "bayespy/inference/vmp/nodes/node.py", "symbols": ["Node._message_from_children"]}]}
{"id": "C56", "title": "Node._compute_message sums the product of its arrays to the requested plates", "statement": "The array returned by Node._compute_message(*arrays, plates_from, plates_to, ndim) pairs with any moments of a parent with plates plates_to exactly as the product of the arrays, broadcast to all of plates_from, pairs with them; shapes that do not broadcast raise ValueError.", "quantifier": "for all arrays, plates without empty axes and numbers of variable axes", "why_tests_cant": "Shapes and broadcasting patterns form an infinite family; a missing multiplier only shows for particular combinations of unit axes.", "anchors": [{"file": "bayespy/inference/vmp/nodes/node.py", "symbols": ["Node._compute_message"]}]}
{"id": "C57", "title": "get_gradient is the gradient of the lower bound with respect to the natural parameters", "statement": "For every distribution with compute_gradient (Gamma, Dirichlet, Multinomial, Gaussian, GaussianARD), compute_gradient(g, u, phi) is the transposed Jacobian of the moments at phi applied to g; consequently get_gradient(get_riemannian_gradient()) is the gradient of the VB lower bound with respect to the natural parameters of the node, the others fixed, for any annealing value.", "quantifier": "for all natural parameters in the domain, all g, all directions and all networks of the modelled kind", "why_tests_cant": "Numerical differentiation checks a few points up to a tolerance; the claim is an identity at all parameters and in all networks.", "anchors": [{"file": "bayespy/inference/vmp/nodes/expfamily.py", "symbols": ["get_gradient", "get_riemannian_gradient"]}, {"file": "bayespy/inference/vmp/nodes/gamma.py", "symbols": ["compute_gradient"]}, {"file": "bayespy/inference/vmp/nodes/dirichlet.py", "symbols": ["compute_gradient"]}, {"file": "bayespy/inference/vmp/nodes/multinomial.py", "symbols": ["compute_gradient"]}, {"file": "bayespy/inference/vmp/nodes/gaussian.py", "symbols": ["compute_gradient"]}]}
{"id": "C58", "title": "Rotation changes the lower bound by exactly minus the change of the optimiser's cost", "statement": "When RotationOptimizer.rotate applies an invertible R to the blocks RotateGaussianARD(X) and RotateGaussianARD(W, alpha) of a factor model, the VB lower bound of the whole model changes by exactly cost(I) - cost(R), where cost is the function handed to the optimiser; hence if the returned R has a cost not above that of the identity, the lower bound does not decrease.", "quantifier": "for all dimensions, data, masks, states with proper distributions and all invertible R", "why_tests_cant": "The check_bound option compares single numbers at run time; the identity has to hold for all R, moments and priors.", "anchors": [{"file": "bayespy/inference/vmp/transformations.py", "symbols": ["RotationOptimizer.rotate", "RotateGaussianARD._compute_bound", "RotateGaussianARD.rotate", "RotateGaussianARD.setup"]}]}
{"id": "C59", "title": "The gradient returned by the rotation cost function is its gradient", "statement": "The second component returned by the cost function of RotationOptimizer.rotate is the gradient of the first component with respect to R, with RotateGaussianARD blocks with and without an updated precision node.", "quantifier": "for all invertible R, directions, moments, prior shapes and rates", "why_tests_cant": "optimize.check_gradient compares numerically at one random R with tolerance; the claim is for all R and priors.", "anchors": [{"file": "bayespy/inference/vmp/transformations.py", "symbols": ["RotationOptimizer.rotate", "RotateGaussianARD._compute_bound"]}]}
{"id": "C60", "title": "The point estimate nodes maximise their part of the lower bound", "statement": "The update of GammaShape and of Concentration sets the node to the value that maximises the terms of the VB lower bound that depend on it (the messages from the children and its own contribution); the update of Concentration ends, and neither update decreases the bound; with observed children the estimate is the maximum likelihood estimate.", "quantifier": "for all messages, regularisations, earlier values, numbers of categories, plates and data", "why_tests_cant": "Tests compare one estimate with a tolerance; the claim is about all data, and that there is a maximiser and that the loop ends is not visible from examples.", "anchors": [{"file": "bayespy/inference/vmp/nodes/gamma.py", "symbols": ["GammaShape"]}, {"file": "bayespy/inference/vmp/nodes/dirichlet.py", "symbols": ["Concentration"]}, {"file": "bayespy/utils/misc.py", "symbols": ["invpsi"]}, {"file": "bayespy/inference/vmp/vmp.py", "symbols": ["compute_lowerbound", "loglikelihood_lowerbound"]}]}
{"id": "C61", "title": "random() draws from the node's distribution and leaves the node alone", "statement": "Node.random() of a stochastic node returns a sample of the distribution q that the node currently has, that is, the distribution whose density pdf() computes, and changes nothing in the node: phi, the moments, the lower bound and pdf() are the same before and after.", "quantifier": "for all natural parameters in the domain, all dimensions and all draws of the random number generator", "why_tests_cant": "A sample has to be compared with a distribution: tests can only fix a seed or check shapes, and a wrong distribution or a change of the node shows in no single draw.", "anchors": [{"file": "bayespy/utils/random.py", "symbols": ["categorical", "bernoulli", "mask", "gamma", "dirichlet", "multinomial", "logodds_to_probability", "wishart"]}, {"file": "bayespy/inference/vmp/nodes/categorical.py", "symbols": ["CategoricalDistribution.random"]}, {"file": "bayespy/inference/vmp/nodes/categorical_markov_chain.py", "symbols": ["CategoricalMarkovChainDistribution.random"]}, {"file": "bayespy/inference/vmp/nodes/gaussian.py", "symbols": ["GaussianDistribution.random", "GaussianARDDistribution.random", "GaussianGammaDistribution.random"]}, {"file": "bayespy/inference/vmp/nodes/expfamily.py", "symbols": ["ExponentialFamily.random"]}]}
{"id": "C62", "title": "Values are accepted exactly if they lie in the support, and get the statistics of the distribution", "statement": "For Poisson, binomial, Bernoulli, multinomial, gamma, Dirichlet, beta and Wishart nodes, observe(x) raises if and only if some observed element of x lies outside of the support of the distribution; otherwise the stored moments are the sufficient statistics of exactly these values and f is the logarithm of the base measure, so that logpdf(x) is a finite number at each value of positive density. Elements which the mask excludes do not matter, and initialize_from_value accepts exactly the same values.", "quantifier": "all arrays of all shapes and integer types, all numbers of trials with plates, NaN and infinities, all masks", "why_tests_cant": "tests observe a few small valid values of the default integer type", "anchors": [{"file": "bayespy/inference/vmp/nodes/poisson.py", "symbols": ["PoissonDistribution.compute_fixed_moments_and_f", "PoissonMoments.compute_fixed_moments"]}, {"file": "bayespy/inference/vmp/nodes/binomial.py", "symbols": ["BinomialDistribution.compute_fixed_moments_and_f", "BinomialMoments.compute_fixed_moments"]}, {"file": "bayespy/inference/vmp/nodes/multinomial.py", "symbols": ["MultinomialDistribution.compute_fixed_moments_and_f", "MultinomialMoments.compute_fixed_moments"]}, {"file": "bayespy/inference/vmp/nodes/gamma.py", "symbols": ["GammaDistribution.compute_fixed_moments_and_f"]}, {"file": "bayespy/inference/vmp/nodes/dirichlet.py", "symbols": ["DirichletDistribution.compute_fixed_moments_and_f"]}, {"file": "bayespy/inference/vmp/nodes/beta.py", "symbols": ["BetaDistribution.compute_fixed_moments_and_f"]}, {"file": "bayespy/inference/vmp/nodes/wishart.py", "symbols": ["WishartDistribution.compute_fixed_moments_and_f"]}, {"file": "bayespy/inference/vmp/nodes/expfamily.py", "symbols": ["ExponentialFamily.observe", "ExponentialFamily.initialize_from_value", "ExponentialFamily.logpdf"]}]}
{"id": "C63", "title": "Marginal distributions of a Gaussian-gamma node", "statement": "For a Gaussian-gamma node with positive definite precision and positive shape and rate: the function returned by get_marginal_logpdf is the logarithm of the density of the chosen variables (a Student t for elements of the vector, a gamma for the scale, a Gaussian-gamma for both), that is, integrating its exponential over any measurable set gives the probability that the node's distribution assigns to it; get_gaussian_location and get_gaussian_mean_and_variance return the mean and the variance of the elements; and plotmatrix draws the density of each element.", "quantifier": "all dimensions, all natural parameters with positive definite precision and positive shape and rate, all selections of distinct elements, all measurable sets", "why_tests_cant": "The functions return numbers for any input; that a number is the value of a density can only be seen from integrals over all of space, and the distributions have continuous parameters", "anchors": [{"file": "bayespy/inference/vmp/nodes/gaussian.py", "symbols": ["GaussianGamma.get_marginal_logpdf", "GaussianGamma.get_gaussian_mean_and_variance", "GaussianGamma.get_gaussian_location", "GaussianGamma.plotmatrix"]}, {"file": "bayespy/utils/random.py", "symbols": ["gaussian_gamma_to_t", "t_logpdf", "gaussian_logpdf", "gamma_logpdf"]}]}
{"id": "C64", "title": "Unit plate axes of the parents of chains mean repetition", "statement": "Whenever the moment arrays of the parents have unit length along a plate axis instead of the full length, the natural parameters, the cumulant and the messages of Gaussian Markov chains, chains with varying dynamics, discrete chains and diagonal Wishart converters are those for arrays in which the entry is repeated to the full length; no combination of plates which the constructor accepts makes the update raise.", "quantifier": "all chain lengths, dimensions and numbers of inputs, all moment arrays of all shapes that broadcast to the plates of the parents, all plates", "why_tests_cant": "Tests give parents with full arrays; the combinations of unit and missing axes of several parents are many, and a wrong broadcast gives numbers of the right shape", "anchors": [{"file": "bayespy/inference/vmp/nodes/gaussian_markov_chain.py", "symbols": ["GaussianMarkovChainDistribution.compute_phi_from_parents", "GaussianMarkovChainDistribution.compute_message_to_parent", "_compute_cgf_for_gaussian_markov_chain", "VaryingGaussianMarkovChainDistribution.compute_phi_from_parents"]}, {"file": "bayespy/inference/vmp/nodes/gamma.py", "symbols": ["_GammaToDiagonalWishart.get_moments"]}, {"file": "bayespy/inference/vmp/nodes/categorical_markov_chain.py", "symbols": ["CategoricalMarkovChainDistribution.compute_phi_from_parents"]}, {"file": "bayespy/utils/misc.py", "symbols": ["diag"]}]}
{"id": "C65", "title": "Predictive density of a mixture", "statement": "Mixture.integrated_logpdf_from_parents(x, 0) returns log sum_k <z_k> exp(<log p(x|theta_k)>) for every evaluated point, for any cluster_plate and any broadcastable plates, without overflow in the exponentials, and hence at least the average of the expected log-densities.", "quantifier": "for all ranks, plates, broadcastable shapes, numbers of clusters, moments, parameters and probabilities", "why_tests_cant": "The tests of the mixture node do not call this function; a wrong axis is invisible when cluster_plate is -1.", "anchors": [{"file": "bayespy/inference/vmp/nodes/mixture.py", "symbols": ["integrated_logpdf_from_parents"]}]}
{"id": "C66", "title": "Bound of the rotation of Gaussian Markov chains", "statement": "For chains with unit innovation noise, an ARD precision whose prior has constant parameters, and every invertible rotation whose columns do not sum to zero, the terms of the chain, of the dynamics matrix and of its ARD precision in the lower bound after RotateGaussianMarkovChain.rotate and an update of the precision differ from the value of RotateGaussianMarkovChain.bound by a constant which does not depend on the rotation; RotateGaussianARD.bound with a plate rotation Q matches rotate and rotate_plates in the same way, with and without precomputed sums.", "quantifier": "for all dimensions, lengths, inputs, plates, shared dynamics, moments, posterior states, rotations R and plate rotations Q", "why_tests_cant": "The tests compare one small chain with random rotations numerically; plates, inputs and precomputation are sampled, not covered.", "anchors": [{"file": "bayespy/inference/vmp/transformations.py", "symbols": ["RotateGaussianMarkovChain.bound", "RotateGaussianMarkovChain.rotate", "RotateGaussianMarkovChain._compute_bound", "RotateGaussianMarkovChain.setup", "RotateGaussianARD._compute_bound"]}, {"file": "bayespy/inference/vmp/nodes/gaussian.py", "symbols": ["rotate_plates"]}]}
{"id": "C67", "title": "Gradient of the rotation cost of Gaussian Markov chains", "statement": "For chains with unit innovation noise, an ARD precision whose prior has constant parameters, and every invertible rotation whose columns do not sum to zero, the gradient which RotateGaussianMarkovChain.bound returns is the gradient of the bound it returns; the two gradients of RotateGaussianARD.bound with a plate rotation are the gradients by R and by Q, with and without precomputed sums; and hence RotationOptimizer hands the optimiser the gradient of its cost.", "quantifier": "for all dimensions, lengths, inputs, plates, shared dynamics, moments, posterior states, rotations R, plate rotations Q and directions", "why_tests_cant": "The tests compare the gradient with finite differences at a few random points of small models, to a tolerance.", "anchors": [{"file": "bayespy/inference/vmp/transformations.py", "symbols": ["RotateGaussianMarkovChain.bound", "RotateGaussianMarkovChain._compute_bound", "RotateGaussianARD.bound", "RotateGaussianARD._compute_bound", "RotationOptimizer.rotate"]}]}
{"id": "C68", "title": "Rotation of the linear state-space model", "statement": "In the linear state-space model of the documentation (Gaussian Markov chain X with dynamics A under ARD, optional constant inputs, emission matrix C under ARD, observations with missing values), when RotationOptimizer.rotate applies a matrix R to RotateGaussianMarkovChain(X, RotateGaussianARD(A, alpha)) and RotateGaussianARD(C, gamma), the lower bound of the whole model changes, compared with the rotation by the identity, by exactly minus the change of the cost function; so if the cost of R is not larger than that of the identity, the lower bound is not smaller than before. After the rotation all moments and normalisers again belong to the stored parameters. The second value of the cost function is its gradient, and minus the gradient of that lower bound, if also the shape hyperparameters of gamma are the same for all elements.", "quantifier": "all sizes (at least one state, one transition and one row), all inputs, data, masks with an observed value in every row, prior means and positive hyperparameters (those of alpha the same for all its elements), all reachable states, both values of precompute, all invertible R whose columns do not sum to zero", "why_tests_cant": "The example scripts check only that the bound grows in a few runs; the cost is a closed formula of stored sums which tests compare at single points, and only up to the accuracy of finite differences.", "anchors": [{"file": "bayespy/inference/vmp/transformations.py", "symbols": ["RotationOptimizer.rotate", "RotateGaussianMarkovChain.bound", "RotateGaussianMarkovChain.rotate", "RotateGaussianARD.bound"]}, {"file": "bayespy/inference/vmp/nodes/gaussian_markov_chain.py", "symbols": ["GaussianMarkovChain.rotate"]}]}
{"id": "C69", "title": "The plates of a constructed node fit its parents", "statement": "For every stochastic node with its own plate maps (GaussianARD, the Gaussian Markov chains, the categorical Markov chain, mixtures of any of these, and the nodes with the default maps) and for the nodes Gate and those turning a chain into a plate axis: if the constructor accepts the parents and the given plates, then the plates of every parent broadcast to the plates the node reports towards that parent (plates_to_parent), given plates are used as they are, and otherwise the node has the least plates with this property.", "quantifier": "for all plates of the parents, all given plates or none, all chain lengths, numbers of clusters, positions of the cluster plate and shapes", "why_tests_cant": "The maps are indexed by parent and cut and append tuples of arbitrary length; tests use a few shapes with all plates present, so missing leading axes, axes of length one, nested mixtures and cluster plates other than the last are not exercised together.", "anchors": [{"file": "bayespy/inference/vmp/nodes/node.py", "symbols": ["Node.__init__", "Node._total_plates"]}, {"file": "bayespy/inference/vmp/nodes/gaussian.py", "symbols": ["GaussianARDDistribution.plates_to_parent", "GaussianARDDistribution.plates_from_parent", "GaussianARD._constructor"]}, {"file": "bayespy/inference/vmp/nodes/gaussian_markov_chain.py", "symbols": ["GaussianMarkovChain._constructor", "VaryingGaussianMarkovChain._constructor", "SwitchingGaussianMarkovChain._constructor"]}, {"file": "bayespy/inference/vmp/nodes/mixture.py", "symbols": ["Mixture._constructor", "MixtureDistribution.plates_to_parent"]}, {"file": "bayespy/inference/vmp/nodes/categorical_markov_chain.py", "symbols": ["CategoricalMarkovChain._constructor"]}]}
{"id": "C70", "title": "Masks given to parents mark exactly the elements which matter", "statement": "The mask which a node gives to a parent is true at an element of the parent iff some unmasked variable of the node depends on that element. A Gaussian with a shape depends on one mean per element; a Markov chain on its initial state, and on the dynamics and noise of each transition; a mixture on its assignments and the parameters of all clusters; a mixture of any of these on the elements of each cluster. Where the plates of the node are parts of one parent variable (states of a chain, rows of a Gaussian array), the parent is active iff one of the parts is.", "quantifier": "All kinds of nodes including nested mixtures, all plates and parent plates without empty axes, all masks which broadcast to the plates of the node.", "why_tests_cant": "Tests use full masks or a mask on one plate axis with one kind of parent; a mask put on the wrong axis still has a valid shape when the lengths agree or are one.", "anchors": [{"file": "bayespy/inference/vmp/nodes/node.py", "symbols": ["_mask_to_parent"]}, {"file": "bayespy/inference/vmp/nodes/mixture.py", "symbols": ["compute_weights_to_parent"]}, {"file": "bayespy/inference/vmp/nodes/gaussian_markov_chain.py", "symbols": ["compute_weights_to_parent"]}, {"file": "bayespy/inference/vmp/nodes/gaussian.py", "symbols": ["compute_weights_to_parent"]}, {"file": "bayespy/inference/vmp/nodes/categorical_markov_chain.py", "symbols": ["compute_weights_to_parent"]}]}
{"id": "C71", "title": "Plate multipliers of parents carry over to the plates of the node", "statement": "Unless it is given, the plate multiplier of a node is the least which agrees with that of each parent on the plates that the node shares with the parent. Axes which only the parent has (times of a chain, clusters of a mixture, elements of a Gaussian array) do not contribute, and axes which only the node has get multiplier one. The factor applied to messages is the ratio of the products of the multipliers. Nodes which cannot handle multipliers raise.", "quantifier": "All kinds of nodes, any number of parents, all multipliers.", "why_tests_cant": "Stochastic updates are tested with one multiplier on a single shared plate axis; a multiplier on the wrong axis scales messages and the bound wrongly without any error.", "anchors": [{"file": "bayespy/inference/vmp/nodes/node.py", "symbols": ["_compute_plates_multiplier_from_parent", "_plates_multiplier_from_parent", "_total_plates"]}, {"file": "bayespy/inference/vmp/nodes/gaussian.py", "symbols": ["plates_multiplier_from_parent"]}, {"file": "bayespy/inference/vmp/nodes/take.py", "symbols": ["_compute_plates_multiplier_from_parent"]}, {"file": "bayespy/inference/vmp/nodes/concatenate.py", "symbols": ["_plates_multiplier_from_parent"]}]}
{"id": "C72", "title": "Densities and entropies are densities and entropies", "statement": "gaussian_logpdf and gamma_logpdf, given the terms their docstrings name, are the logarithms of the normal and gamma densities; gaussian_entropy and gamma_entropy are the differential entropies, minus the integral of the density times its logarithm; giving them the gradients of the terms gives the gradient; logodds_to_probability is the inverse of the log odds.", "quantifier": "all dimensionalities, means, positive definite precisions, positive shapes and rates, points and differentiable paths of the terms", "why_tests_cant": "The integrals are over all of the space and the tests compare formulas at a few points at most", "anchors": [{"file": "bayespy/utils/random.py", "symbols": ["gaussian_logpdf", "gaussian_entropy", "gamma_logpdf", "gamma_entropy", "logodds_to_probability"]}]}
{"id": "C73", "title": "Random matrices and points of the sphere are what their names say", "statement": "random.covariance gives a positive definite matrix, the inverse of the scaled scatter of the draws, or raises ValueError when there are fewer degrees of freedom than dimensions or the draws are dependent; random.correlation gives a positive semidefinite matrix with unit diagonal and elements at most one in absolute value; random.svd(s) has the singular values |s|; random.sphere draws latitudes with the probability of the area of the sphere; dist_haversine is the angle between the points times the radius.", "quantifier": "all draws, dimensionalities, degrees of freedom, points and radii", "why_tests_cant": "The functions are random: tests see a few draws", "anchors": [{"file": "bayespy/utils/random.py", "symbols": ["covariance", "correlation", "svd", "sphere"]}, {"file": "bayespy/utils/misc.py", "symbols": ["dist_haversine"]}]}
{"id": "C74", "title": "The inverse digamma function is accurate", "statement": "misc.invpsi(x), five Newton steps from its starting point, is positive and differs from the unique positive y with digamma(y) = x by less than 1e-7 relative to y; each further step squares the relative error.", "quantifier": "all real x", "why_tests_cant": "An iteration that diverges or goes negative for some x far from those tested would not be seen; the tests try a few values", "anchors": [{"file": "bayespy/utils/misc.py", "symbols": ["invpsi"]}]}
{"id": "C75", "title": "Gradients of maximum likelihood nodes are gradients of the lower bound", "statement": "The gradients which VB.optimize gets from the MaximumLikelihood nodes of a model are together the gradient of the lower bound with respect to their values, including the regularisation: through any number of Function nodes, with shared parents and the same parent given twice, provided that the user's gradients are those of the functions. A maximum likelihood node in place of a Wishart node gets the gradient of the terms of the bound in the matrix and in its log determinant.", "quantifier": "all networks of functions, differentiable functions, values and paths of values, positive definite matrices of every size", "why_tests_cant": "A path through several functions with a shared parent, whose contributions must be added exactly once, is not among the tested models; finite differences at a few points do not show that a term is missing when it is zero there", "anchors": [{"file": "bayespy/inference/vmp/nodes/ml.py", "symbols": ["MaximumLikelihood", "Function", "DeltaInstanceConverter"]}, {"file": "bayespy/inference/vmp/nodes/wishart.py", "symbols": ["WishartMoments.compute_fixed_moments"]}, {"file": "bayespy/inference/vmp/nodes/node.py", "symbols": ["Node._message_from_children"]}]}
{"id": "C76", "title": "Matrices over several axes are matrices", "statement": "misc.flatten_axes joins each block of trailing axes into one axis in C order, an empty block giving a unit axis, and misc.reshape_axes is its inverse; wrong numbers of axes or sizes raise ValueError. With ndim axes for rows and for columns, linalg.chol gives upper triangular factors in the order of the rows (or raises when a matrix is not positive definite), chol_inv the inverse over the multi-indices, chol_logdet the logarithm of the determinant, and chol_solve the solution of the linear system, for vectors and for matrices, on every plate on which the factors vary only where the right hand side does.", "quantifier": "all shapes, numbers of axes (including none), plates and positive definite matrices", "why_tests_cant": "Tests use a few small shapes with one or two axes, where a transposed order or a mix-up of blocks can go unnoticed, and diagonal matrices hide them", "anchors": [{"file": "bayespy/utils/misc.py", "symbols": ["flatten_axes", "reshape_axes"]}, {"file": "bayespy/utils/linalg.py", "symbols": ["chol", "chol_solve", "chol_inv", "chol_logdet"]}]}
{"id": "C77", "title": "Covariance functions give covariance matrices and their gradients", "statement": "For inputs given as a number, a vector of numbers or a matrix with one point per row, covfunc_se returns the squared exponential covariances of all pairs of points (the variances, if no second input is given) and, if asked, the exact derivatives with respect to amplitude and lengthscale; the matrix of one set of points is positive semidefinite, and positive definite exactly if the points are different. covfunc_delta returns the amplitude squared times the identity for a set with itself and zeros for another array, with its derivative. gp_cov_pp2 and gp_cov_pp2_new return the piecewise polynomial covariance function and its derivatives. covfunc_zeros and covfunc_pp2 return the matrices of their covariance functions.", "quantifier": "for all numbers of points and coordinates (also none), all points, all nonzero amplitudes and lengthscales, all distances r and dimensions d", "why_tests_cant": "Positive definiteness for every set of different points and derivatives at every parameter are statements about infinitely many inputs; finite differences only check a few points up to rounding.", "anchors": [{"file": "bayespy/utils/covfunc/covariance.py", "symbols": ["gp_cov_se", "gp_cov_pp2_new", "gp_cov_pp2", "gp_cov_delta", "squared_distance", "gp_standardize_input", "gp_preprocess_inputs", "covfunc_zeros", "covfunc_delta", "covfunc_pp2", "covfunc_se"]}]}
{"id": "C78", "title": "Rotating chains with varying and switching dynamics", "statement": "RotateVaryingMarkovChain and RotateSwitchingMarkovChain can be constructed for the chains with varying and switching dynamics which they are documented for. For every invertible rotation, the bound which they compute from the sums of setup is, up to a constant, the terms of the chains in the lower bound after rotate, and the second value is its gradient. RotateMultiple adds the bounds and the gradients of its rotators.", "quantifier": "every number of chains, transitions, dimensions, inputs and dynamics matrices, every consistent state of the dynamics, every moments of the weights or probabilities of the states, every invertible rotation whose columns do not sum to zero, every list of rotators", "why_tests_cant": "There is no test of the switching rotator and only small random tests of the varying one, at sampled rotations; the demos which would construct them for their own node classes raise NotImplementedError first.", "anchors": [{"file": "bayespy/inference/vmp/transformations.py", "symbols": ["RotateVaryingMarkovChain", "RotateSwitchingMarkovChain", "RotateMultiple", "RotateGaussianMarkovChain"]}]}
{"id": "C79", "title": "Products and diagonals of arrays of matrices over several axes are those of the matrices", "statement": "For arrays whose last axes hold vectors and matrices over any axes, and whose other axes broadcast as NumPy's plates do, outer, inner, mvdot, mmdot, dot, tracedot, transpose, inv, diag, make_diag, get_diag, logdet_chol, logdet_tri and logdet_cov compute on every plate the outer product, the inner product, the product with a vector, the product of matrices, the trace of the product, the transpose, the inverse, the diagonal matrix, its diagonal and the log determinant of the matrices at that plate, for every number of axes that their docstrings allow, and the result has the broadcast plates. Singular matrices and lengths which do not fit are rejected.", "quantifier": "every plate shape that broadcasts, every number and length of axes, every number of factors, every real element", "why_tests_cant": "Tests use a few shapes of one or two axes and compare random numbers. Which axis meets which depends on the number of axes and plates of every factor, and each combination of unit axes is a different path.", "anchors": [{"file": "bayespy/utils/linalg.py", "symbols": ["inner", "outer", "_dot", "dot", "tracedot", "inv", "mvdot", "mmdot", "transpose", "logdet_chol", "logdet_tri", "logdet_cov"]}, {"file": "bayespy/utils/misc.py", "symbols": ["diag", "make_diag", "get_diag", "identity", "safe_indices"]}]}
{"id": "C80", "title": "The arrays of Gaussian and GaussianARD hold the right quantities on every plate, for variables over any axes", "statement": "For natural parameters and parent moments whose plates broadcast, and for variables over any number of axes of any lengths, the functions of GaussianDistribution and GaussianARDDistribution compute on every plate: the mean that solves Lambda m = phi0 with Lambda = -2 phi1, the second moment inv(Lambda) + m m^T, the cumulant function -1/2 m.phi0 + 1/2 log det(Lambda), for GaussianARD the natural parameters with a diagonal precision from elementwise parents, the sum of the elementwise cumulant functions, the message that is the expected log density against the parents' moments, and a mask that counts for all elements; for a fixed value its moments and the constant of the density over all elements; the Euclidean gradient with respect to the natural parameters; and a random draw whose factor is that of the precision. A fixed value of another shape is rejected.", "quantifier": "every plate shape that broadcasts, every number and length of variable axes, every positive definite precision, every real element", "why_tests_cant": "Tests check a few shapes of one or two variable axes against the same formulas in NumPy. Reshaping, broadcasting and the order of the axes depend on the number of axes and plates, and an element in the wrong place is seen only if the values differ there.", "anchors": [{"file": "bayespy/inference/vmp/nodes/gaussian.py", "symbols": ["GaussianDistribution", "GaussianARDDistribution"]}, {"file": "bayespy/utils/linalg.py", "symbols": ["solve_triangular", "chol", "chol_inv", "chol_solve", "chol_logdet"]}]}
{"id": "C81", "title": "The Gaussian-gamma and Wishart distributions and the wrappers hold on every plate of whole arrays", "statement": "For all plates that broadcast to the plates P of a node, all variable axes s and all arrays of moments, natural parameters and messages of the right shapes, with positive definite precision matrices on every plate: (1) GaussianGammaDistribution and WishartDistribution compute on every plate the exact moments and cumulant function of the natural parameters on that plate, and the moments of fixed values; (2) natural parameters, cumulant function at the parents and the message to each parent of Gaussian, GaussianGamma and Wishart nodes describe one and the same expected log density on every plate; (3) GaussianToGaussianGamma, WrapToGaussianGamma, WrapToGaussianWishart (for all node combinations its documentation lists) and scaled Wishart nodes compute the moments of the combined variable, and the message to each parent is the coefficient of the moments of that parent in the pairing of the message of the child with the combined moments; (4) with fewer degrees of freedom than allowed the Wishart node raises ValueError.", "quantifier": "all plates, broadcasting patterns, variable axes, arrays and plate positions", "why_tests_cant": "Unit tests check one or two shapes with plates that are equal in all parents; they cannot cover every pattern of broadcasting between the plates of the parents, every number of variable axes, nor show that the messages match the density for all values.", "anchors": [{"file": "bayespy/inference/vmp/nodes/gaussian.py", "symbols": ["GaussianGammaDistribution", "GaussianToGaussianGamma", "WrapToGaussianGamma", "WrapToGaussianWishart"]}, {"file": "bayespy/inference/vmp/nodes/wishart.py", "symbols": ["WishartDistribution", "WishartMoments", "_ScaledWishart"]}]}
{"id": "C82", "title": "Rotations and translations of Gaussian nodes on whole arrays", "statement": "For arrays with any plates, shared plates and any number of variable axes: (1) rotate_mean and rotate_covariance multiply the chosen axis of the variable, counted from either end, by the given matrix, or the matrix of each plate, on every plate, transpose_covariance transposes and matrix_dot_vector multiplies on every plate; (2) GaussianARD.rotate, Gaussian.rotate and GaussianGamma.rotate, with or without the inverse and the log determinant given, and the translate methods keep natural parameters, moments and cumulant function of the node consistent on every plate, and change the mean as asked; (3) GaussianARD.rotate_plates leaves a consistent node whose means are multiplied by the matrix along the plate axis; (4) axes out of range and biases of the wrong shape raise ValueError.", "quantifier": "all plates, broadcasting patterns, variable axes, matrices, biases and states of the node", "why_tests_cant": "Unit tests rotate one or two shapes and compare a few moments; they cannot cover every axis, every pattern of shared plates and every state, nor show that all five stored arrays stay consistent with each other.", "anchors": [{"file": "bayespy/inference/vmp/nodes/gaussian.py", "symbols": ["rotate_mean", "rotate_covariance", "left_rotate_covariance", "right_rotate_covariance", "transpose_covariance", "matrix_dot_vector", "Gaussian", "GaussianARD", "GaussianGamma"]}]}
{"id": "C83", "title": "Lower bound and log density of a node on whole arrays", "statement": "For an exponential-family node with any plates, dimensions and broadcasting of its arrays: (1) lower_bound_contribution is the sum over the unmasked plates, times the plate multipliers, of <phi_p, u> + g_p + f on observed plates and <phi_p - phi_q/annealing, u> + g_p - g_q/annealing on latent plates, whatever is stored in the entries that do not matter there (f on latent plates, g and phi of q on observed plates, infinite parameters where the moment is zero); (2) with ignore_masked=False it is the sum over all plates; (3) annealing zero raises ZeroDivisionError; (4) logpdf is <phi, u> + g + f on every plate, infinite parameters where the moment is zero contributing nothing, and any mask raises NotImplementedError.", "quantifier": "all plates, dimensions, broadcasting patterns, masks, observed plates, annealing values and stored arrays including NaN and infinities", "why_tests_cant": "Tests evaluate the bound on a few models with finite parameters; they cannot show that NaN or infinite entries never leak into the sum, or that every pattern of shared plates is counted with the right multiplicity.", "anchors": [{"file": "bayespy/inference/vmp/nodes/expfamily.py", "symbols": ["lower_bound_contribution", "logpdf", "ExponentialFamily"]}]}
{"id": "C84", "title": "Gamma, Poisson, binomial, Dirichlet and multinomial formulas on whole arrays", "statement": "For arrays with any plates and shared plates: (1) on every plate, the natural parameters and cumulant function computed from the parents, paired with the moments of the variable, and every message to a parent, paired with the moments of that parent, equal the expected log density of the distribution up to terms without these moments; (2) moments and cumulant function computed from natural parameters are those of the distribution on every plate, for the multinomial also where parameters are -inf (impossible categories) and NaN only on plates without a possible category; (3) logsumexp subtracts the largest parameter of the plate; (4) the gradient of the gamma distribution is the derivative with respect to the natural parameters on every plate; (5) parent indices out of range, non-positive rates and concentrations, and no categories raise.", "quantifier": "all plates, broadcasting patterns, numbers of categories, numbers of trials and parameters", "why_tests_cant": "Unit tests compare a few shapes with finite parameters; they cannot cover every broadcasting pattern or every pattern of impossible categories.", "anchors": [{"file": "bayespy/inference/vmp/nodes/gamma.py", "symbols": ["GammaDistribution"]}, {"file": "bayespy/inference/vmp/nodes/poisson.py", "symbols": ["PoissonDistribution"]}, {"file": "bayespy/inference/vmp/nodes/binomial.py", "symbols": ["BinomialDistribution"]}, {"file": "bayespy/inference/vmp/nodes/dirichlet.py", "symbols": ["DirichletDistribution"]}, {"file": "bayespy/inference/vmp/nodes/multinomial.py", "symbols": ["MultinomialDistribution"]}, {"file": "bayespy/utils/misc.py", "symbols": ["logsumexp", "normalized_exp"]}]}
{"id": "C85", "title": "The smoother of Gaussian Markov chains is right on every plate", "statement": "linalg.block_banded_solve and GaussianMarkovChainDistribution.compute_moments_and_cgf, called with arrays whose plate axes broadcast together, give on every plate the solution, the diagonal and super-diagonal blocks of the inverse and the log determinant of the block tridiagonal matrix of that plate, and hence the mean, second moments and log normaliser of the Gaussian with the natural parameters of that plate; they raise an exception if the matrix of some plate is not positive definite, and ValueError if the numbers of time instances or dimensions do not fit together.", "quantifier": "All numbers of time instances and dimensions, all plate shapes that broadcast together without empty axes, all symmetric diagonal blocks, all super-diagonal blocks and all linear terms.", "why_tests_cant": "The tests run chains with a few fixed plate shapes; the recursion factorises, overwrites and broadcasts five arrays with three different plate shapes, and an error that mixes plates only shows if the matrices of the plates differ while the coupling does not.", "anchors": [{"file": "bayespy/utils/linalg.py", "symbols": ["block_banded_solve", "chol_solve", "chol_inv"]}, {"file": "bayespy/inference/vmp/nodes/gaussian_markov_chain.py", "symbols": ["compute_moments_and_cgf"]}]}
{"id": "C86", "title": "Arrays given in place of nodes become constants with the right plates and moments", "statement": "Node._ensure_moments turns an array given as a parent into a Constant whose plates are the axes of the array in front of those of one value, whose dims are those of the moments class and whose moments, on every plate, are the sufficient statistics of the value: [a, log Gamma(a)] for shapes of gamma distributions, [x, log x] for gamma, [x, x x^T] for Gaussian over any number of axes, [alpha x, alpha x x^T, alpha, log alpha] for Gaussian-gamma, [n, log Gamma_k(n/2)] for degrees of freedom, [L, log det L] for Wishart, log p for Dirichlet and beta, [alpha, log Gamma(sum alpha) - sum log Gamma(alpha)] for concentrations, the one-hot vector for categories and the counts for Poisson and multinomial. Values outside the domain raise an exception. set_value replaces the moments if they fit the plates, raises ValueError and changes nothing otherwise, and random() returns the value last set.", "quantifier": "All arrays of all shapes with any number of plate axes, all values, all numbers of axes of the variable, all numbers of categories", "why_tests_cant": "The plates and dims come from the shape of the array, so every rank and every class of moments is another case; tests use few shapes, and a wrong dims tuple or a node left broken after an exception shows only later", "anchors": [{"file": "bayespy/inference/vmp/nodes/constant.py", "symbols": ["Constant.__init__", "Constant.set_value", "Constant.random"]}, {"file": "bayespy/inference/vmp/nodes/node.py", "symbols": ["Node._ensure_moments"]}, {"file": "bayespy/inference/vmp/nodes/gaussian.py", "symbols": ["GaussianMoments.from_values", "GaussianMoments.compute_fixed_moments", "GaussianGammaMoments.from_values", "GaussianGammaMoments.compute_fixed_moments"]}, {"file": "bayespy/inference/vmp/nodes/wishart.py", "symbols": ["WishartMoments.from_values", "WishartMoments.compute_fixed_moments", "WishartPriorMoments.compute_fixed_moments"]}, {"file": "bayespy/inference/vmp/nodes/dirichlet.py", "symbols": ["DirichletMoments.from_values", "ConcentrationMoments.compute_fixed_moments"]}, {"file": "bayespy/inference/vmp/nodes/multinomial.py", "symbols": ["MultinomialMoments.from_values"]}, {"file": "bayespy/inference/vmp/nodes/gamma.py", "symbols": ["GammaPriorMoments.compute_fixed_moments", "GammaMoments.compute_fixed_moments"]}]}
{"id": "C87", "title": "The recursion of categorical Markov chains is right on every plate", "statement": "random.alpha_beta_recursion, called with arrays of log-potentials whose plate axes broadcast together, succeeds and returns arrays with the broadcast plates that hold on every plate the exact posterior of the first state, the exact posteriors of consecutive states and minus the logarithm of the sum of the weights of all state sequences of that plate. A plate on which no state sequence has a positive weight gets NaN (g may be infinite) and does not affect the other plates. Plates that do not broadcast together and transition tables that are not D x D raise ValueError, and a chain without transitions raises IndexError.", "quantifier": "All plate shapes, including empty ones, all positive numbers of states and all numbers of time instances, all log-potentials including minus infinity, on any subset of the plates", "why_tests_cant": "The forward pass, the backward pass and the final sum use three arrays with different plates; an error that mixes plates or lets the NaN of an impossible plate spread shows only if plates differ in this way, which tests with one or equal plates do not have", "anchors": [{"file": "bayespy/utils/random.py", "symbols": ["alpha_beta_recursion"]}, {"file": "bayespy/utils/misc.py", "symbols": ["logsumexp", "atleast_nd"]}, {"file": "bayespy/inference/vmp/nodes/categorical_markov_chain.py", "symbols": ["compute_moments_and_cgf"]}]}
{"id": "C88", "title": "Figures show the distributions they are asked to show", "statement": "The figures of bayespy.plot show the distributions. gaussian_mixture_2d, ellipse_from_cov and ellipse_from_precision draw the curve of the points that lie scale standard deviations from the mean, whichever orthonormal eigenvectors eigh returns, and the opacity of a cluster is the height of its weighted density at its mean relative to the highest. contour and contourplot hand to the contour function tables in which each height is that of its x and y, and the levels lie evenly spaced between zero and the maximum. The error bands are mean plus and minus scale standard deviations, each missing side taken from the common error or the other side. In a Hinton diagram the square of an element lies within its cell, its area is proportional to the absolute value, its colour tells the sign, and the frame of the error encloses it.", "quantifier": "for all means, positive definite matrices, results of eigh, weights, coordinates, matrices, errors and maxima", "why_tests_cant": "Figures are compared by eye or not at all; a test would compare pictures for a few inputs on one platform, while which sign eigh chooses for an eigenvector depends on the library and the matrix.", "anchors": [{"file": "bayespy/plot.py", "symbols": ["gaussian_mixture_2d", "contour", "plot_gaussian", "errorplot", "contourplot", "_hinton", "_blob", "_rectangle", "ellipse_from_cov", "ellipse_from_precision"]}, {"file": "bayespy/utils/misc.py", "symbols": ["grid"]}]}
{"id": "C89", "title": "MultiMixture mixes over all its categorical variables independently", "statement": "MultiMixture(thetas, node_class, *params) builds, for one or more categorical variables, the mixture over the first of the mixture over the second and so on of the given distribution. With plates P of the node and parameters with plates P + (K_0, ..., K_{N-1}), the natural parameters and the normalisation of the node are those of the mixed distribution averaged over the clusters of all variables with the product of their probabilities; the message to a parameter is weighed by that product; the message to a variable is the expected log-density of each of its clusters, averaged over the later variables and weighed by the probabilities of the earlier ones, whose clusters are axes over which it is summed. If the clusters are known, the parameters of exactly these clusters are used.", "quantifier": "for all numbers of variables, numbers of clusters, plates, broadcast shapes and numbers of variable axes, probabilities and parameters", "why_tests_cant": "The construction is recursive in the number of variables and the arrays grow by an axis with each; tests try two variables with one shape and cannot tell apart axes of equal length.", "anchors": [{"file": "bayespy/inference/vmp/nodes/mixture.py", "symbols": ["MultiMixture", "Mixture._constructor", "MixtureDistribution.compute_message_to_parent", "MixtureDistribution.compute_weights_to_parent", "MixtureDistribution.compute_phi_from_parents", "MixtureDistribution.compute_cgf_from_parents"]}, {"file": "bayespy/utils/misc.py", "symbols": ["zipper_merge"]}]}
{"id": "C90", "title": "The lower bound is a lower bound of the log evidence", "statement": "The number compute_lowerbound returns is at most the logarithm of the marginal likelihood of the observed data: the joint density of the model with all unobserved variables integrated (summed) out. It holds for every state in which the moments of the unobserved variables are those of their distributions, so also after any sequence of updates, converged or not, with missing values; the constants of the densities are all counted. If only one node is unobserved, the bound after its update equals the log evidence.", "quantifier": "all networks of exponential family nodes whose messages are those of their densities (annealing one, no plate multiplier); all data, masks and distributions of the unobserved variables; normal, factor analysis, linear state-space, Gaussian mixture and hidden Markov models of all sizes after all sequences of updates", "why_tests_cant": "the evidence is a high-dimensional integral which no test computes; tests compare the bound with a reference for single nodes, where a wrong constant or a double counted term changes the reference as well", "anchors": [{"file": "bayespy/inference/vmp/vmp.py", "symbols": ["VB.compute_lowerbound", "VB.loglikelihood_lowerbound"]}, {"file": "bayespy/inference/vmp/nodes/expfamily.py", "symbols": ["ExponentialFamily.lower_bound_contribution"]}]}
{"id": "C91", "title": "VB.update(repeat=None) ends", "statement": "Without a limit on the number of iterations, VB.update repeats until the relative change of the lower bound is below the tolerance. If the nodes do not raise and the tolerance is positive, this happens after finitely many iterations, from every state of the engine and with every selection of nodes: the bound never decreases and never exceeds the log evidence, so it converges.", "quantifier": "all data, hyperparameters, current distributions of the variables, previous histories of the engine, selections and orders of updated nodes, and positive tolerances", "why_tests_cant": "non-termination is not observable in a finite test, and the tests make a fixed number of iterations", "anchors": [{"file": "bayespy/inference/vmp/vmp.py", "symbols": ["VB.update", "VB._end_iteration_step", "VB.compute_lowerbound"]}]}
