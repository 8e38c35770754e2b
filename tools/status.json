{
"C01": [
"proved",
"All arrays of all lengths; String() included."
],
"C02": [
"proved",
"All histories of in-range Set calls on any starting multi-index."
],
"C03": [
"proved",
"Strict total order on canonical multi-indices of any lengths; graded by total order."
],
"C04": [
"proved",
"AnyBounded on all multi-indices; FilterBounded on every reachable set."
],
"C05": [
"proved",
"Forward and backward neighbours and both membership tests."
],
"C06": [
"partial",
"All stock limiters and the boolean combinators. Violated: a Dimension limiter that starts more than one beyond the length throws instead of answering (C06_fails_dimension; C06_dimension_partial otherwise), and Anisotropic accepts equality with the threshold, which its documentation excludes (C06_fails_anisotropic). Xor refuted for downward closedness. Sums of 2^32 and more are in C107."
],
"C59": [
"partial",
"The claim is false of the code: Set/Get at ind == Length() are accepted and corrupt the object. The theorems prove the failure for every multi-index."
],
"C07": [
"proved",
"Exact contents, no duplicates, lexicographic order, every limiter."
],
"C08": [
"proved",
"Exact contents, no duplicates, lexicographic order, every limiter."
],
"C09": [
"proved",
"All histories in Reach; existing indices never move."
],
"C10": [
"proved",
"All histories in Reach."
],
"C11": [
"partial",
"Accepted terms: exact. Rejected terms: exact while the limiter was never replaced; refuted afterwards (C11_fails_after_setLimiter). Wrong lengths are not checked by the code (C11_length_unchecked)."
],
"C12": [
"proved",
"All pairs of reachable sets of equal length."
],
"C13": [
"proved",
"All reachable sets, also after SetLimiter."
],
"C14": [
"proved",
"Downward-closed sets and limiters, limiter never replaced; the failure for other sets is proved as C14_fails_not_downclosed."
],
"C15": [
"proved",
"Expand(i), Expand(); duplicates in the result of Expand() shown by C15_expandAll_duplicates. Expand() reports the index of a new term once for each variable the term depends on (C15_expandAll_count), so once each and in order if no candidate depends on two variables (C15_expandAll_once)."
],
"C16": [
"proved",
"IsAdmissible, IsExpandable, Frontier, StrictFrontier, NumActiveForward, NumForward."
],
"C17": [
"partial",
"Proved when the edge vectors do not reallocate; C17_dangling shows the code iterates through a dangling reference otherwise."
],
"C18": [
"proved",
"Throws iff violated; C18_throw_replaces_limiter and C18_reducedMargin_violates record what the code does not guarantee."
],
"C19": [
"proved",
"Both layouts; dense layout needs positive length (C19_dense_length_zero); C19_dense_last_start_zero records the unset last start."
],
"C20": [
"partial",
"Dense layout: full property. Compressed layout: present multi-indices only; C20_compressed_absent_out_of_bounds proves that absent ones read out of bounds."
],
"C21": [
"proved",
""
],
"C22": [
"proved",
"C22_layout: disjointness and range. That every read finds a written entry is part of C23/C24 (an uninitialised or out-of-range read is `ub` in the model and those theorems return `ok` from an arbitrary buffer, also after any number of FillCache2 calls).",
[
"C24_diagonal",
"C24_diagonal2",
"C24_input",
"C24_mixedInput",
"C24_coeff",
"C24_mixedCoeff"
]
],
"C23": [
"partial",
"Proved for every compressed set. False for the dense layout: C23_dense_last_term_constant shows that the last term contributes its bare coefficient at every point; C23_fails_dense is a witness. C23_degree_zero_ignored: a basis whose degree-0 function is not 1 (normalised Hermite) is evaluated as if it were."
],
"C24": [
"proved",
"Over the reals, for every basis whose derivative evaluators are correct and every compressed set. Second derivatives in the last input need them to exist there (false only at the two ends of a linearised basis). C24_class/C23_class: filling the cache through a basis class gives the same cache; C24_represents(_linearized) instantiate the classes; C24_fails_linearized_normalized: the routines of a linearised normalised class disagree."
],
"C60": [
"proved",
"Per-point loop bodies; the parallel loop over points is C50."
],
"C25": [
"proved",
"All recurrences over any field, all normalisations, orders, points and buffer lengths."
],
"C26": [
"partial",
"Array paths and SecondDerivative: true derivatives, always. Derivative: true except order one of a normalised family, where the code omits the normalisation (refuted: C26_fails_normalized_order_one)."
],
"C27": [
"partial",
"Values and orthogonality: every order. Normalisation constants: orders up to 12 (Factorial overflows 32 bits from 13 on: C27_fails_from_13, C27_fails_from_34)."
],
"C28": [
"partial",
"Array paths: every order. Scalar Evaluate/Derivative: orders up to 14, refuted from 15 on by overflow of Factorial; SecondDerivative refuted."
],
"C29": [
"partial",
"Extension is C1 and all paths agree for every underlying basis whose paths are right; EvaluateAll refuted for normalised families (C29_fails_normalized)."
],
"C30": [
"proved",
"All reals."
],
"C31": [
"partial",
"Logistic and Evaluate: all parameters. Gradient/CoeffGrad exact only with exchanged arguments; the public entry points are refuted (C31_fails_gradient)."
],
"C32": [
"proved",
"Rule positions/weights, total weight, symmetry, positivity, nesting and exactness for degree <= n-1 (n <= 65537, where the 32-bit denominator does not wrap)"
],
"C33": [
"proved",
"Value, termination within 2^maxSub iterations, memory safety, leaves, exactness for cubics, additivity, for minSub < maxSub <= 32; C33_fails_* show what happens outside that range"
],
"C34": [
"proved",
"Same for levels >= 1 of the constructor taking a level; exactness for degree <= 2^(level+1) up to level 15; C34_fails_* cover minSub >= maxSub and the constructor taking views",
[
"C33_leaves",
"C33_additive"
]
],
"C35": [
"proved",
"Soundness for every function, completeness and meaning of the status for every increasing function"
],
"C36": [
"proved",
"Exact real arithmetic; bracket and width invariants at every iteration, iteration bound, accuracy; xtol at least the least positive double"
],
"C37": [
"partial",
"False as stated: C37_fails_status (status -1 is never returned) and C37_fails_limit; C37_partial covers bracket failures"
],
"C38": [
"partial",
"Exact component: derivative, positivity and strict monotonicity proved (C38_exact). Evaluate, EvaluateSingle and Inverse are shown to apply the quadrature to exactly the right integrand, for every quadrature that is a weighted sum; Clenshaw-Curtis, adaptive Simpson and adaptive Clenshaw-Curtis are shown to be such. The code violates the rest: Evaluate ignores the nugget (C38_fails_nugget), Inverse does not (C38_fails_inverse), and the discretised component need not be monotone (C38_fails_monotone)."
],
"C39": [
"partial",
"All discrete derivatives are exact for the nodes used, for every valid component, point and coefficients. Violated: ContinuousDerivative omits the nugget (C39_fails_continuous); DiscreteMixedJacobian accumulates into its output (C39_fails_accumulate)."
],
"C40": [
"proved",
"Constructor accepts exactly the chained lists; Evaluate stacks the component outputs on leading inputs; causality. Components are any objects that evaluate deterministically on fitting arguments."
],
"C41": [
"proved",
"Exact component inverses give an exact triangular inverse and round trips both ways, InverseInplace gives the same; C41_blockwise covers inexact (tolerance) inverses block by block. MonotoneComponent's own inverse uses the nugget and Evaluate does not (C38_fails_*)."
],
"C42": [
"proved",
"Sum of component log-determinants, equal to log|det| of the Jacobian in the last outputDim inputs."
],
"C43": [
"proved",
"All four gradients are exact whenever the components' are and overwrite their output buffers. AffineMap's LogDeterminantInputGrad does not write its buffer: see C47."
],
"C45": [
"partial",
"Evaluate, Inverse, LogDeterminant, Gradient for all layers; CoeffGrad for layers whose coefficient gradients return (false for identity layers: C45_fails_identity)."
],
"C46": [
"proved",
"All layer counts, maxSaves and non-increasing request sequences; machine integers are unbounded in the model."
],
"C47": [
"partial",
"Composed and triangular maps whose layers overwrite their output buffer; refuted for affine layers (C47_fails_affine, C47_fails_affine_triangular)."
],
"C48": [
"proved",
"Identity, affine (LU taken as exact solve) and summarised maps for all dimensions; the Eigen overload of Gradient is refuted for affine maps (C48_fails_gradient_nan)."
],
"C44": [
"partial",
"Proved for every nesting of maps in which no object occurs twice and every history, of any calls before, that does not point something inside the map elsewhere afterwards (C44_set, C44_wrap, C44_move, C44_slices, C44_cover, C44_write, C44_history). False otherwise: C44_fails_twice (ComposedMap({m,m})), C44_fails_wrap_component, C44_fails_second_map, C44_fails_rebind (Coeffs() = view)."
],
"C49": [
"partial",
"Missing coefficients, wrong-size WrapCoeffs, wrong-size SetCoeffs on an object that has coefficients are proved after every history of calls, including assignments to Coeffs(); memory safety (C49_sizes) after every history without such assignments, after which it fails (C49_fails_rebind); the first SetCoeffs accepts any size (C49_fails_first_set, noticed at the next use by C49_sizes) and so does the constructor with coefficients (C49_fails_constructor, never noticed)."
],
"C50": [
"proved",
"C50_coverage (coverage, with the floating-point division), C50_schedule (all interleavings). With no points the policy is undefined (C50_fails_no_points); beyond int range the index overflows (C50_fails_overflow)."
],
"C51": [
"proved",
"C51_reduce, exact arithmetic over any commutative ring; covers both reductions and both axes."
],
"C52": [
"partial",
"Pullback and pushforward values, dimension checks, round trips, input and coefficient gradients on views, samplers and the law of the samples are proved for every map and density that meets the stated contracts. False for the Eigen overload of LogDensityCoeffGrad (returns the input gradient) and for the gradient of a pushforward density (always throws)."
],
"C53": [
"partial",
"Log-density for every constructor, data set and schedule with a contiguous output; normalisation; gradient; samples and their law. False for strided outputs and, with a covariance matrix, for the public Sample and LogDensityInputGrad, which allocate row-major outputs."
],
"C54": [
"partial",
"Value, gradient and their consistency for every non-empty data set, map and density meeting the contracts, and every schedule. False for an empty data set and for a gradient view with a stride."
],
"C58": [
"proved",
"CreateSingleEntryMap: the map passes all inputs through except output activeInd, which is the component's value; the component need not be monotone for evaluation, and the contracts (log determinant, gradients, inverse) carry over; wrong arguments are rejected. That SetCoeffs(zeros) overwrites the component's coefficients is noted in DESIGN.md."
],
"C57": [
"partial",
"Proved when the first factor has as many coefficients as inputs and the second at least as many (values, derivatives in the last input, coefficient gradients, any cache history), and that library expansions are such factors; refuted otherwise: the coefficients are split by the numbers of inputs."
],
"C55": [
"partial",
"Proved: for every sequence of gradients and errors, a run that returns has trained a history of maps each grown by one reduced-margin term below the maximum degrees, within maxSize, stopping only at maxSize or after maxPatience steps without improvement, and returns the sets with the smallest test error if any step improved; the added term has the largest gradient. Refuted: the initial map is lost when no step improves (constants are returned), coefficients are read out of range when Expand() reports duplicates, and an uninitialised index is used when no candidate has a nonzero gradient. The optimiser, the coefficients and the final retraining are in C99. No coefficient is read out of range when the limiters accept exactly the terms in one variable (C55_returns_single_partial)."
],
"C56": [
"partial",
"Proved: loading gives back an equal object and consumes exactly its bytes, whatever follows, for every option object, view, multi-index set, basis of any nesting, expansion, quadrature rule that owns its workspace, matrix below 2^32 entries, and monotone component (through Save and Load, also any number in a row). For triangular maps of components with coefficients, only the components and coefficients are recovered. False as stated: triangular maps write their components twice and leave 8n+8 bytes unread, so the next object is read as null; maps without coefficients throw on load; coefficients are lost with a multiple of 256 components; nested triangular maps lose coefficients or dereference null; external workspaces are lost; matrices of 2^32 entries lose their data. cereal's format is trusted."
],
"C61": [
"partial",
"Evaluate, LogDeterminant and its gradients: every quadrature (continuous derivative). Gradient and CoeffGrad: fixed rules, or any mesh the value does not depend on, without nugget; false with a nugget. LogDeterminant equals the log-Jacobian of Evaluate only if the integral is exact (false otherwise); the whole contract, including Inverse, is proved for components affine in the last input. Gradients of Evaluate with adaptive rules hold for a frozen mesh (C39)."
],
"C62": [
"partial",
"missing: options outside GoodBasis/GoodQuad, and sets that are not compressed. Proved for bounds in order, finite bounds only with unnormalised polynomials or Hermite functions up to order 14, normalised polynomials up to order 33 (the constants are right up to 12, beyond that the factorial overflows, see C26), 4..65537 points for nested rules. Elsewhere it fails: C24_fails_linearized_normalized, C62_fails_nested. Gradients are exact with a fixed rule or order 1, without nugget (C61). The assertions of SetDim are not in this model: in builds with assertions ClenshawCurtisQuadrature fails them, see C93."
],
"C63": [
"partial",
"the same options as C62; with more outputs than inputs or none the call does not return normally (undefined behaviour, not an exception)"
],
"C64": [
"partial",
"the same options as C62; C64_fails_normalized: with finite bounds and the default basisNorm=true Gradient is wrong beyond the bounds"
],
"C65": [
"partial",
"ConstRowMatToKokkos and ConstColMatToKokkos ignore the outer stride (C65_const is an equivalence), KokkosToVec of a view not declared strided needs unit stride (C65_vec)"
],
"C66": [
"partial",
"for Eigen arguments with contiguous rows; blocks of larger matrices are read wrongly (C66_fails_block)"
],
"C67": [
"proved",
"full"
],
"C68": [
"partial",
"maps that meet the contracts of C54, a non-empty training set, at least one coefficient; optimisers that ask without a gradient make the code form a reference behind a null pointer (C68_fails_no_gradient), which the theorems cover when it is harmless"
],
"C69": [
"proved",
"full, for non-empty training sets (C54_fails_no_samples)"
],
"C70": [
"proved",
"Shapes are unbounded and may be empty; arithmetic is exact."
],
"C71": [
"partial",
"Proved for computed solvers (exact arithmetic; the factors are any valid ones and exist for every invertible, resp. positive definite, matrix). Fails for solvers that were not computed: solve and multiplyL dereference a null pointer, and determinant asserts on a flag that has no value. Cholesky reads only the lower triangle. Eigen reports a failed factorisation only through info(), which the code does not read: C71_singular shows what the LU solver does then."
],
"C72": [
"partial",
"Proved for programs that leave Kokkos to the library. It fails if the program initialises Kokkos itself, calls the public Finalize, or calls Initialize from two threads at once (C72_fails_*)."
],
"C73": [
"partial",
"Proved whenever every backward neighbour is a member (and for the true entries always); fails otherwise: an inactive neighbour is returned as 4294967295. AdmissibleForwardNeighbors is proved fully."
],
"C74": [
"partial",
"Two dimensions proved for every history, with m for every stored term next to a member; fails: one-dimensional sets draw p a's whatever the members, the reduced-margin mark is wrong for terms outside the margin, terms refused by a limiter set later are drawn, sets of more than two dimensions are drawn by the first two entries."
],
"C75": [
"partial",
"Proved for samplers that share no Gaussian object and equal schedules; fails for a shared reference, for other schedules (the pool generator depends on the thread) and for unseeded samplers created in the same second."
],
"C76": [
"partial",
"Proved for MapOptions without NaN; fails for NaN and for ATMOptions, of which only the MapOptions part is compared."
],
"C77": [
"partial",
"Proved for target zero and a starting point that is not a root (C77_zero_partial, C77_zero_root), and for increasing functions in C36. Fails for other targets (C77_fails_target): Find_x_ITP computes the regula falsi point as if the target were zero, so that trial points leave the bracket."
],
"C78": [
"partial",
"map factories proved for all options; fails: nugget dropped in adaptive training, unknown names silently replaced, MATLAB's default maximum degrees reject every map of more than one variable"
],
"C79": [
"partial",
"the file is right; fails: Deserialize asks for 13 results of a function that allows 12, so it is always an error"
],
"C80": [
"partial",
"terms kept; fails: zero term added, order changed, limiter lost, no variables"
],
"C81": [
"partial",
"sets proved; fails: iterating a multi-index yields an extra zero"
],
"C82": [
"partial",
"valid indices proved; fails: length plus one accepted on reading and writing"
],
"C83": [
"partial",
"Python and MATLAB proved; Julia fails when the coefficients were never set"
],
"C84": [
"partial",
"proved for maps that assign their output; fails for affine maps"
],
"C86": [
"partial",
"Every history: construction, copies, SetDim on objects with their own memory, Integrate (value and frame) for all three rules. Missing, because the code violates it: with a workspace of the user SetDim does not enforce the maximum dimension, so Integrate leaves the array (C86_fails_external); loading the archive of an object without memory into one with memory leaves a dangling workspace pointer (C86_fails_load)."
],
"C85": [
"partial",
"Shifts, and matrices with not more rows than columns: value, gradient, sizes, rejected offsets. Missing, because the code violates it: matrices with more rows than columns are rejected (C85_fails_tall)."
],
"C87": [
"partial",
"Options, sizes, broadcasting, NaN columns and every entry, for xs with at least as many rows as inputs. Missing, because the code violates it: a tolerance \"nan\" is accepted (C87_fails_nan); without rows the starting point is read outside the array (C61_fails_inverse)."
],
"C88": [
"partial",
"Every overload for both memory spaces and for Eigen matrices with contiguous memory, except: Gradient of a map on the device allocates outputDim rows (C88_fails_gradient; C88_gradient_partial for as many inputs as outputs), Inverse of a map on the host for arrays on the device calls CoeffGrad (C88_fails_inverse). Eigen blocks are misread as in C66."
],
"C89": [
"partial",
"Proved for the layouts in which columns do not overlap, for solves, and for the Cholesky determinant; cuBLAS/cuSOLVER are trusted to meet their contracts. Fails: the LU determinant drops the sign of the row exchanges, a product with a row-major matrix of one column is left undone without an error, multiplyL uses the leading dimension of the input matrix for the factor, right-hand sides that are too tall are accepted."
],
"C90": [
"partial",
"Holds for compressed sets and for sizes that fit in 32 bits. A dense set loses its last term when it is copied to the device (C90_fails_dense), and the total-order constructor writes outside its arrays as soon as a size exceeds 32 bits (C90_fails_size: two variables, order 65536)."
],
"C91": [
"partial",
"Rejection of wrong sizes for the Jacobians, Gradient, CoeffGrad, the gradients of the log-determinant and Evaluate; values and derivatives in every entry for right sizes. Missing, because the code violates it: short outputs of ContinuousDerivative and LogDeterminant are written out of range (C91_fails_short), long outputs of LogDeterminant lose their content (C91_fails_logdet), Evaluate and LogDeterminant do not check the rows of the points (C91_fails_rows, C91_fails_few_rows)."
],
"C92": [
"partial",
"Proved for calls that all integrate with the same number of outputs or not at all (values as in sequentially consistent memory), and for any calls if each is prepared after the one before it has started its kernel. Missing, because the code violates it: different numbers of outputs (C92_fails_mixed), LogDeterminantCoeffGrad with discrete derivatives against itself (C92_fails_same). By the rules of C++ every integrating call at the same time as another is a data race (C92_conflict)."
],
"C93": [
"partial",
"Proved for the adaptive quadratures in every order of calls, and for ClenshawCurtisQuadrature with one output. Missing, because the code violates it: with ClenshawCurtisQuadrature every call with more than one output (gradients, discrete derivatives) fails the assertion of SetDim in builds with assertions (C93_fails_clenshawCurtis, C93_fails_api)."
],
"C94": [
"partial",
"For every arithmetic (any rounding, overflow, NaN) the search ends after at most 10131 evaluations, and a success is certified by computed values (C94_certified); a NaN start gives NaN; for numbers it agrees with the exact model of C35-C37. Violated: a NaN target, or a function that is NaN everywhere, gives a number with success; with NaN tolerances the search makes all 10000 trials and reports success. Infinities in the arithmetic of numArith are NaN."
],
"C95": [
"proved",
"For every outcome of the comparisons (every rounding, overflow and NaN). The upper bound is reached by integrands that are NaN: with the default options 2^31+1 evaluations of the integrand for one evaluation of a component, since EvaluateImpl does not check its points for NaN as InverseImpl does."
],
"C96": [
"partial",
"Proved for every program: objects that copy (Python and Julia objectives, affine maps, covariances, compressed sets of Python) and SetCoeffs compute with the entries given (C96_copied, C96_setCoeffs); programs that keep no arrays, use no CoeffMap and no dense set of Python never touch freed memory and leak nothing (C96_safe, C96_copying, C96_onlyViews); shared views outlive their variables (C96_shared). The code fails for arrays kept by MATLAB objectives, Gaussian means and fixed sets (C96_fails_arrays), for FixedMultiIndexSet(dim, orders) in Python (C96_fails_temporary) and for CoeffMap (C96_fails_coeffMap)."
],
"C97": [
"partial",
"Proved for options, views, matrices below 2^32 entries, sets, bases, rules owning their workspace, expansions and components, alone and in a row, at every point of interruption; for any loadable bytes a beginning of them is refused or gives the same object (C97_neverAnother). Triangular maps of components are refused when more than 8n+8 bytes are lost (C97_triangular_partial) and loaded, correctly, when fewer are (C97_fails_triangular): the end of what save writes is never read."
],
"C98": [
"partial",
"Proved for every kernel, team size and interleaving as long as the bytes fit 32 bits (C98_apart, C98_private), with a sufficient condition on the sizes (C98_fits). Violated beyond: the bytes wrap around and views are null pointers (C98_fails_large), and a large quadMaxSub wraps the workspace size around (C98_fails_maxSub)."
],
"C99": [
"partial",
"Proved for every optimiser and objective: the maps trained form a history starting from zero coefficients, each map has one term more and takes over the components that were not expanded; if no coefficient is read out of range, the added term is the candidate with the largest derivative of the training error; the returned map has the terms of the best map (when some map improved on the first), and is the best map itself when there is one output or training does not depend on the start. False as stated: the component that gets the term begins again from zeros, so the training error can increase (C99_fails_continue), and the returned map is trained once more, so it is not the best map (C99_fails_returned). The call returns, without out-of-range reads, when the limiters accept exactly the terms in one variable (C99_returns_single_partial)."
],
"C100": [
"partial",
"Proved for all maps that keep the contracts (exact inverse), in particular all invertible affine maps, triangular maps of such components and compositions of such maps (C100_composed), and, up to the tolerance of Inverse, for monotone components affine in the last input (C100_component_partial). Fails for monotone components with an inexact quadrature: C100_fails_component has a density of total mass greater than one."
],
"C101": [
"partial",
"Proved for Gaussians without covariance matrix and maps that keep the contracts. False with a covariance matrix: sampling any transported distribution and all gradients of pullbacks and of the training objective do not return (C101_fails_covariance, C101_fails_gradient), because Sample and LogDensityInputGrad allocate row-major arrays. CreatePullback and CreatePushforward do not compile as written; their bodies are modelled."
],
"C102": [
"proved",
"For maps that keep the contracts of C52; the limit and unbiasedness also for conditional maps, divergence and minimum for maps with as many outputs as inputs."
],
"C103": [
"partial",
"The bounds hold for every rounding of bounded relative error, every schedule and every history of the cache, for reductions, the value and gradient of the objective, values, first and second diagonal derivatives and gradients of expansions (C103_reduce, C103_schedules, C103_objective, C103_gradient, C103_evaluate, C103_diagonal, C103_diagonal2, C103_coeff, C103_input), and values of monotone components with a fixed rule (C103_component, C103_component_lipschitz), and values and gradients of affine maps for every order of the additions in the matrix product (C103_affine, C103_affine_gradient), and the log-density of Gaussians without covariance matrix (C103_gaussian); rounding to 53 digits is such a rounding (C103_double). Missing because false of the code: the results of two runs can differ in the last digits, since the order of the additions depends on the schedule (C103_fails_reproducible). Overflow and underflow are not modelled here (overflow: C108)."
],
"C104": [
"proved",
"C104_value, C104_optimal and C104_gradient for every triangular map whose components keep the contracts; C104_factory for the maps of CreateTriangular, with inexact quadratures too (the gradient theorem asks that LogDeterminant be the logarithm of the Jacobian determinant, because it speaks about the gradient of that value, and that every component has coefficients)."
],
"C105": [
"partial",
"Proved for every compressed multi-index set (CreateExpansion, CreateComponent) and for CreateTriangular with the options that C62 to C64 cover: the values alone determine the coefficients with the fixed quadrature, and with the adaptive ones, whatever their tolerances, if 0 is within the bounds of the basis (the default); otherwise the values and log-determinants do. With adaptive quadrature and bounds which exclude 0 it is not known whether the values alone do. False for compositions of factory-built maps, although each layer is identifiable: exchanged shifts give the same values and log-determinants (C105_fails_composed). Sets in the dense layout, which may repeat a multi-index, are not covered. C105_stacked and C105_singleEntry reduce triangular and single-entry maps of arbitrary components to their components, with an equivalence.",
[
"C105_fails_composed",
"C105_expansion_partial",
"C105_component_partial",
"C105_triangular_partial",
"C105_stacked",
"C105_singleEntry"
]
],
"C106": [
"partial",
"Proved: coefficients for every history, also with assignments to Coeffs(), the exact state left by failed training, adaptive training (for every failing call of TrainMap) and loading. False, as the C106_fails theorems show: first SetCoeffs with too few values, training, adaptive training, loading. Missing: failures of adaptive training outside TrainMap."
],
"C107": [
"partial",
"Entries, equality and order for all 32-bit entries (initializer lists: below 2^31); limiter and neighbourhood while the sums fit 32 bits. Violated beyond: C107_fails_initializer (two objects with the same entries that are not equal), C107_fails_totalOrder, C107_fails_isForward, C107_fails_forward."
],
"C108": [
"partial",
"Proved for Evaluate, the discrete derivative, the coefficient, input and discrete mixed Jacobians and batches. Missing because the code does not do it: the continuous derivative and LogDeterminant return +inf (C108_fails_logdet), NaN is not noticed although the message names it (C108_fails_nan), and the product x_D*g may overflow unnoticed (C108_fails_product).",
[
"C108_single",
"C108_evaluate",
"C108_batch",
"C108_discrete",
"C108_coeff",
"C108_input",
"C108_mixed",
"C108_continuous",
"C108_exact",
"C108_throws",
"C108_fails_logdet",
"C108_fails_nan",
"C108_fails_product"
]
],
"C109": [
"partial",
"Proved: error at most twice the distance of the integrand to the polynomials of the rule (C109_rule), piecewise for adaptive rules (C109_simpson, C109_adaptiveCC), explicit rates for Lipschitz integrands (C109_rate), order of separated inputs (C109_increasing). Restrictions: exact arithmetic, nugget 0 in the exact value, fixed rule up to 65537 points (beyond it the weights are wrong, see C32). The claim that the tolerances bound the error is false of the code (C109_fails_tolerance)."
],
"C110": [
"proved",
"Coefficient gradients (C110_coeff), input gradients (C110_input), strict monotonicity on intervals for fixed rules (C110_strict), accuracy of Inverse for every quadrature (C110_inverse_any, with its rate in C110_inverse_rate) and for fixed rules with a derivative hypothesis (C110_inverse). Exact arithmetic. Fixed rule up to 65537 points."
],
"C111": [
"proved",
"For the options accepted by C63 (GoodBasis, GoodQuad); the excluded ones are those for which the factory is shown not to build the described map (C62, C63)."
],
"C112": [
"proved",
"value, near-minimisers and gradient, for the options of C63 with the continuous derivative; explicit error constants for the standard normal reference"
],
"C113": [
"proved",
"for every good option set, with the fixed and both adaptive quadratures; the constants m, L, epsilon are those of the exact map on the box. Example: the nonlinear map (1+x1, x2 exp(x1/10)) built by the factory with the default adaptive Simpson rule is inverted to 1e-4"
],
"C114": [
"proved",
"for every good option set with continuous derivatives and no nugget, with the fixed and both adaptive quadratures. Example: the nonlinear map (1+x1, x2 exp(x1/10)) from the factory, samples on the square [-2,2]^2 follow the density up to moving mass by 7e-4"
],
"C115": [
"proved",
"for every good option set with continuous derivatives and no nugget, with the fixed and both adaptive quadratures. Example: the nonlinear map (1+x1, x2 exp(x1/10)) from the factory, the pushforward density is within 3e-3 of the exact one on the image of [-2,2]^2"
],
"C116": [
"proved",
"for every composition of faithful square layers, and every composition of factory-built triangular maps with good options, continuous derivatives and no nugget, as the statement says. Examples: two layers exp(y) - 3/2 (density within 3e-9 on [-1, 1]) and two layers (1+x1, x2 exp(x1/10)) (inverse). Exact real arithmetic."
],
"C117": [
"proved",
"for every composition of faithful square layers (C116_composed: every composition of factory-built triangular maps with good options, continuous derivatives and no nugget). Examples: objective of two layers exp(y) - 3/2 within 3e-9 on [-1, 1]; samples and pushforward density of two layers (1+x1, x2 exp(x1/10)). Exact real arithmetic."
],
"C118": [
"partial",
"Proved for probabilist and physicist Hermite polynomials without normalisation, with bounds, if any, beyond the box, and for Hermite functions without bounds; both positive functions and all quadratures. Beyond a bound the claim fails (C118_fails_beyond_bounds). Missing: normalised polynomials, whose norms are 0 from order 34 on (C27_fails_from_34), and Hermite functions with bounds."
],
"C119": [
"partial",
"Proved for the options of C118. Missing: normalised polynomials, whose norms are 0 from order 34 on (C27_fails_from_34), and Hermite functions with bounds. The bound on LogDensity assumes that the quadrature resolves the slopes of the transformation; the statement about laws is about the exact map."
],
"C120": [
"proved",
"order one, contDeriv = true, options within the ranges of C63 (GoodBasis, GoodQuad); arithmetic over the reals; the minimiser itself, not the optimiser's approximation of it"
],
"C121": [
"proved",
"polynomial families, contDeriv = true, options within the ranges of C63 (GoodBasis, GoodQuad); arithmetic over the reals"
],
"C122": [
"proved",
"contDeriv = true, options within the ranges of C63 (GoodBasis, GoodQuad); arithmetic over the reals; minimisers, not the optimiser's approximations of them"
],
"C123": [
"proved",
"Values, log-determinants and objectives of the smaller map are those of the larger one at suitable coefficients, for components over nested compressed sets and for triangular maps of increasing order."
],
"C124": [
"proved",
"For every triangular map whose components evaluate and have finite log-determinants; instantiated for CreateTriangular."
],
"C125": [
"proved",
"Exact over the reals; rounding is not part of this statement."
],
"C126": [
"proved",
"For the exponential and the fixed quadrature, as stated; adaptive quadratures have absolute tolerances, which are not free of units. C126_fails_softplus shows that softplus must be excluded."
],
"C127": [
"proved",
"For every map and reference density, in exact arithmetic; C103 bounds what the order of the samples changes with rounding."
],
"C128": [
"proved",
"Fixed quadrature without nugget: with a nugget the code's derivative is wrong (C39_fails_continuous), with the adaptive rules the mesh depends on the coefficients."
],
"C129": [
"partial",
"C129_positive_partial and C129_inverse_partial hold up to the relative error of one operation, C129_overflow beyond the overflow of exp; C129_accuracy bounds the absolute error of Evaluate for every argument. Missing because false of the code: in double precision Evaluate is zero for arguments up to -38 (C129_fails_positive), Inverse of positive numbers below 2^-54 is minus infinity (C129_fails_small), and Inverse of numbers up to -1 is that number (C129_fails_negative)."
]
}