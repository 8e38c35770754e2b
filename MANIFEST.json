{"claims": [
 {"property": "C01", "status": "proved", "theorems": ["MParT.MultiIndex.C01_roundtrip", "MParT.MultiIndex.C01_string"], "note": "All arrays of all lengths; String() included."},
 {"property": "C02", "status": "proved", "theorems": ["MParT.MultiIndex.C02_set_history", "MParT.MultiIndex.C02_set_total", "MParT.MultiIndex.C02_beyond_rejected"], "note": "All histories of in-range Set calls on any starting multi-index."},
 {"property": "C03", "status": "proved", "theorems": ["MParT.MultiIndex.C03_strict_total_order", "MParT.MultiIndex.C03_graded"], "note": "Strict total order on canonical multi-indices of any lengths; graded by total order."},
 {"property": "C04", "status": "proved", "theorems": ["MParT.MultiIndex.C04_anyBounded", "MParT.MISet.C04_filterBounded"], "note": "AnyBounded on all multi-indices; FilterBounded on every reachable set."},
 {"property": "C05", "status": "proved", "theorems": ["MParT.Neighborhood.C05_forward", "MParT.Neighborhood.C05_backward", "MParT.Neighborhood.C05_tests_agree", "MParT.Neighborhood.C05_inverse"], "note": "Forward and backward neighbours and both membership tests."},
 {"property": "C06", "status": "partial", "theorems": ["MParT.Limiter.C06_totalOrder", "MParT.Limiter.C06_dimension_partial", "MParT.Limiter.C06_maxDegree", "MParT.Limiter.C06_anisotropic", "MParT.Limiter.C06_boolean", "MParT.Limiter.C06_downClosed", "MParT.Limiter.C06_anisotropicValid", "MParT.Limiter.C06_xor_not_downClosed", "MParT.Limiter.C06_fails_anisotropic", "MParT.Limiter.C06_fails_dimension"], "note": "All stock limiters and the boolean combinators. Violated: a Dimension limiter that starts more than one beyond the length throws instead of answering (C06_fails_dimension; C06_dimension_partial otherwise), and Anisotropic accepts equality with the threshold, which its documentation excludes (C06_fails_anisotropic). Xor refuted for downward closedness. Sums of 2^32 and more are in C107."},
 {"property": "C07", "status": "proved", "theorems": ["MParT.MISet.C07_createTotalOrder", "MParT.MISet.C07_zero_length"], "note": "Exact contents, no duplicates, lexicographic order, every limiter."},
 {"property": "C08", "status": "proved", "theorems": ["MParT.MISet.C08_createTensorProduct", "MParT.MISet.C08_zero_length"], "note": "Exact contents, no duplicates, lexicographic order, every limiter."},
 {"property": "C09", "status": "proved", "theorems": ["MParT.MISet.C09_terms_exist", "MParT.MISet.C09_bijection", "MParT.MISet.C09_indices_stable"], "note": "All histories in Reach; existing indices never move."},
 {"property": "C10", "status": "proved", "theorems": ["MParT.MISet.C10_maxOrders"], "note": "All histories in Reach."},
 {"property": "C11", "status": "partial", "theorems": ["MParT.MISet.C11_addActive_accepted", "MParT.MISet.C11_addActive_rejected", "MParT.MISet.C11_fails_after_setLimiter", "MParT.MISet.C11_length_unchecked"], "note": "Accepted terms: exact. Rejected terms: exact while the limiter was never replaced; refuted afterwards (C11_fails_after_setLimiter). Wrong lengths are not checked by the code (C11_length_unchecked)."},
 {"property": "C12", "status": "proved", "theorems": ["MParT.MISet.C12_union"], "note": "All pairs of reachable sets of equal length."},
 {"property": "C13", "status": "proved", "theorems": ["MParT.MISet.C13_margin"], "note": "All reachable sets, also after SetLimiter."},
 {"property": "C14", "status": "proved", "theorems": ["MParT.MISet.C14_reducedMargin", "MParT.MISet.C14_reducedMargin_nonempty", "MParT.MISet.C14_fails_not_downclosed"], "note": "Downward-closed sets and limiters, limiter never replaced; the failure for other sets is proved as C14_fails_not_downclosed."},
 {"property": "C15", "status": "proved", "theorems": ["MParT.MISet.C15_expandAll_count", "MParT.MISet.C15_expandAll_once", "MParT.MISet.C15_expand", "MParT.MISet.C15_expand_range", "MParT.MISet.C15_expandAll", "MParT.MISet.C15_expandAll_duplicates"], "note": "Expand(i), Expand(); duplicates in the result of Expand() shown by C15_expandAll_duplicates. Expand() reports the index of a new term once for each variable the term depends on (C15_expandAll_count), so once each and in order if no candidate depends on two variables (C15_expandAll_once)."},
 {"property": "C16", "status": "proved", "theorems": ["MParT.MISet.C16_isAdmissible", "MParT.MISet.C16_isAdmissible_zero", "MParT.MISet.C16_frontier", "MParT.MISet.C16_counts"], "note": "IsAdmissible, IsExpandable, Frontier, StrictFrontier, NumActiveForward, NumForward."},
 {"property": "C17", "status": "partial", "theorems": ["MParT.MISet.C17_forciblyActivate_partial", "MParT.MISet.C17_rejected", "MParT.MISet.C17_forciblyExpand_partial", "MParT.MISet.C17_dangling"], "note": "Proved when the edge vectors do not reallocate; C17_dangling shows the code iterates through a dangling reference otherwise."},
 {"property": "C18", "status": "proved", "theorems": ["MParT.MISet.C18_setLimiter", "MParT.MISet.C18_throw_replaces_limiter", "MParT.MISet.C18_reducedMargin_violates"], "note": "Throws iff violated; C18_throw_replaces_limiter and C18_reducedMargin_violates record what the code does not guarantee."},
 {"property": "C19", "status": "proved", "theorems": ["MParT.FixedSet.C19_fix", "MParT.FixedSet.C19_dense_length_zero", "MParT.FixedSet.C19_dense_last_start_zero"], "note": "Both layouts; dense layout needs positive length (C19_dense_length_zero); C19_dense_last_start_zero records the unset last start."},
 {"property": "C20", "status": "partial", "theorems": ["MParT.FixedSet.C20_dense", "MParT.FixedSet.C20_multiToIndex_partial", "MParT.FixedSet.C20_compressed_absent_out_of_bounds", "MParT.FixedSet.C20_fails_compressed"], "note": "Dense layout: full property. Compressed layout: present multi-indices only; C20_compressed_absent_out_of_bounds proves that absent ones read out of bounds."},
 {"property": "C21", "status": "proved", "theorems": ["MParT.FixedSet.C21_totalOrder", "MParT.FixedSet.C21_same_as_fix"], "note": ""},
 {"property": "C22", "status": "proved", "theorems": ["MParT.Worker.C22_layout", "MParT.Worker.C24_diagonal", "MParT.Worker.C24_diagonal2", "MParT.Worker.C24_input", "MParT.Worker.C24_mixedInput", "MParT.Worker.C24_coeff", "MParT.Worker.C24_mixedCoeff"], "note": "C22_layout: disjointness and range. That every read finds a written entry is part of C23/C24 (an uninitialised or out-of-range read is `ub` in the model and those theorems return `ok` from an arbitrary buffer, also after any number of FillCache2 calls)."},
 {"property": "C23", "status": "partial", "theorems": ["MParT.Worker.C23_evaluate_partial", "MParT.Worker.C23_degree_zero_ignored", "MParT.Worker.C23_dense_last_term_constant", "MParT.Worker.C23_fails_dense", "MParT.Worker.C23_class"], "note": "Proved for every compressed set. False for the dense layout: C23_dense_last_term_constant shows that the last term contributes its bare coefficient at every point; C23_fails_dense is a witness. C23_degree_zero_ignored: a basis whose degree-0 function is not 1 (normalised Hermite) is evaluated as if it were."},
 {"property": "C24", "status": "proved", "theorems": ["MParT.C24_bases", "MParT.C24_bases_normalized", "MParT.C24_fails_normalized", "MParT.Worker.C24_diagonal", "MParT.Worker.C24_diagonal2", "MParT.Worker.C24_input", "MParT.Worker.C24_mixedInput", "MParT.Worker.C24_coeff", "MParT.Worker.C24_mixedCoeff", "MParT.Worker.C24_class", "MParT.Worker.C24_class_read", "MParT.C24_represents", "MParT.C24_linearized", "MParT.C24_linearized_smooth", "MParT.C24_represents_linearized", "MParT.C24_fails_linearized_normalized"], "note": "Over the reals, for every basis whose derivative evaluators are correct and every compressed set. Second derivatives in the last input need them to exist there (false only at the two ends of a linearised basis). C24_class/C23_class: filling the cache through a basis class gives the same cache; C24_represents(_linearized) instantiate the classes; C24_fails_linearized_normalized: the routines of a linearised normalised class disagree."},
 {"property": "C25", "status": "proved", "theorems": ["MParT.C25_evaluate", "MParT.C25_evaluateAll", "MParT.C25_evaluateDerivatives", "MParT.C25_evaluateSecondDerivatives"], "note": "All recurrences over any field, all normalisations, orders, points and buffer lengths."},
 {"property": "C26", "status": "partial", "theorems": ["MParT.C26_differentiable", "MParT.C26_arrays", "MParT.C26_secondDerivative", "MParT.C26_derivative_partial", "MParT.C26_fails_normalized_order_one"], "note": "Array paths and SecondDerivative: true derivatives, always. Derivative: true except order one of a normalised family, where the code omits the normalisation (refuted: C26_fails_normalized_order_one)."},
 {"property": "C27", "status": "partial", "theorems": ["MParT.C27_probabilist", "MParT.C27_physicist", "MParT.C27_probabilist_gram", "MParT.C27_physicist_gram", "MParT.C27_normalization_partial", "MParT.C27_orthonormal_partial", "MParT.C27_fails_from_13", "MParT.C27_fails_from_34"], "note": "Values and orthogonality: every order. Normalisation constants: orders up to 12 (Factorial overflows 32 bits from 13 on: C27_fails_from_13, C27_fails_from_34)."},
 {"property": "C28", "status": "partial", "theorems": ["MParT.C28_differentiable", "MParT.C28_evaluateAll", "MParT.C28_evaluateDerivatives", "MParT.C28_evaluateSecondDerivatives", "MParT.C28_scalar_partial", "MParT.C28_fails_evaluate_from_15", "MParT.C28_fails_secondDerivative"], "note": "Array paths: every order. Scalar Evaluate/Derivative: orders up to 14, refuted from 15 on by overflow of Factorial; SecondDerivative refuted."},
 {"property": "C29", "status": "partial", "theorems": ["MParT.C29_linearize_C1", "MParT.C29_evaluateDerivatives", "MParT.C29_evaluateSecondDerivatives", "MParT.C29_scalar", "MParT.C29_evaluateAll_partial", "MParT.C29_probabilist", "MParT.C29_hermiteFunction", "MParT.C29_fails_normalized"], "note": "Extension is C1 and all paths agree for every underlying basis whose paths are right; EvaluateAll refuted for normalised families (C29_fails_normalized)."},
 {"property": "C30", "status": "proved", "theorems": ["MParT.C30_softPlus_formula", "MParT.C30_softPlus", "MParT.C30_exp"], "note": "All reals."},
 {"property": "C31", "status": "partial", "theorems": ["MParT.C31_logistic_formula", "MParT.C31_logistic", "MParT.Sigmoid1d.C31_evaluate", "MParT.Sigmoid1d.C31_gradientImpl_partial", "MParT.Sigmoid1d.C31_coeffGradImpl_partial", "MParT.Sigmoid1d.C31_fails_gradient", "MParT.Sigmoid1d.C31_gradient_exchanged", "MParT.Sigmoid1d.C31_new", "MParT.Sigmoid1d.C31_rejects"], "note": "Logistic and Evaluate: all parameters. Gradient/CoeffGrad exact only with exchanged arguments; the public entry points are refuted (C31_fails_gradient)."},
 {"property": "C32", "status": "proved", "theorems": ["MParT.C32_rule", "MParT.C32_total", "MParT.C32_nested", "MParT.C32_integrate", "MParT.C32_exact", "MParT.C32_fails_reversed"], "note": "Rule positions/weights, total weight, symmetry, positivity, nesting and exactness for degree <= n-1 (n <= 65537, where the 32-bit denominator does not wrap)"},
 {"property": "C33", "status": "proved", "theorems": ["MParT.C33_value", "MParT.C33_leaves", "MParT.C33_exact", "MParT.C33_additive", "MParT.C33_fails_minSub", "MParT.C33_fails_mask"], "note": "Value, termination within 2^maxSub iterations, memory safety, leaves, exactness for cubics, additivity, for minSub < maxSub <= 32; C33_fails_* show what happens outside that range"},
 {"property": "C34", "status": "proved", "theorems": ["MParT.C34_rules", "MParT.C34_value", "MParT.C34_exact", "MParT.C34_fails_minSub", "MParT.C34_fails_views", "MParT.C33_leaves", "MParT.C33_additive"], "note": "Same for levels >= 1 of the constructor taking a level; exactness for degree <= 2^(level+1) up to level 15; C34_fails_* cover minSub >= maxSub and the constructor taking views"},
 {"property": "C35", "status": "proved", "theorems": ["MParT.RootFinding.C35_bracket", "MParT.RootFinding.C35_succeeds", "MParT.RootFinding.C35_status"], "note": "Soundness for every function, completeness and meaning of the status for every increasing function"},
 {"property": "C36", "status": "proved", "theorems": ["MParT.RootFinding.C36_search", "MParT.RootFinding.C36_inverse", "MParT.RootFinding.C36_root"], "note": "Exact real arithmetic; bracket and width invariants at every iteration, iteration bound, accuracy; xtol at least the least positive double"},
 {"property": "C37", "status": "partial", "theorems": ["MParT.RootFinding.C37_fails_status", "MParT.RootFinding.C37_fails_limit", "MParT.RootFinding.C37_partial"], "note": "False as stated: C37_fails_status (status -1 is never returned) and C37_fails_limit; C37_partial covers bracket failures"},
 {"property": "C38", "status": "partial", "theorems": ["MParT.C38_exact", "MParT.C38_single", "MParT.C38_evaluate_partial", "MParT.C38_increasing_partial", "MParT.C38_inverse", "MParT.C38_points_partial", "MParT.C38_fails_nugget", "MParT.C38_fails_inverse", "MParT.C38_fails_monotone"], "note": "Exact component: derivative, positivity and strict monotonicity proved (C38_exact). Evaluate, EvaluateSingle and Inverse are shown to apply the quadrature to exactly the right integrand, for every quadrature that is a weighted sum; Clenshaw-Curtis, adaptive Simpson and adaptive Clenshaw-Curtis are shown to be such. The code violates the rest: Evaluate ignores the nugget (C38_fails_nugget), Inverse does not (C38_fails_inverse), and the discretised component need not be monotone (C38_fails_monotone)."},
 {"property": "C39", "status": "partial", "theorems": ["MParT.C39_discrete", "MParT.C39_coeff", "MParT.C39_input", "MParT.C39_discreteMixed_partial", "MParT.C39_fails_accumulate", "MParT.C39_continuous_partial", "MParT.C39_fails_continuous", "MParT.C39_continuousMixed", "MParT.C39_continuousMixedInput", "MParT.C39_logdet_continuous", "MParT.C39_logdet_discrete", "MParT.C39_gradients", "MParT.C39_rule", "MParT.C39_clenshawCurtis", "MParT.C39_simpson", "MParT.C39_adaptiveCC"], "note": "All discrete derivatives are exact for the nodes used, for every valid component, point and coefficients. Violated: ContinuousDerivative omits the nugget (C39_fails_continuous); DiscreteMixedJacobian accumulates into its output (C39_fails_accumulate)."},
 {"property": "C40", "status": "proved", "theorems": ["MParT.C40_new", "MParT.C40_evaluate", "MParT.C40_causal"], "note": "Constructor accepts exactly the chained lists; Evaluate stacks the component outputs on leading inputs; causality. Components are any objects that evaluate deterministically on fitting arguments."},
 {"property": "C41", "status": "proved", "theorems": ["MParT.C41_inverse", "MParT.C41_roundtrip", "MParT.C41_inplace", "MParT.C41_blockwise"], "note": "Exact component inverses give an exact triangular inverse and round trips both ways, InverseInplace gives the same; C41_blockwise covers inexact (tolerance) inverses block by block. MonotoneComponent's own inverse uses the nugget and Evaluate does not (C38_fails_*)."},
 {"property": "C42", "status": "proved", "theorems": ["MParT.C42_sum", "MParT.C42_jacobian"], "note": "Sum of component log-determinants, equal to log|det| of the Jacobian in the last outputDim inputs."},
 {"property": "C43", "status": "proved", "theorems": ["MParT.C43_gradient", "MParT.C43_logDet"], "note": "All four gradients are exact whenever the components' are and overwrite their output buffers. AffineMap's LogDeterminantInputGrad does not write its buffer: see C47."},
 {"property": "C44", "status": "partial", "theorems": ["MParT.Coeffs.C44_set", "MParT.Coeffs.C44_wrap", "MParT.Coeffs.C44_move", "MParT.Coeffs.C44_slices", "MParT.Coeffs.C44_cover", "MParT.Coeffs.C44_write", "MParT.Coeffs.C44_history", "MParT.Coeffs.C44_fails_twice", "MParT.Coeffs.C44_fails_wrap_component", "MParT.Coeffs.C44_fails_second_map", "MParT.Coeffs.C44_fails_rebind"], "note": "Proved for every nesting of maps in which no object occurs twice and every history, of any calls before, that does not point something inside the map elsewhere afterwards (C44_set, C44_wrap, C44_move, C44_slices, C44_cover, C44_write, C44_history). False otherwise: C44_fails_twice (ComposedMap({m,m})), C44_fails_wrap_component, C44_fails_second_map, C44_fails_rebind (Coeffs() = view)."},
 {"property": "C45", "status": "partial", "theorems": ["MParT.C45_new", "MParT.C45_evaluate", "MParT.C45_inverse", "MParT.C45_logDet", "MParT.C45_jacobian", "MParT.C45_gradient", "MParT.C45_fails_identity"], "note": "Evaluate, Inverse, LogDeterminant, Gradient for all layers; CoeffGrad for layers whose coefficient gradients return (false for identity layers: C45_fails_identity)."},
 {"property": "C46", "status": "proved", "theorems": ["MParT.C46_requests", "MParT.C46_zero", "MParT.C46_gradients"], "note": "All layer counts, maxSaves and non-increasing request sequences; machine integers are unbounded in the model."},
 {"property": "C47", "status": "partial", "theorems": ["MParT.C47_fails_affine", "MParT.C47_fails_affine_triangular", "MParT.C47_composed_partial"], "note": "Composed and triangular maps whose layers overwrite their output buffer; refuted for affine layers (C47_fails_affine, C47_fails_affine_triangular)."},
 {"property": "C48", "status": "proved", "theorems": ["MParT.C48_affine_evaluate", "MParT.C48_affine_inverse", "MParT.C48_affine_logDet", "MParT.C48_affine_singular", "MParT.C48_affine_gradient", "MParT.C48_affine_logDetGradient_partial", "MParT.C48_affine_rejects", "MParT.C48_fails_gradient_nan", "MParT.C48_identity_evaluate", "MParT.C48_identity_inverse", "MParT.C48_identity_logDet", "MParT.C48_identity_gradient", "MParT.C48_identity_logDetGradient", "MParT.C48_summarised_new", "MParT.C48_summarised_evaluate", "MParT.C48_summarised_inverse", "MParT.C48_summarised_inverse_upTo", "MParT.C48_summarised_logDet", "MParT.C48_summarised_gradient", "MParT.C48_summarised_logDetGradient", "MParT.C48_affine_summary"], "note": "Identity, affine (LU taken as exact solve) and summarised maps for all dimensions; the Eigen overload of Gradient is refuted for affine maps (C48_fails_gradient_nan)."},
 {"property": "C49", "status": "partial", "theorems": ["MParT.Coeffs.C49_wrap_rejects", "MParT.Coeffs.C49_set_rejects", "MParT.Coeffs.C49_set_returns", "MParT.Coeffs.C49_sizes", "MParT.Coeffs.C49_missing", "MParT.Coeffs.C49_fails_rebind", "MParT.Coeffs.C49_fails_first_set", "MParT.Coeffs.C49_fails_constructor"], "note": "Missing coefficients, wrong-size WrapCoeffs, wrong-size SetCoeffs on an object that has coefficients are proved after every history of calls, including assignments to Coeffs(); memory safety (C49_sizes) after every history without such assignments, after which it fails (C49_fails_rebind); the first SetCoeffs accepts any size (C49_fails_first_set, noticed at the next use by C49_sizes) and so does the constructor with coefficients (C49_fails_constructor, never noticed)."},
 {"property": "C50", "status": "proved", "theorems": ["MParT.Parallel.C50_coverage", "MParT.Parallel.C50_fails_no_points", "MParT.Parallel.C50_fails_overflow", "MParT.Parallel.C50_schedule"], "note": "C50_coverage (coverage, with the floating-point division), C50_schedule (all interleavings). With no points the policy is undefined (C50_fails_no_points); beyond int range the index overflows (C50_fails_overflow)."},
 {"property": "C51", "status": "proved", "theorems": ["MParT.Parallel.C51_reduce"], "note": "C51_reduce, exact arithmetic over any commutative ring; covers both reductions and both axes."},
 {"property": "C52", "status": "partial", "theorems": ["MParT.C52_pullback", "MParT.C52_dimensions", "MParT.C52_pullback_gradient", "MParT.C52_pushforward", "MParT.C52_fails_pushforward_gradient", "MParT.C52_round_trip", "MParT.C52_samplers", "MParT.C52_law", "MParT.C52_fails_coeffGrad_eigen_size"], "note": "Pullback and pushforward values, dimension checks, round trips, input and coefficient gradients on views, samplers and the law of the samples are proved for every map and density that meets the stated contracts. False for the Eigen overload of LogDensityCoeffGrad (returns the input gradient) and for the gradient of a pushforward density (always throws)."},
 {"property": "C53", "status": "partial", "theorems": ["MParT.C53_logDensity", "MParT.C53_rejects", "MParT.C53_gradient_partial", "MParT.C53_sample_partial", "MParT.C53_law", "MParT.C53_normalised", "MParT.C53_fails_strided_output", "MParT.C53_fails_sample", "MParT.C53_fails_gradient", "MParT.C53_identity_covariance", "MParT.C53_density", "MParT.C53_covariance", "MParT.C53_covariance_posDef"], "note": "Log-density for every constructor, data set and schedule with a contiguous output; normalisation; gradient; samples and their law. False for strided outputs and, with a covariance matrix, for the public Sample and LogDensityInputGrad, which allocate row-major outputs."},
 {"property": "C54", "status": "partial", "theorems": ["MParT.C54_value", "MParT.C54_gradient_partial", "MParT.C54_no_test_set", "MParT.C54_test_error", "MParT.C54_fails_no_samples", "MParT.C54_fails_strided_gradient"], "note": "Value, gradient and their consistency for every non-empty data set, map and density meeting the contracts, and every schedule. False for an empty data set and for a gradient view with a stride."},
 {"property": "C55", "status": "partial", "theorems": ["MParT.ATM.C55_history_partial", "MParT.ATM.C55_returns_partial", "MParT.ATM.C55_returns_single_partial", "MParT.ATM.C55_largest_gradient", "MParT.ATM.C55_copy_partial", "MParT.ATM.C55_no_improvement", "MParT.ATM.C55_fails_initial_lost", "MParT.ATM.C55_fails_out_of_range", "MParT.ATM.C55_fails_uninitialised"], "note": "Proved: for every sequence of gradients and errors, a run that returns has trained a history of maps each grown by one reduced-margin term below the maximum degrees, within maxSize, stopping only at maxSize or after maxPatience steps without improvement, and returns the sets with the smallest test error if any step improved; the added term has the largest gradient. Refuted: the initial map is lost when no step improves (constants are returned), coefficients are read out of range when Expand() reports duplicates, and an uninitialised index is used when no candidate has a nonzero gradient. The optimiser, the coefficients and the final retraining are in C99. No coefficient is read out of range when the limiters accept exactly the terms in one variable (C55_returns_single_partial)."},
 {"property": "C56", "status": "partial", "theorems": ["MParT.Ser.C56_options", "MParT.Ser.C56_views", "MParT.Ser.C56_matrices_partial", "MParT.Ser.C56_sets", "MParT.Ser.C56_bases", "MParT.Ser.C56_quadrature_partial", "MParT.Ser.C56_expansions", "MParT.Ser.C56_components", "MParT.Ser.C56_components_in_a_row", "MParT.Ser.C56_triangular_partial", "MParT.Ser.C56_fails_bytes_left", "MParT.Ser.C56_fails_next_object", "MParT.Ser.C56_fails_without_coefficients", "MParT.Ser.C56_fails_coefficients_lost", "MParT.Ser.C56_fails_nested", "MParT.Ser.C56_fails_nested_null", "MParT.Ser.C56_fails_external_workspace", "MParT.Ser.C56_fails_large_matrix"], "note": "Proved: loading gives back an equal object and consumes exactly its bytes, whatever follows, for every option object, view, multi-index set, basis of any nesting, expansion, quadrature rule that owns its workspace, matrix below 2^32 entries, and monotone component (through Save and Load, also any number in a row). For triangular maps of components with coefficients, only the components and coefficients are recovered. False as stated: triangular maps write their components twice and leave 8n+8 bytes unread, so the next object is read as null; maps without coefficients throw on load; coefficients are lost with a multiple of 256 components; nested triangular maps lose coefficients or dereference null; external workspaces are lost; matrices of 2^32 entries lose their data. cereal's format is trusted."},
 {"property": "C57", "status": "partial", "theorems": ["MParT.C57_product_partial", "MParT.C57_expansion", "MParT.C57_fails_value"], "note": "Proved when the first factor has as many coefficients as inputs and the second at least as many (values, derivatives in the last input, coefficient gradients, any cache history), and that library expansions are such factors; refuted otherwise: the coefficients are split by the numbers of inputs."},
 {"property": "C58", "status": "proved", "theorems": ["MParT.C58_evaluate", "MParT.C58_contracts", "MParT.C58_rejects"], "note": "CreateSingleEntryMap: the map passes all inputs through except output activeInd, which is the component's value; the component need not be monotone for evaluation, and the contracts (log determinant, gradients, inverse) carry over; wrong arguments are rejected. That SetCoeffs(zeros) overwrites the component's coefficients is noted in DESIGN.md."},
 {"property": "C59", "status": "partial", "theorems": ["MParT.MultiIndex.C59_set_at_length_corrupts", "MParT.MultiIndex.C59_get_at_length_accepted", "MParT.MultiIndex.C59_const_zero_length"], "note": "The claim is false of the code: Set/Get at ind == Length() are accepted and corrupt the object. The theorems prove the failure for every multi-index."},
 {"property": "C60", "status": "proved", "theorems": ["MParT.Worker.C60_evaluate", "MParT.Worker.C60_gradient", "MParT.Worker.C60_coeffGrad"], "note": "Per-point loop bodies; the parallel loop over points is C50."},
 {"property": "C61", "status": "partial", "theorems": ["MParT.C61_weights", "MParT.C61_affine", "MParT.C61_affine_inverse", "MParT.C61_fails_jacobian", "MParT.C61_evaluates", "MParT.C61_logdet", "MParT.C61_gradient_mesh", "MParT.C61_gradient", "MParT.C61_fails_nugget", "MParT.C61_jacobian_partial", "MParT.C61_discrete", "MParT.C61_inverse_partial", "MParT.C61_fails_inverse"], "note": "Evaluate, LogDeterminant and its gradients: every quadrature (continuous derivative). Gradient and CoeffGrad: fixed rules, or any mesh the value does not depend on, without nugget; false with a nugget. LogDeterminant equals the log-Jacobian of Evaluate only if the integral is exact (false otherwise); the whole contract, including Inverse, is proved for components affine in the last input. Gradients of Evaluate with adaptive rules hold for a frozen mesh (C39)."},
 {"property": "C62", "status": "partial", "theorems": ["MParT.C62_basis", "MParT.C62_quadrature", "MParT.C62_component_partial", "MParT.C62_initial", "MParT.C62_fails_nested"], "note": "missing: options outside GoodBasis/GoodQuad, and sets that are not compressed. Proved for bounds in order, finite bounds only with unnormalised polynomials or Hermite functions up to order 14, normalised polynomials up to order 33 (the constants are right up to 12, beyond that the factorial overflows, see C26), 4..65537 points for nested rules. Elsewhere it fails: C24_fails_linearized_normalized, C62_fails_nested. Gradients are exact with a fixed rule or order 1, without nugget (C61). The assertions of SetDim are not in this model: in builds with assertions ClenshawCurtisQuadrature fails them, see C93."},
 {"property": "C63", "status": "partial", "theorems": ["MParT.C63_triangular_partial", "MParT.C63_initial_partial", "MParT.C63_rejects"], "note": "the same options as C62; with more outputs than inputs or none the call does not return normally (undefined behaviour, not an exception)"},
 {"property": "C64", "status": "partial", "theorems": ["MParT.C64_expansion", "MParT.C64_createExpansion_partial", "MParT.C64_fails_normalized"], "note": "the same options as C62; C64_fails_normalized: with finite bounds and the default basisNorm=true Gradient is wrong beyond the bounds"},
 {"property": "C65", "status": "partial", "theorems": ["MParT.C65_strided", "MParT.C65_pointer", "MParT.C65_stdMat", "MParT.C65_contiguous", "MParT.C65_vec", "MParT.C65_const", "MParT.C65_kokkosToStd"], "note": "ConstRowMatToKokkos and ConstColMatToKokkos ignore the outer stride (C65_const is an equivalence), KokkosToVec of a view not declared strided needs unit stride (C65_vec)"},
 {"property": "C66", "status": "partial", "theorems": ["MParT.C66_evaluateView", "MParT.C66_evaluate_partial", "MParT.C66_gradientView", "MParT.C66_gradient_partial", "MParT.C66_coeffGradView", "MParT.C66_coeffGrad_partial", "MParT.C66_ldInputGradView", "MParT.C66_ldInputGrad_partial", "MParT.C66_ldCoeffGradView", "MParT.C66_ldCoeffGrad_partial", "MParT.C66_logDetView", "MParT.C66_logDet_partial", "MParT.C66_inverseView", "MParT.C66_inverse_partial", "MParT.C66_inverse_columns", "MParT.C66_fails_block"], "note": "for Eigen arguments with contiguous rows; blocks of larger matrices are read wrongly (C66_fails_block)"},
 {"property": "C67", "status": "proved", "theorems": ["MParT.C67_registry", "MParT.C67_missing", "MParT.C67_distinct"], "note": "full"},
 {"property": "C68", "status": "partial", "theorems": ["MParT.C68_train_partial", "MParT.C68_improves_partial", "MParT.C68_rejects", "MParT.C68_fails_no_gradient"], "note": "maps that meet the contracts of C54, a non-empty training set, at least one coefficient; optimisers that ask without a gradient make the code form a reference behind a null pointer (C68_fails_no_gradient), which the theorems cover when it is harmless"},
 {"property": "C69", "status": "proved", "theorems": ["MParT.C69_value", "MParT.C69_dimension"], "note": "full, for non-empty training sets (C54_fails_no_samples)"},
 {"property": "C70", "status": "proved", "theorems": ["MParT.C70_transpose", "MParT.C70_dgemm", "MParT.C70_product", "MParT.C70_views", "MParT.C70_rejects", "MParT.C70_sum", "MParT.C70_sum_matrix", "MParT.C70_sum_rejects"], "note": "Shapes are unbounded and may be empty; arithmetic is exact."},
 {"property": "C71", "status": "partial", "theorems": ["MParT.C71_determinant", "MParT.C71_solve_partial", "MParT.C71_singular", "MParT.C71_exists", "MParT.C71_rejects", "MParT.C71_fails_not_computed", "MParT.C71_cholesky_half", "MParT.C71_cholesky_solve", "MParT.C71_cholesky_determinant", "MParT.C71_cholesky_exists", "MParT.C71_affine", "MParT.C71_gaussian"], "note": "Proved for computed solvers (exact arithmetic; the factors are any valid ones and exist for every invertible, resp. positive definite, matrix). Fails for solvers that were not computed: solve and multiplyL dereference a null pointer, and determinant asserts on a flag that has no value. Cholesky reads only the lower triangle. Eigen reports a failed factorisation only through info(), which the code does not read: C71_singular shows what the LU solver does then."},
 {"property": "C72", "status": "partial", "theorems": ["MParT.Init.C72_shouldPrint", "MParT.Init.C72_history_partial", "MParT.Init.C72_unused", "MParT.Init.C72_fails_kokkos_first", "MParT.Init.C72_fails_finalize", "MParT.Init.C72_fails_again", "MParT.Init.C72_fails_race", "MParT.Init.C72_no_overlap"], "note": "Proved for programs that leave Kokkos to the library. It fails if the program initialises Kokkos itself, calls the public Finalize, or calls Initialize from two threads at once (C72_fails_*)."},
 {"property": "C73", "status": "partial", "theorems": ["MParT.MISet.C73_backward_partial", "MParT.MISet.C73_backward_index", "MParT.MISet.C73_backward_far", "MParT.MISet.C73_fails_inactive", "MParT.MISet.C73_admissibleForward"], "note": "Proved whenever every backward neighbour is a member (and for the true entries always); fails otherwise: an inactive neighbour is returned as 4294967295. AdmissibleForwardNeighbors is proved fully."},
 {"property": "C74", "status": "partial", "theorems": ["MParT.MISet.C74_picture_partial", "MParT.MISet.C74_one", "MParT.MISet.C74_zero", "MParT.MISet.C74_fails_one", "MParT.MISet.C74_fails_not_downclosed", "MParT.MISet.C74_fails_after_setLimiter", "MParT.MISet.C74_fails_three"], "note": "Two dimensions proved for every history, with m for every stored term next to a member; fails: one-dimensional sets draw p a's whatever the members, the reduced-margin mark is wrong for terms outside the margin, terms refused by a limiter set later are drawn, sets of more than two dimensions are drawn by the first two entries."},
 {"property": "C75", "status": "partial", "theorems": ["MParT.Samplers.C75_reproducible_partial", "MParT.Samplers.C75_fails_shared", "MParT.Samplers.C75_fails_schedule", "MParT.Samplers.C75_fails_same_second", "MParT.Samplers.C75_new", "MParT.Samplers.C75_refused", "MParT.Samplers.C75_distribution", "MParT.Samplers.C75_sample", "MParT.Samplers.C75_draws"], "note": "Proved for samplers that share no Gaussian object and equal schedules; fails for a shared reference, for other schedules (the pool generator depends on the thread) and for unseeded samplers created in the same second."},
 {"property": "C76", "status": "partial", "theorems": ["MParT.Ser.C76_eq_iff", "MParT.Ser.C76_equivalence", "MParT.Ser.C76_roundtrip", "MParT.Ser.C76_fails_nan", "MParT.Ser.C76_fails_derived"], "note": "Proved for MapOptions without NaN; fails for NaN and for ATMOptions, of which only the MapOptions part is compared."},
 {"property": "C77", "status": "partial", "theorems": ["MParT.RootFinding.C77_zero_partial", "MParT.RootFinding.C77_zero_root", "MParT.RootFinding.C77_fails_target"], "note": "Proved for target zero and a starting point that is not a root (C77_zero_partial, C77_zero_root), and for increasing functions in C36. Fails for other targets (C77_fails_target): Find_x_ITP computes the regula falsi point as if the target were zero, so that trial points leave the bracket."},
 {"property": "C78", "status": "partial", "theorems": ["MParT.C78_factories", "MParT.C78_adaptive_partial", "MParT.C78_fails_nugget", "MParT.C78_fails_unknown_name", "MParT.C78_fails_default_degrees"], "note": "map factories proved for all options; fails: nugget dropped in adaptive training, unknown names silently replaced, MATLAB's default maximum degrees reject every map of more than one variable"},
 {"property": "C79", "status": "partial", "theorems": ["MParT.C79_fails_deserialize", "MParT.C79_file_partial"], "note": "the file is right; fails: Deserialize asks for 13 results of a function that allows 12, so it is always an error"},
 {"property": "C80", "status": "partial", "theorems": ["MParT.C80_deepCopy_partial", "MParT.C80_fails_limiter", "MParT.C80_fails_zero", "MParT.C80_fails_order", "MParT.C80_fails_no_variables"], "note": "terms kept; fails: zero term added, order changed, limiter lost, no variables"},
 {"property": "C81", "status": "partial", "theorems": ["MParT.C81_set_partial", "MParT.C81_fails_multiindex"], "note": "sets proved; fails: iterating a multi-index yields an extra zero"},
 {"property": "C82", "status": "partial", "theorems": ["MParT.C82_index_partial", "MParT.C82_fails_get", "MParT.C82_fails_set"], "note": "valid indices proved; fails: length plus one accepted on reading and writing"},
 {"property": "C83", "status": "partial", "theorems": ["MParT.C83_roundtrip", "MParT.C83_julia_partial", "MParT.C83_fails_julia"], "note": "Python and MATLAB proved; Julia fails when the coefficients were never set"},
 {"property": "C84", "status": "partial", "theorems": ["MParT.C84_julia_partial", "MParT.C84_inverse_partial", "MParT.C84_fails_affine"], "note": "proved for maps that assign their output; fails for affine maps"},
 {"property": "C85", "status": "partial", "theorems": ["MParT.C85_shift", "MParT.C85_affine_partial", "MParT.C85_fails_tall"], "note": "Shifts, and matrices with not more rows than columns: value, gradient, sizes, rejected offsets. Missing, because the code violates it: matrices with more rows than columns are rejected (C85_fails_tall)."},
 {"property": "C86", "status": "partial", "theorems": ["MParT.Quad.C86_construct", "MParT.Quad.C86_setDim", "MParT.Quad.C86_setWorkspace_load", "MParT.Quad.C86_integrate_partial", "MParT.Quad.C86_integrateWith", "MParT.Quad.C86_fails_external", "MParT.Quad.C86_fails_load"], "note": "Every history: construction, copies, SetDim on objects with their own memory, Integrate (value and frame) for all three rules. Missing, because the code violates it: with a workspace of the user SetDim does not enforce the maximum dimension, so Integrate leaves the array (C86_fails_external); loading the archive of an object without memory into one with memory leaves a dangling workspace pointer (C86_fails_load)."},
 {"property": "C87", "status": "partial", "theorems": ["MParT.MonotoneComponent.C87_options", "MParT.MonotoneComponent.C87_fails_nan", "MParT.MonotoneComponent.C87_points_partial", "MParT.MonotoneComponent.C87_entry"], "note": "Options, sizes, broadcasting, NaN columns and every entry, for xs with at least as many rows as inputs. Missing, because the code violates it: a tolerance \"nan\" is accepted (C87_fails_nan); without rows the starting point is read outside the array (C61_fails_inverse)."},
 {"property": "C88", "status": "partial", "theorems": ["MParT.C88_toHost", "MParT.C88_toDevice", "MParT.C88_evaluate", "MParT.C88_gradient_partial", "MParT.C88_fails_gradient", "MParT.C88_coeffGrad", "MParT.C88_logDet", "MParT.C88_inverse", "MParT.C88_ldCoeffGrad", "MParT.C88_ldInputGrad", "MParT.C88_hostPoints", "MParT.C88_hostSens_partial", "MParT.C88_hostInverse", "MParT.C88_eigenPoints_partial", "MParT.C88_eigenSens_partial", "MParT.C88_devicePoints", "MParT.C88_deviceSens", "MParT.C88_inverse_rejects", "MParT.C88_fails_inverse"], "note": "Every overload for both memory spaces and for Eigen matrices with contiguous memory, except: Gradient of a map on the device allocates outputDim rows (C88_fails_gradient; C88_gradient_partial for as many inputs as outputs), Inverse of a map on the host for arrays on the device calls CoeffGrad (C88_fails_inverse). Eigen blocks are misread as in C66."},
 {"property": "C89", "status": "partial", "theorems": ["MParT.C89_dgemm_partial", "MParT.C89_product_partial", "MParT.C89_product_rejects", "MParT.C89_fails_product", "MParT.C89_fails_dgemm", "MParT.C89_lu_rejects", "MParT.C89_lu_solve", "MParT.C89_fails_height", "MParT.C89_height_small", "MParT.C89_determinant_partial", "MParT.C89_fails_determinant", "MParT.C89_cholesky_rejects", "MParT.C89_cholesky", "MParT.C89_multiplyL_partial", "MParT.C89_fails_multiplyL", "MParT.C89_fails_not_computed"], "note": "Proved for the layouts in which columns do not overlap, for solves, and for the Cholesky determinant; cuBLAS/cuSOLVER are trusted to meet their contracts. Fails: the LU determinant drops the sign of the row exchanges, a product with a row-major matrix of one column is left undone without an error, multiplyL uses the leading dimension of the input matrix for the factor, right-hand sides that are too tall are accepted."},
 {"property": "C90", "status": "partial", "theorems": ["MParT.FixedSet.C90_schedule", "MParT.FixedSet.C90_toDevice_partial", "MParT.FixedSet.C90_fails_dense", "MParT.FixedSet.C90_print", "MParT.FixedSet.C90_fails_print_empty", "MParT.FixedSet.C90_sizes", "MParT.FixedSet.C90_totalOrder32_partial", "MParT.FixedSet.C90_fails_size", "MParT.FixedSet.C90_size_two"], "note": "Holds for compressed sets and for sizes that fit in 32 bits. A dense set loses its last term when it is copied to the device (C90_fails_dense), and the total-order constructor writes outside its arrays as soon as a size exceeds 32 bits (C90_fails_size: two variables, order 65536)."},
 {"property": "C91", "status": "partial", "theorems": ["MParT.C91_coeffJacobian", "MParT.C91_inputJacobian", "MParT.C91_gradients", "MParT.C91_discreteDerivative_partial", "MParT.C91_continuousDerivative_partial", "MParT.C91_continuousNew", "MParT.C91_continuousMixed", "MParT.C91_continuousMixedInput", "MParT.C91_logdet_partial", "MParT.C91_discreteMixed_partial", "MParT.C91_discreteNew", "MParT.C91_logdet_discrete_partial", "MParT.C91_evaluate_partial", "MParT.C91_rejects", "MParT.C91_fails_short", "MParT.C91_fails_logdet", "MParT.C91_fails_rows", "MParT.C91_fails_few_rows"], "note": "Rejection of wrong sizes for the Jacobians, Gradient, CoeffGrad, the gradients of the log-determinant and Evaluate; values and derivatives in every entry for right sizes. Missing, because the code violates it: short outputs of ContinuousDerivative and LogDeterminant are written out of range (C91_fails_short), long outputs of LogDeterminant lose their content (C91_fails_logdet), Evaluate and LogDeterminant do not check the rows of the points (C91_fails_rows, C91_fails_few_rows)."},
 {"property": "C92", "status": "partial", "theorems": ["MParT.Shared.C92_sameDim_partial", "MParT.Shared.C92_oneByOne", "MParT.Shared.C92_conflict", "MParT.Shared.C92_kernel", "MParT.Shared.C92_fails_mixed", "MParT.Shared.C92_fails_same"], "note": "Proved for calls that all integrate with the same number of outputs or not at all (values as in sequentially consistent memory), and for any calls if each is prepared after the one before it has started its kernel. Missing, because the code violates it: different numbers of outputs (C92_fails_mixed), LogDeterminantCoeffGrad with discrete derivatives against itself (C92_fails_same). By the rules of C++ every integrating call at the same time as another is a data race (C92_conflict)."},
 {"property": "C93", "status": "partial", "theorems": ["MParT.Quad.C93_adaptive_partial", "MParT.Quad.C93_clenshawCurtis_partial", "MParT.Quad.C93_fails_clenshawCurtis", "MParT.Quad.C93_fails_api"], "note": "Proved for the adaptive quadratures in every order of calls, and for ClenshawCurtisQuadrature with one output. Missing, because the code violates it: with ClenshawCurtisQuadrature every call with more than one output (gradients, discrete derivatives) fails the assertion of SetDim in builds with assertions (C93_fails_clenshawCurtis, C93_fails_api)."},
 {"property": "C94", "status": "partial", "theorems": ["MParT.RootFinding.Fp.C94_certified", "MParT.RootFinding.Fp.C94_fails_tolerances", "MParT.RootFinding.Fp.C94_numbers_partial", "MParT.RootFinding.Fp.C94_fails_target", "MParT.RootFinding.Fp.C94_fails_function", "MParT.RootFinding.Fp.C94_start_partial", "MParT.MonotoneComponent.C94_component_partial", "MParT.MonotoneComponent.C94_fails_component"], "note": "For every arithmetic (any rounding, overflow, NaN) the search ends after at most 10131 evaluations, and a success is certified by computed values (C94_certified); a NaN start gives NaN; for numbers it agrees with the exact model of C35-C37. Violated: a NaN target, or a function that is NaN everywhere, gives a number with success; with NaN tolerances the search makes all 10000 trials and reports success. Infinities in the arithmetic of numArith are NaN."},
 {"property": "C95", "status": "proved", "theorems": ["MParT.Recursive.C95_work", "MParT.Recursive.C95_tiny", "MParT.Recursive.C95_calls", "MParT.Recursive.C95_real", "MParT.Recursive.C95_needs_minSub", "MParT.Recursive.C95_needs_maxSub"], "note": "For every outcome of the comparisons (every rounding, overflow and NaN). The upper bound is reached by integrands that are NaN: with the default options 2^31+1 evaluations of the integrand for one evaluation of a component, since EvaluateImpl does not check its points for NaN as InverseImpl does."},
 {"property": "C96", "status": "partial", "theorems": ["MParT.Life.C96_copied", "MParT.Life.C96_safe", "MParT.Life.C96_copying", "MParT.Life.C96_onlyViews", "MParT.Life.C96_setCoeffs", "MParT.Life.C96_shared", "MParT.Life.C96_fails_arrays", "MParT.Life.C96_fails_temporary", "MParT.Life.C96_fails_coeffMap"], "note": "Proved for every program: objects that copy (Python and Julia objectives, affine maps, covariances, compressed sets of Python) and SetCoeffs compute with the entries given (C96_copied, C96_setCoeffs); programs that keep no arrays, use no CoeffMap and no dense set of Python never touch freed memory and leak nothing (C96_safe, C96_copying, C96_onlyViews); shared views outlive their variables (C96_shared). The code fails for arrays kept by MATLAB objectives, Gaussian means and fixed sets (C96_fails_arrays), for FixedMultiIndexSet(dim, orders) in Python (C96_fails_temporary) and for CoeffMap (C96_fails_coeffMap)."},
 {"property": "C97", "status": "partial", "theorems": ["MParT.Ser.C97_options", "MParT.Ser.C97_views", "MParT.Ser.C97_matrices_partial", "MParT.Ser.C97_sets", "MParT.Ser.C97_bases", "MParT.Ser.C97_quadrature", "MParT.Ser.C97_expansions", "MParT.Ser.C97_components", "MParT.Ser.C97_row", "MParT.Ser.C97_neverAnother", "MParT.Ser.C97_triangular_partial", "MParT.Ser.C97_fails_triangular"], "note": "Proved for options, views, matrices below 2^32 entries, sets, bases, rules owning their workspace, expansions and components, alone and in a row, at every point of interruption; for any loadable bytes a beginning of them is refused or gives the same object (C97_neverAnother). Triangular maps of components are refused when more than 8n+8 bytes are lost (C97_triangular_partial) and loaded, correctly, when fewer are (C97_fails_triangular): the end of what save writes is never read."},
 {"property": "C98", "status": "partial", "theorems": ["MParT.Scratch.C98_apart", "MParT.Scratch.C98_private", "MParT.Scratch.C98_fits", "MParT.Scratch.C98_fails_large", "MParT.Scratch.C98_fails_maxSub"], "note": "Proved for every kernel, team size and interleaving as long as the bytes fit 32 bits (C98_apart, C98_private), with a sufficient condition on the sizes (C98_fits). Violated beyond: the bytes wrap around and views are null pointers (C98_fails_large), and a large quadMaxSub wraps the workspace size around (C98_fails_maxSub)."},
 {"property": "C99", "status": "partial", "theorems": ["MParT.ATM.Full.C99_history_partial", "MParT.ATM.Full.C99_single_partial", "MParT.ATM.Full.C99_independent_partial", "MParT.ATM.Full.C99_returns_partial", "MParT.ATM.Full.C99_returns_single_partial", "MParT.ATM.Full.C99_fails_continue", "MParT.ATM.Full.C99_fails_returned"], "note": "Proved for every optimiser and objective: the maps trained form a history starting from zero coefficients, each map has one term more and takes over the components that were not expanded; if no coefficient is read out of range, the added term is the candidate with the largest derivative of the training error; the returned map has the terms of the best map (when some map improved on the first), and is the best map itself when there is one output or training does not depend on the start. False as stated: the component that gets the term begins again from zeros, so the training error can increase (C99_fails_continue), and the returned map is trained once more, so it is not the best map (C99_fails_returned). The call returns, without out-of-range reads, when the limiters accept exactly the terms in one variable (C99_returns_single_partial)."},
 {"property": "C100", "status": "partial", "theorems": ["MParT.C100_preimage", "MParT.C100_conditional", "MParT.C100_pullback", "MParT.C100_pushforward", "MParT.C100_gaussian", "MParT.C100_gaussian_pullback", "MParT.C100_gaussian_pushforward", "MParT.C100_gaussian_conditional", "MParT.C100_composed", "MParT.C100_affine", "MParT.C100_triangular", "MParT.C100_factorises", "MParT.C100_component_partial", "MParT.C100_fails_component"], "note": "Proved for all maps that keep the contracts (exact inverse), in particular all invertible affine maps, triangular maps of such components and compositions of such maps (C100_composed), and, up to the tolerance of Inverse, for monotone components affine in the last input (C100_component_partial). Fails for monotone components with an inexact quadrature: C100_fails_component has a density of total mass greater than one."},
 {"property": "C101", "status": "partial", "theorems": ["MParT.C101_law", "MParT.C101_dimensions", "MParT.C101_new", "MParT.C101_fails_covariance", "MParT.C101_gradient", "MParT.C101_fails_gradient"], "note": "Proved for Gaussians without covariance matrix and maps that keep the contracts. False with a covariance matrix: sampling any transported distribution and all gradients of pullbacks and of the training objective do not return (C101_fails_covariance, C101_fails_gradient), because Sample and LogDensityInputGrad allocate row-major arrays. CreatePullback and CreatePushforward do not compile as written; their bodies are modelled."},
 {"property": "C102", "status": "proved", "theorems": ["MParT.C102_limit", "MParT.C102_unbiased", "MParT.C102_divergence", "MParT.C102_minimum", "MParT.C102_compare"], "note": "For maps that keep the contracts of C52; the limit and unbiasedness also for conditional maps, divergence and minimum for maps with as many outputs as inputs."},
 {"property": "C103", "status": "partial", "theorems": ["MParT.C103_double", "MParT.Parallel.C103_reduce", "MParT.Parallel.C103_schedules", "MParT.Parallel.C103_objective", "MParT.Parallel.C103_gradient", "MParT.Parallel.C103_fails_reproducible", "MParT.Worker.C103_evaluate", "MParT.Worker.C103_diagonal", "MParT.Worker.C103_diagonal2", "MParT.Worker.C103_coeff", "MParT.Worker.C103_input", "MParT.C103_affine", "MParT.C103_affine_gradient", "MParT.C103_component", "MParT.C103_component_lipschitz", "MParT.C103_gaussian"], "note": "The bounds hold for every rounding of bounded relative error, every schedule and every history of the cache, for reductions, the value and gradient of the objective, values, first and second diagonal derivatives and gradients of expansions (C103_reduce, C103_schedules, C103_objective, C103_gradient, C103_evaluate, C103_diagonal, C103_diagonal2, C103_coeff, C103_input), and values of monotone components with a fixed rule (C103_component, C103_component_lipschitz), and values and gradients of affine maps for every order of the additions in the matrix product (C103_affine, C103_affine_gradient), and the log-density of Gaussians without covariance matrix (C103_gaussian); rounding to 53 digits is such a rounding (C103_double). Missing because false of the code: the results of two runs can differ in the last digits, since the order of the additions depends on the schedule (C103_fails_reproducible). Overflow and underflow are not modelled here (overflow: C108)."},
 {"property": "C104", "status": "proved", "theorems": ["MParT.C104_value", "MParT.C104_optimal", "MParT.C104_gradient", "MParT.C104_factory"], "note": "C104_value, C104_optimal and C104_gradient for every triangular map whose components keep the contracts; C104_factory for the maps of CreateTriangular, with inexact quadratures too (the gradient theorem asks that LogDeterminant be the logarithm of the Jacobian determinant, because it speaks about the gradient of that value, and that every component has coefficients)."},
 {"property": "C105", "status": "partial", "theorems": ["MParT.C105_fails_composed", "MParT.C105_expansion_partial", "MParT.C105_component_partial", "MParT.C105_triangular_partial", "MParT.C105_stacked", "MParT.C105_singleEntry"], "note": "Proved for every compressed multi-index set (CreateExpansion, CreateComponent) and for CreateTriangular with the options that C62 to C64 cover: the values alone determine the coefficients with the fixed quadrature, and with the adaptive ones, whatever their tolerances, if 0 is within the bounds of the basis (the default); otherwise the values and log-determinants do. With adaptive quadrature and bounds which exclude 0 it is not known whether the values alone do. False for compositions of factory-built maps, although each layer is identifiable: exchanged shifts give the same values and log-determinants (C105_fails_composed). Sets in the dense layout, which may repeat a multi-index, are not covered. C105_stacked and C105_singleEntry reduce triangular and single-entry maps of arbitrary components to their components, with an equivalence."},
 {"property": "C106", "status": "partial", "theorems": ["MParT.Ser.C106_options", "MParT.Ser.C106_options_cut", "MParT.Ser.C106_options_unchanged_iff", "MParT.Ser.C106_options_empty", "MParT.Ser.C106_fails_options", "MParT.Ser.C106_sets", "MParT.Ser.C106_sets_cut", "MParT.Ser.C106_fails_sets", "MParT.C106_coeffs_partial", "MParT.C106_fails_first_set", "MParT.C106_train_partial", "MParT.C106_fails_train", "MParT.C106_fails_train_unset", "MParT.C106_train_refused", "MParT.ATM.Full.C106_adaptive_partial", "MParT.ATM.Full.C106_fails_adaptive"], "note": "Proved: coefficients for every history, also with assignments to Coeffs(), the exact state left by failed training, adaptive training (for every failing call of TrainMap) and loading. False, as the C106_fails theorems show: first SetCoeffs with too few values, training, adaptive training, loading. Missing: failures of adaptive training outside TrainMap."},
 {"property": "C107", "status": "partial", "theorems": ["MParT.MultiIndex.W32.C107_entries", "MParT.MultiIndex.W32.C107_set", "MParT.MultiIndex.W32.C107_small", "MParT.MultiIndex.W32.C107_order", "MParT.MultiIndex.W32.C107_fails_initializer", "MParT.MultiIndex.W32.C107_fails_totalOrder", "MParT.MultiIndex.W32.C107_totalOrder", "MParT.MultiIndex.W32.C107_fails_isForward", "MParT.MultiIndex.W32.C107_fails_forward", "MParT.MultiIndex.W32.C107_forward"], "note": "Entries, equality and order for all 32-bit entries (initializer lists: below 2^31); limiter and neighbourhood while the sums fit 32 bits. Violated beyond: C107_fails_initializer (two objects with the same entries that are not equal), C107_fails_totalOrder, C107_fails_isForward, C107_fails_forward."},
 {"property": "C108", "status": "partial", "theorems": ["MParT.C108_single", "MParT.C108_evaluate", "MParT.C108_batch", "MParT.C108_discrete", "MParT.C108_coeff", "MParT.C108_input", "MParT.C108_mixed", "MParT.C108_continuous", "MParT.C108_exact", "MParT.C108_throws", "MParT.C108_fails_logdet", "MParT.C108_fails_nan", "MParT.C108_fails_product"], "note": "Proved for Evaluate, the discrete derivative, the coefficient, input and discrete mixed Jacobians and batches. Missing because the code does not do it: the continuous derivative and LogDeterminant return +inf (C108_fails_logdet), NaN is not noticed although the message names it (C108_fails_nan), and the product x_D*g may overflow unnoticed (C108_fails_product)."},
 {"property": "C109", "status": "partial", "theorems": ["MParT.C109_rule", "MParT.C109_simpson", "MParT.C109_adaptiveCC", "MParT.C109_rate", "MParT.C109_increasing", "MParT.C109_fails_tolerance"], "note": "Proved: error at most twice the distance of the integrand to the polynomials of the rule (C109_rule), piecewise for adaptive rules (C109_simpson, C109_adaptiveCC), explicit rates for Lipschitz integrands (C109_rate), order of separated inputs (C109_increasing). Restrictions: exact arithmetic, nugget 0 in the exact value, fixed rule up to 65537 points (beyond it the weights are wrong, see C32). The claim that the tolerances bound the error is false of the code (C109_fails_tolerance)."},
 {"property": "C110", "status": "proved", "theorems": ["MParT.C110_coeff", "MParT.C110_input", "MParT.C110_strict", "MParT.C110_inverse", "MParT.C110_inverse_any", "MParT.C110_inverse_rate"], "note": "Coefficient gradients (C110_coeff), input gradients (C110_input), strict monotonicity on intervals for fixed rules (C110_strict), accuracy of Inverse for every quadrature (C110_inverse_any, with its rate in C110_inverse_rate) and for fixed rules with a derivative hypothesis (C110_inverse). Exact arithmetic. Fixed rule up to 65537 points."},
 {"property": "C111", "status": "proved", "theorems": ["MParT.C111_triangular", "MParT.C111_gaussian"], "note": "For the options accepted by C63 (GoodBasis, GoodQuad); the excluded ones are those for which the factory is shown not to build the described map (C62, C63)."},
 {"property": "C112", "status": "proved", "theorems": ["MParT.C112_gradient", "MParT.C112_gradient_gaussian", "MParT.C112_objective", "MParT.C112_gaussian", "MParT.C112_minimiser"], "note": "value, near-minimisers and gradient, for the options of C63 with the continuous derivative; explicit error constants for the standard normal reference"},
 {"property": "C113", "status": "proved", "theorems": ["MParT.C113_inverse", "MParT.C113_roundtrip"], "note": "for every good option set, with the fixed and both adaptive quadratures; the constants m, L, epsilon are those of the exact map on the box. Example: the nonlinear map (1+x1, x2 exp(x1/10)) built by the factory with the default adaptive Simpson rule is inverted to 1e-4"},
 {"property": "C114", "status": "proved", "theorems": ["MParT.C114_draw", "MParT.C114_law", "MParT.C114_conditional", "MParT.C114_sampler"], "note": "for every good option set with continuous derivatives and no nugget, with the fixed and both adaptive quadratures. Example: the nonlinear map (1+x1, x2 exp(x1/10)) from the factory, samples on the square [-2,2]^2 follow the density up to moving mass by 7e-4"},
 {"property": "C115", "status": "proved", "theorems": ["MParT.C115_density", "MParT.C115_mass", "MParT.C115_law", "MParT.C115_gaussian"], "note": "for every good option set with continuous derivatives and no nugget, with the fixed and both adaptive quadratures. Example: the nonlinear map (1+x1, x2 exp(x1/10)) from the factory, the pushforward density is within 3e-3 of the exact one on the image of [-2,2]^2"},
 {"property": "C116", "status": "proved", "theorems": ["MParT.C116_evaluate", "MParT.C116_inverse", "MParT.C116_law", "MParT.C116_gaussian", "MParT.C116_tracks", "MParT.C116_inverts", "MParT.C116_composed"], "note": "for every composition of faithful square layers, and every composition of factory-built triangular maps with good options, continuous derivatives and no nugget, as the statement says. Examples: two layers exp(y) - 3/2 (density within 3e-9 on [-1, 1]) and two layers (1+x1, x2 exp(x1/10)) (inverse). Exact real arithmetic."},
 {"property": "C117", "status": "proved", "theorems": ["MParT.C117_objective", "MParT.C117_minimiser", "MParT.C117_samples", "MParT.C117_pushforward", "MParT.C117_pushforward_law"], "note": "for every composition of faithful square layers (C116_composed: every composition of factory-built triangular maps with good options, continuous derivatives and no nugget). Examples: objective of two layers exp(y) - 3/2 within 3e-9 on [-1, 1]; samples and pushforward density of two layers (1+x1, x2 exp(x1/10)). Exact real arithmetic."},
 {"property": "C118", "status": "partial", "theorems": ["MParT.C118_universal_partial", "MParT.C118_values_partial", "MParT.C118_objective_partial", "MParT.C118_fails_beyond_bounds", "MParT.C118_density_partial", "MParT.C118_trained_partial"], "note": "Proved for probabilist and physicist Hermite polynomials without normalisation, with bounds, if any, beyond the box, and for Hermite functions without bounds; both positive functions and all quadratures. Beyond a bound the claim fails (C118_fails_beyond_bounds). Missing: normalised polynomials, whose norms are 0 from order 34 on (C27_fails_from_34), and Hermite functions with bounds."},
 {"property": "C119", "status": "partial", "theorems": ["MParT.C119_density_partial", "MParT.C119_trained_partial", "MParT.C119_law_partial"], "note": "Proved for the options of C118. Missing: normalised polynomials, whose norms are 0 from order 34 on (C27_fails_from_34), and Hermite functions with bounds. The bound on LogDensity assumes that the quadrature resolves the slopes of the transformation; the statement about laws is about the exact map."},
 {"property": "C120", "status": "proved", "theorems": ["MParT.C120_affine", "MParT.C120_unbounded", "MParT.C120_minimisers", "MParT.C120_exists", "MParT.C120_unique", "MParT.C120_value", "MParT.C120_gaussian", "MParT.C120_conditional"], "note": "order one, contDeriv = true, options within the ranges of C63 (GoodBasis, GoodQuad); arithmetic over the reals; the minimiser itself, not the optimiser's approximation of it"},
 {"property": "C121", "status": "proved", "theorems": ["MParT.C121_unbounded", "MParT.C121_few_samples"], "note": "polynomial families, contDeriv = true, options within the ranges of C63 (GoodBasis, GoodQuad); arithmetic over the reals"},
 {"property": "C122", "status": "proved", "theorems": ["MParT.C122_centred", "MParT.C122_uncorrelated", "MParT.C122_unit"], "note": "contDeriv = true, options within the ranges of C63 (GoodBasis, GoodQuad); arithmetic over the reals; minimisers, not the optimiser's approximations of them"},
 {"property": "C123", "status": "proved", "theorems": ["MParT.C123_component", "MParT.C123_triangular", "MParT.C123_training"], "note": "Values, log-determinants and objectives of the smaller map are those of the larger one at suitable coefficients, for components over nested compressed sets and for triangular maps of increasing order."},
 {"property": "C124", "status": "proved", "theorems": ["MParT.C124_objective", "MParT.C124_minimisers", "MParT.C124_createTriangular"], "note": "For every triangular map whose components evaluate and have finite log-determinants; instantiated for CreateTriangular."},
 {"property": "C125", "status": "proved", "theorems": ["MParT.C125_normal", "MParT.C125_training"], "note": "Exact over the reals; rounding is not part of this statement."},
 {"property": "C126", "status": "proved", "theorems": ["MParT.C126_units", "MParT.C126_training", "MParT.C126_fails_softplus"], "note": "For the exponential and the fixed quadrature, as stated; adaptive quadratures have absolute tolerances, which are not free of units. C126_fails_softplus shows that softplus must be excluded."},
 {"property": "C127", "status": "proved", "theorems": ["MParT.C127_objective", "MParT.C127_gradient", "MParT.C127_call", "MParT.C127_minimisers", "MParT.C127_pooled", "MParT.C127_training"], "note": "For every map and reference density, in exact arithmetic; C103 bounds what the order of the samples changes with rounding."},
 {"property": "C128", "status": "proved", "theorems": ["MParT.C128_gradient", "MParT.C128_triangular", "MParT.C128_descent", "MParT.C128_stationary", "MParT.C128_training", "MParT.C128_improves"], "note": "Fixed quadrature without nugget: with a nugget the code's derivative is wrong (C39_fails_continuous), with the adaptive rules the mesh depends on the coefficients."},
 {"property": "C129", "status": "partial", "theorems": ["MParT.SoftPlusFp.C129_positive_partial", "MParT.SoftPlusFp.C129_accuracy", "MParT.SoftPlusFp.C129_fails_positive", "MParT.SoftPlusFp.C129_inverse_partial", "MParT.SoftPlusFp.C129_overflow", "MParT.SoftPlusFp.C129_fails_small", "MParT.SoftPlusFp.C129_fails_negative"], "note": "C129_positive_partial and C129_inverse_partial hold up to the relative error of one operation, C129_overflow beyond the overflow of exp; C129_accuracy bounds the absolute error of Evaluate for every argument. Missing because false of the code: in double precision Evaluate is zero for arguments up to -38 (C129_fails_positive), Inverse of positive numbers below 2^-54 is minus infinity (C129_fails_small), and Inverse of numbers up to -1 is that number (C129_fails_negative)."}
]}
