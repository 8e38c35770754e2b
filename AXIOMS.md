# Axioms of the property theorems

Written by `tools/axioms.py` from `#print axioms`.

## Classical.choice, Quot.sound, propext (726 theorems)

* `MParT.MultiIndex.C01_roundtrip`
* `MParT.MultiIndex.C01_string`
* `MParT.MultiIndex.C02_set_history`
* `MParT.MultiIndex.C02_set_total`
* `MParT.MultiIndex.C03_strict_total_order`
* `MParT.MultiIndex.C03_graded`
* `MParT.MultiIndex.C04_anyBounded`
* `MParT.MISet.C04_filterBounded`
* `MParT.Neighborhood.C05_forward`
* `MParT.Neighborhood.C05_backward`
* `MParT.Neighborhood.C05_tests_agree`
* `MParT.Neighborhood.C05_inverse`
* `MParT.Limiter.C06_totalOrder`
* `MParT.Limiter.C06_dimension_partial`
* `MParT.Limiter.C06_maxDegree`
* `MParT.Limiter.C06_anisotropic`
* `MParT.Limiter.C06_downClosed`
* `MParT.Limiter.C06_anisotropicValid`
* `MParT.Limiter.C06_xor_not_downClosed`
* `MParT.Limiter.C06_fails_anisotropic`
* `MParT.Limiter.C06_fails_dimension`
* `MParT.MISet.C07_createTotalOrder`
* `MParT.MISet.C08_createTensorProduct`
* `MParT.MISet.C09_terms_exist`
* `MParT.MISet.C09_bijection`
* `MParT.MISet.C09_indices_stable`
* `MParT.MISet.C10_maxOrders`
* `MParT.MISet.C11_addActive_accepted`
* `MParT.MISet.C11_addActive_rejected`
* `MParT.MISet.C11_fails_after_setLimiter`
* `MParT.MISet.C12_union`
* `MParT.MISet.C13_margin`
* `MParT.MISet.C14_reducedMargin`
* `MParT.MISet.C14_reducedMargin_nonempty`
* `MParT.MISet.C14_fails_not_downclosed`
* `MParT.MISet.C15_expandAll_count`
* `MParT.MISet.C15_expandAll_once`
* `MParT.MISet.C15_expand`
* `MParT.MISet.C15_expand_range`
* `MParT.MISet.C15_expandAll`
* `MParT.MISet.C15_expandAll_duplicates`
* `MParT.MISet.C16_isAdmissible`
* `MParT.MISet.C16_isAdmissible_zero`
* `MParT.MISet.C16_frontier`
* `MParT.MISet.C16_counts`
* `MParT.MISet.C17_forciblyActivate_partial`
* `MParT.MISet.C17_forciblyExpand_partial`
* `MParT.MISet.C18_setLimiter`
* `MParT.MISet.C18_throw_replaces_limiter`
* `MParT.FixedSet.C19_fix`
* `MParT.FixedSet.C19_dense_length_zero`
* `MParT.FixedSet.C19_dense_last_start_zero`
* `MParT.FixedSet.C20_dense`
* `MParT.FixedSet.C20_multiToIndex_partial`
* `MParT.FixedSet.C20_compressed_absent_out_of_bounds`
* `MParT.FixedSet.C20_fails_compressed`
* `MParT.FixedSet.C21_totalOrder`
* `MParT.FixedSet.C21_same_as_fix`
* `MParT.Worker.C22_layout`
* `MParT.Worker.C24_diagonal`
* `MParT.Worker.C24_diagonal2`
* `MParT.Worker.C24_input`
* `MParT.Worker.C24_mixedInput`
* `MParT.Worker.C24_coeff`
* `MParT.Worker.C24_mixedCoeff`
* `MParT.Worker.C23_evaluate_partial`
* `MParT.Worker.C23_degree_zero_ignored`
* `MParT.Worker.C23_dense_last_term_constant`
* `MParT.Worker.C23_fails_dense`
* `MParT.Worker.C23_class`
* `MParT.C24_bases`
* `MParT.C24_bases_normalized`
* `MParT.C24_fails_normalized`
* `MParT.Worker.C24_class`
* `MParT.Worker.C24_class_read`
* `MParT.C24_represents`
* `MParT.C24_linearized`
* `MParT.C24_linearized_smooth`
* `MParT.C24_represents_linearized`
* `MParT.C24_fails_linearized_normalized`
* `MParT.C25_evaluateAll`
* `MParT.C25_evaluateDerivatives`
* `MParT.C25_evaluateSecondDerivatives`
* `MParT.C26_differentiable`
* `MParT.C26_arrays`
* `MParT.C26_secondDerivative`
* `MParT.C26_derivative_partial`
* `MParT.C26_fails_normalized_order_one`
* `MParT.C27_probabilist`
* `MParT.C27_physicist`
* `MParT.C27_probabilist_gram`
* `MParT.C27_physicist_gram`
* `MParT.C27_normalization_partial`
* `MParT.C27_orthonormal_partial`
* `MParT.C27_fails_from_13`
* `MParT.C27_fails_from_34`
* `MParT.C28_differentiable`
* `MParT.C28_evaluateAll`
* `MParT.C28_evaluateDerivatives`
* `MParT.C28_evaluateSecondDerivatives`
* `MParT.C28_scalar_partial`
* `MParT.C28_fails_evaluate_from_15`
* `MParT.C28_fails_secondDerivative`
* `MParT.C29_linearize_C1`
* `MParT.C29_evaluateDerivatives`
* `MParT.C29_evaluateSecondDerivatives`
* `MParT.C29_scalar`
* `MParT.C29_evaluateAll_partial`
* `MParT.C29_probabilist`
* `MParT.C29_hermiteFunction`
* `MParT.C29_fails_normalized`
* `MParT.C30_softPlus_formula`
* `MParT.C30_softPlus`
* `MParT.C30_exp`
* `MParT.C31_logistic_formula`
* `MParT.C31_logistic`
* `MParT.Sigmoid1d.C31_evaluate`
* `MParT.Sigmoid1d.C31_gradientImpl_partial`
* `MParT.Sigmoid1d.C31_coeffGradImpl_partial`
* `MParT.Sigmoid1d.C31_fails_gradient`
* `MParT.Sigmoid1d.C31_gradient_exchanged`
* `MParT.Sigmoid1d.C31_new`
* `MParT.Sigmoid1d.C31_rejects`
* `MParT.C32_rule`
* `MParT.C32_total`
* `MParT.C32_nested`
* `MParT.C32_integrate`
* `MParT.C32_exact`
* `MParT.C32_fails_reversed`
* `MParT.C33_value`
* `MParT.C33_leaves`
* `MParT.C33_exact`
* `MParT.C33_additive`
* `MParT.C33_fails_minSub`
* `MParT.C33_fails_mask`
* `MParT.C34_rules`
* `MParT.C34_value`
* `MParT.C34_exact`
* `MParT.C34_fails_minSub`
* `MParT.C34_fails_views`
* `MParT.RootFinding.C35_bracket`
* `MParT.RootFinding.C35_succeeds`
* `MParT.RootFinding.C35_status`
* `MParT.RootFinding.C36_search`
* `MParT.RootFinding.C36_inverse`
* `MParT.RootFinding.C36_root`
* `MParT.RootFinding.C37_fails_status`
* `MParT.RootFinding.C37_fails_limit`
* `MParT.RootFinding.C37_partial`
* `MParT.C38_exact`
* `MParT.C38_single`
* `MParT.C38_evaluate_partial`
* `MParT.C38_increasing_partial`
* `MParT.C38_inverse`
* `MParT.C38_points_partial`
* `MParT.C38_fails_nugget`
* `MParT.C38_fails_inverse`
* `MParT.C38_fails_monotone`
* `MParT.C39_discrete`
* `MParT.C39_coeff`
* `MParT.C39_input`
* `MParT.C39_discreteMixed_partial`
* `MParT.C39_fails_accumulate`
* `MParT.C39_continuous_partial`
* `MParT.C39_fails_continuous`
* `MParT.C39_continuousMixed`
* `MParT.C39_continuousMixedInput`
* `MParT.C39_logdet_continuous`
* `MParT.C39_logdet_discrete`
* `MParT.C39_gradients`
* `MParT.C39_rule`
* `MParT.C39_clenshawCurtis`
* `MParT.C39_simpson`
* `MParT.C39_adaptiveCC`
* `MParT.C40_new`
* `MParT.C40_evaluate`
* `MParT.C40_causal`
* `MParT.C41_inverse`
* `MParT.C41_roundtrip`
* `MParT.C41_inplace`
* `MParT.C41_blockwise`
* `MParT.C42_sum`
* `MParT.C42_jacobian`
* `MParT.C43_gradient`
* `MParT.C43_logDet`
* `MParT.Coeffs.C44_set`
* `MParT.Coeffs.C44_wrap`
* `MParT.Coeffs.C44_move`
* `MParT.Coeffs.C44_slices`
* `MParT.Coeffs.C44_cover`
* `MParT.Coeffs.C44_write`
* `MParT.Coeffs.C44_history`
* `MParT.Coeffs.C44_fails_twice`
* `MParT.Coeffs.C44_fails_wrap_component`
* `MParT.Coeffs.C44_fails_second_map`
* `MParT.Coeffs.C44_fails_rebind`
* `MParT.C45_new`
* `MParT.C45_evaluate`
* `MParT.C45_inverse`
* `MParT.C45_logDet`
* `MParT.C45_jacobian`
* `MParT.C45_gradient`
* `MParT.C45_fails_identity`
* `MParT.C46_requests`
* `MParT.C46_zero`
* `MParT.C46_gradients`
* `MParT.C47_fails_affine`
* `MParT.C47_fails_affine_triangular`
* `MParT.C47_composed_partial`
* `MParT.C48_affine_evaluate`
* `MParT.C48_affine_inverse`
* `MParT.C48_affine_logDet`
* `MParT.C48_affine_singular`
* `MParT.C48_affine_gradient`
* `MParT.C48_affine_logDetGradient_partial`
* `MParT.C48_affine_rejects`
* `MParT.C48_fails_gradient_nan`
* `MParT.C48_identity_evaluate`
* `MParT.C48_identity_inverse`
* `MParT.C48_identity_logDet`
* `MParT.C48_identity_gradient`
* `MParT.C48_identity_logDetGradient`
* `MParT.C48_summarised_new`
* `MParT.C48_summarised_evaluate`
* `MParT.C48_summarised_inverse`
* `MParT.C48_summarised_inverse_upTo`
* `MParT.C48_summarised_logDet`
* `MParT.C48_summarised_gradient`
* `MParT.C48_summarised_logDetGradient`
* `MParT.C48_affine_summary`
* `MParT.Coeffs.C49_wrap_rejects`
* `MParT.Coeffs.C49_set_rejects`
* `MParT.Coeffs.C49_set_returns`
* `MParT.Coeffs.C49_sizes`
* `MParT.Coeffs.C49_missing`
* `MParT.Coeffs.C49_fails_rebind`
* `MParT.Coeffs.C49_fails_first_set`
* `MParT.Coeffs.C49_fails_constructor`
* `MParT.Parallel.C50_coverage`
* `MParT.Parallel.C50_fails_no_points`
* `MParT.Parallel.C50_fails_overflow`
* `MParT.Parallel.C50_schedule`
* `MParT.Parallel.C51_reduce`
* `MParT.C52_pullback`
* `MParT.C52_dimensions`
* `MParT.C52_pullback_gradient`
* `MParT.C52_pushforward`
* `MParT.C52_fails_pushforward_gradient`
* `MParT.C52_round_trip`
* `MParT.C52_samplers`
* `MParT.C52_law`
* `MParT.C52_fails_coeffGrad_eigen_size`
* `MParT.C53_logDensity`
* `MParT.C53_rejects`
* `MParT.C53_gradient_partial`
* `MParT.C53_sample_partial`
* `MParT.C53_law`
* `MParT.C53_normalised`
* `MParT.C53_fails_strided_output`
* `MParT.C53_fails_sample`
* `MParT.C53_fails_gradient`
* `MParT.C53_identity_covariance`
* `MParT.C53_density`
* `MParT.C53_covariance`
* `MParT.C53_covariance_posDef`
* `MParT.C54_value`
* `MParT.C54_gradient_partial`
* `MParT.C54_no_test_set`
* `MParT.C54_test_error`
* `MParT.C54_fails_no_samples`
* `MParT.C54_fails_strided_gradient`
* `MParT.ATM.C55_history_partial`
* `MParT.ATM.C55_returns_partial`
* `MParT.ATM.C55_returns_single_partial`
* `MParT.ATM.C55_largest_gradient`
* `MParT.ATM.C55_no_improvement`
* `MParT.ATM.C55_fails_initial_lost`
* `MParT.ATM.C55_fails_out_of_range`
* `MParT.ATM.C55_fails_uninitialised`
* `MParT.Ser.C56_options`
* `MParT.Ser.C56_views`
* `MParT.Ser.C56_matrices_partial`
* `MParT.Ser.C56_sets`
* `MParT.Ser.C56_bases`
* `MParT.Ser.C56_quadrature_partial`
* `MParT.Ser.C56_expansions`
* `MParT.Ser.C56_components`
* `MParT.Ser.C56_components_in_a_row`
* `MParT.Ser.C56_triangular_partial`
* `MParT.Ser.C56_fails_bytes_left`
* `MParT.Ser.C56_fails_next_object`
* `MParT.Ser.C56_fails_without_coefficients`
* `MParT.Ser.C56_fails_coefficients_lost`
* `MParT.Ser.C56_fails_nested`
* `MParT.Ser.C56_fails_nested_null`
* `MParT.Ser.C56_fails_external_workspace`
* `MParT.C57_product_partial`
* `MParT.C57_expansion`
* `MParT.C57_fails_value`
* `MParT.C58_evaluate`
* `MParT.C58_contracts`
* `MParT.C58_rejects`
* `MParT.MultiIndex.C59_set_at_length_corrupts`
* `MParT.MultiIndex.C59_get_at_length_accepted`
* `MParT.Worker.C60_evaluate`
* `MParT.Worker.C60_gradient`
* `MParT.Worker.C60_coeffGrad`
* `MParT.C61_weights`
* `MParT.C61_affine`
* `MParT.C61_affine_inverse`
* `MParT.C61_fails_jacobian`
* `MParT.C61_evaluates`
* `MParT.C61_logdet`
* `MParT.C61_gradient_mesh`
* `MParT.C61_gradient`
* `MParT.C61_fails_nugget`
* `MParT.C61_jacobian_partial`
* `MParT.C61_discrete`
* `MParT.C61_inverse_partial`
* `MParT.C61_fails_inverse`
* `MParT.C62_basis`
* `MParT.C62_quadrature`
* `MParT.C62_component_partial`
* `MParT.C62_initial`
* `MParT.C62_fails_nested`
* `MParT.C63_triangular_partial`
* `MParT.C63_initial_partial`
* `MParT.C63_rejects`
* `MParT.C64_expansion`
* `MParT.C64_createExpansion_partial`
* `MParT.C64_fails_normalized`
* `MParT.C65_kokkosToStd`
* `MParT.C66_evaluateView`
* `MParT.C66_evaluate_partial`
* `MParT.C66_gradientView`
* `MParT.C66_gradient_partial`
* `MParT.C66_coeffGradView`
* `MParT.C66_coeffGrad_partial`
* `MParT.C66_ldInputGradView`
* `MParT.C66_ldInputGrad_partial`
* `MParT.C66_ldCoeffGradView`
* `MParT.C66_ldCoeffGrad_partial`
* `MParT.C66_logDetView`
* `MParT.C66_logDet_partial`
* `MParT.C66_inverseView`
* `MParT.C66_inverse_partial`
* `MParT.C66_inverse_columns`
* `MParT.C66_fails_block`
* `MParT.C67_registry`
* `MParT.C67_missing`
* `MParT.C68_train_partial`
* `MParT.C68_improves_partial`
* `MParT.C68_rejects`
* `MParT.C68_fails_no_gradient`
* `MParT.C69_value`
* `MParT.C69_dimension`
* `MParT.C70_dgemm`
* `MParT.C70_product`
* `MParT.C70_views`
* `MParT.C70_sum`
* `MParT.C70_sum_matrix`
* `MParT.C71_determinant`
* `MParT.C71_solve_partial`
* `MParT.C71_singular`
* `MParT.C71_exists`
* `MParT.C71_rejects`
* `MParT.C71_fails_not_computed`
* `MParT.C71_cholesky_half`
* `MParT.C71_cholesky_solve`
* `MParT.C71_cholesky_determinant`
* `MParT.C71_cholesky_exists`
* `MParT.C71_affine`
* `MParT.C71_gaussian`
* `MParT.Init.C72_shouldPrint`
* `MParT.MISet.C73_backward_partial`
* `MParT.MISet.C73_backward_index`
* `MParT.MISet.C73_backward_far`
* `MParT.MISet.C73_admissibleForward`
* `MParT.MISet.C74_picture_partial`
* `MParT.MISet.C74_one`
* `MParT.MISet.C74_fails_one`
* `MParT.MISet.C74_fails_not_downclosed`
* `MParT.MISet.C74_fails_after_setLimiter`
* `MParT.MISet.C74_fails_three`
* `MParT.Samplers.C75_reproducible_partial`
* `MParT.Samplers.C75_fails_shared`
* `MParT.Samplers.C75_fails_schedule`
* `MParT.Samplers.C75_fails_same_second`
* `MParT.Samplers.C75_new`
* `MParT.Samplers.C75_refused`
* `MParT.Samplers.C75_distribution`
* `MParT.Samplers.C75_sample`
* `MParT.Samplers.C75_draws`
* `MParT.Ser.C76_eq_iff`
* `MParT.Ser.C76_equivalence`
* `MParT.Ser.C76_roundtrip`
* `MParT.Ser.C76_fails_nan`
* `MParT.Ser.C76_fails_derived`
* `MParT.RootFinding.C77_zero_partial`
* `MParT.RootFinding.C77_zero_root`
* `MParT.RootFinding.C77_fails_target`
* `MParT.C78_factories`
* `MParT.C78_adaptive_partial`
* `MParT.C78_fails_default_degrees`
* `MParT.C79_file_partial`
* `MParT.C80_deepCopy_partial`
* `MParT.C80_fails_limiter`
* `MParT.C80_fails_zero`
* `MParT.C81_fails_multiindex`
* `MParT.C82_index_partial`
* `MParT.C82_fails_get`
* `MParT.C82_fails_set`
* `MParT.C83_roundtrip`
* `MParT.C83_julia_partial`
* `MParT.C83_fails_julia`
* `MParT.C84_julia_partial`
* `MParT.C84_inverse_partial`
* `MParT.C84_fails_affine`
* `MParT.C85_shift`
* `MParT.C85_affine_partial`
* `MParT.C85_fails_tall`
* `MParT.Quad.C86_construct`
* `MParT.Quad.C86_setDim`
* `MParT.Quad.C86_setWorkspace_load`
* `MParT.Quad.C86_integrate_partial`
* `MParT.Quad.C86_integrateWith`
* `MParT.Quad.C86_fails_external`
* `MParT.Quad.C86_fails_load`
* `MParT.MonotoneComponent.C87_options`
* `MParT.MonotoneComponent.C87_fails_nan`
* `MParT.MonotoneComponent.C87_points_partial`
* `MParT.MonotoneComponent.C87_entry`
* `MParT.C88_toHost`
* `MParT.C88_toDevice`
* `MParT.C88_evaluate`
* `MParT.C88_gradient_partial`
* `MParT.C88_fails_gradient`
* `MParT.C88_coeffGrad`
* `MParT.C88_logDet`
* `MParT.C88_inverse`
* `MParT.C88_ldCoeffGrad`
* `MParT.C88_ldInputGrad`
* `MParT.C88_hostPoints`
* `MParT.C88_hostSens_partial`
* `MParT.C88_hostInverse`
* `MParT.C88_eigenPoints_partial`
* `MParT.C88_eigenSens_partial`
* `MParT.C88_devicePoints`
* `MParT.C88_deviceSens`
* `MParT.C88_inverse_rejects`
* `MParT.C88_fails_inverse`
* `MParT.C89_dgemm_partial`
* `MParT.C89_product_partial`
* `MParT.C89_product_rejects`
* `MParT.C89_fails_product`
* `MParT.C89_fails_dgemm`
* `MParT.C89_lu_rejects`
* `MParT.C89_lu_solve`
* `MParT.C89_fails_height`
* `MParT.C89_height_small`
* `MParT.C89_determinant_partial`
* `MParT.C89_fails_determinant`
* `MParT.C89_cholesky_rejects`
* `MParT.C89_cholesky`
* `MParT.C89_multiplyL_partial`
* `MParT.C89_fails_multiplyL`
* `MParT.C89_fails_not_computed`
* `MParT.FixedSet.C90_schedule`
* `MParT.FixedSet.C90_toDevice_partial`
* `MParT.FixedSet.C90_fails_dense`
* `MParT.FixedSet.C90_print`
* `MParT.FixedSet.C90_sizes`
* `MParT.FixedSet.C90_totalOrder32_partial`
* `MParT.FixedSet.C90_fails_size`
* `MParT.FixedSet.C90_size_two`
* `MParT.C91_coeffJacobian`
* `MParT.C91_inputJacobian`
* `MParT.C91_gradients`
* `MParT.C91_discreteDerivative_partial`
* `MParT.C91_continuousDerivative_partial`
* `MParT.C91_continuousNew`
* `MParT.C91_continuousMixed`
* `MParT.C91_continuousMixedInput`
* `MParT.C91_logdet_partial`
* `MParT.C91_discreteMixed_partial`
* `MParT.C91_discreteNew`
* `MParT.C91_logdet_discrete_partial`
* `MParT.C91_evaluate_partial`
* `MParT.C91_rejects`
* `MParT.C91_fails_short`
* `MParT.C91_fails_logdet`
* `MParT.C91_fails_rows`
* `MParT.C91_fails_few_rows`
* `MParT.Shared.C92_oneByOne`
* `MParT.Shared.C92_conflict`
* `MParT.Shared.C92_kernel`
* `MParT.Shared.C92_fails_mixed`
* `MParT.Shared.C92_fails_same`
* `MParT.Quad.C93_adaptive_partial`
* `MParT.Quad.C93_clenshawCurtis_partial`
* `MParT.Quad.C93_fails_clenshawCurtis`
* `MParT.Quad.C93_fails_api`
* `MParT.RootFinding.Fp.C94_certified`
* `MParT.RootFinding.Fp.C94_fails_tolerances`
* `MParT.RootFinding.Fp.C94_numbers_partial`
* `MParT.RootFinding.Fp.C94_fails_target`
* `MParT.RootFinding.Fp.C94_fails_function`
* `MParT.RootFinding.Fp.C94_start_partial`
* `MParT.MonotoneComponent.C94_component_partial`
* `MParT.MonotoneComponent.C94_fails_component`
* `MParT.Recursive.C95_work`
* `MParT.Recursive.C95_calls`
* `MParT.Recursive.C95_real`
* `MParT.Recursive.C95_needs_minSub`
* `MParT.Recursive.C95_needs_maxSub`
* `MParT.Life.C96_copied`
* `MParT.Life.C96_safe`
* `MParT.Life.C96_copying`
* `MParT.Life.C96_onlyViews`
* `MParT.Life.C96_setCoeffs`
* `MParT.Life.C96_shared`
* `MParT.Life.C96_fails_coeffMap`
* `MParT.Ser.C97_options`
* `MParT.Ser.C97_views`
* `MParT.Ser.C97_matrices_partial`
* `MParT.Ser.C97_sets`
* `MParT.Ser.C97_bases`
* `MParT.Ser.C97_quadrature`
* `MParT.Ser.C97_expansions`
* `MParT.Ser.C97_components`
* `MParT.Ser.C97_row`
* `MParT.Ser.C97_triangular_partial`
* `MParT.Ser.C97_fails_triangular`
* `MParT.Scratch.C98_apart`
* `MParT.Scratch.C98_private`
* `MParT.Scratch.C98_fits`
* `MParT.Scratch.C98_fails_large`
* `MParT.Scratch.C98_fails_maxSub`
* `MParT.ATM.Full.C99_history_partial`
* `MParT.ATM.Full.C99_single_partial`
* `MParT.ATM.Full.C99_independent_partial`
* `MParT.ATM.Full.C99_returns_partial`
* `MParT.ATM.Full.C99_returns_single_partial`
* `MParT.ATM.Full.C99_fails_continue`
* `MParT.ATM.Full.C99_fails_returned`
* `MParT.C100_preimage`
* `MParT.C100_conditional`
* `MParT.C100_pullback`
* `MParT.C100_pushforward`
* `MParT.C100_gaussian`
* `MParT.C100_gaussian_pullback`
* `MParT.C100_gaussian_pushforward`
* `MParT.C100_gaussian_conditional`
* `MParT.C100_composed`
* `MParT.C100_affine`
* `MParT.C100_triangular`
* `MParT.C100_factorises`
* `MParT.C100_component_partial`
* `MParT.C100_fails_component`
* `MParT.C101_law`
* `MParT.C101_dimensions`
* `MParT.C101_new`
* `MParT.C101_fails_covariance`
* `MParT.C101_gradient`
* `MParT.C101_fails_gradient`
* `MParT.C102_limit`
* `MParT.C102_unbiased`
* `MParT.C102_divergence`
* `MParT.C102_minimum`
* `MParT.C102_compare`
* `MParT.C103_double`
* `MParT.Parallel.C103_reduce`
* `MParT.Parallel.C103_schedules`
* `MParT.Parallel.C103_objective`
* `MParT.Parallel.C103_gradient`
* `MParT.Parallel.C103_fails_reproducible`
* `MParT.Worker.C103_evaluate`
* `MParT.Worker.C103_diagonal`
* `MParT.Worker.C103_diagonal2`
* `MParT.Worker.C103_coeff`
* `MParT.Worker.C103_input`
* `MParT.C103_affine`
* `MParT.C103_affine_gradient`
* `MParT.C103_component`
* `MParT.C103_component_lipschitz`
* `MParT.C103_gaussian`
* `MParT.C104_value`
* `MParT.C104_optimal`
* `MParT.C104_gradient`
* `MParT.C104_factory`
* `MParT.C105_fails_composed`
* `MParT.C105_expansion_partial`
* `MParT.C105_component_partial`
* `MParT.C105_triangular_partial`
* `MParT.C105_stacked`
* `MParT.C105_singleEntry`
* `MParT.Ser.C106_options`
* `MParT.Ser.C106_options_cut`
* `MParT.Ser.C106_options_unchanged_iff`
* `MParT.Ser.C106_options_empty`
* `MParT.Ser.C106_fails_options`
* `MParT.Ser.C106_sets`
* `MParT.Ser.C106_sets_cut`
* `MParT.Ser.C106_fails_sets`
* `MParT.C106_coeffs_partial`
* `MParT.C106_fails_first_set`
* `MParT.C106_train_partial`
* `MParT.C106_fails_train`
* `MParT.C106_fails_train_unset`
* `MParT.C106_train_refused`
* `MParT.ATM.Full.C106_adaptive_partial`
* `MParT.ATM.Full.C106_fails_adaptive`
* `MParT.MultiIndex.W32.C107_entries`
* `MParT.MultiIndex.W32.C107_set`
* `MParT.MultiIndex.W32.C107_small`
* `MParT.MultiIndex.W32.C107_order`
* `MParT.MultiIndex.W32.C107_fails_initializer`
* `MParT.MultiIndex.W32.C107_totalOrder`
* `MParT.MultiIndex.W32.C107_fails_isForward`
* `MParT.MultiIndex.W32.C107_forward`
* `MParT.C108_single`
* `MParT.C108_evaluate`
* `MParT.C108_batch`
* `MParT.C108_discrete`
* `MParT.C108_coeff`
* `MParT.C108_input`
* `MParT.C108_mixed`
* `MParT.C108_continuous`
* `MParT.C108_exact`
* `MParT.C108_throws`
* `MParT.C108_fails_logdet`
* `MParT.C108_fails_nan`
* `MParT.C108_fails_product`
* `MParT.C109_rule`
* `MParT.C109_simpson`
* `MParT.C109_adaptiveCC`
* `MParT.C109_rate`
* `MParT.C109_increasing`
* `MParT.C109_fails_tolerance`
* `MParT.C110_coeff`
* `MParT.C110_input`
* `MParT.C110_strict`
* `MParT.C110_inverse`
* `MParT.C110_inverse_any`
* `MParT.C110_inverse_rate`
* `MParT.C111_triangular`
* `MParT.C111_gaussian`
* `MParT.C112_gradient`
* `MParT.C112_gradient_gaussian`
* `MParT.C112_objective`
* `MParT.C112_gaussian`
* `MParT.C112_minimiser`
* `MParT.C113_inverse`
* `MParT.C113_roundtrip`
* `MParT.C114_draw`
* `MParT.C114_law`
* `MParT.C114_conditional`
* `MParT.C114_sampler`
* `MParT.C115_density`
* `MParT.C115_mass`
* `MParT.C115_law`
* `MParT.C115_gaussian`
* `MParT.C116_evaluate`
* `MParT.C116_inverse`
* `MParT.C116_law`
* `MParT.C116_gaussian`
* `MParT.C116_tracks`
* `MParT.C116_inverts`
* `MParT.C116_composed`
* `MParT.C117_objective`
* `MParT.C117_minimiser`
* `MParT.C117_samples`
* `MParT.C117_pushforward`
* `MParT.C117_pushforward_law`
* `MParT.C118_universal_partial`
* `MParT.C118_values_partial`
* `MParT.C118_objective_partial`
* `MParT.C118_fails_beyond_bounds`
* `MParT.C118_density_partial`
* `MParT.C118_trained_partial`
* `MParT.C119_density_partial`
* `MParT.C119_trained_partial`
* `MParT.C119_law_partial`
* `MParT.C120_affine`
* `MParT.C120_unbounded`
* `MParT.C120_minimisers`
* `MParT.C120_exists`
* `MParT.C120_unique`
* `MParT.C120_value`
* `MParT.C120_gaussian`
* `MParT.C120_conditional`
* `MParT.C121_unbounded`
* `MParT.C121_few_samples`
* `MParT.C122_centred`
* `MParT.C122_uncorrelated`
* `MParT.C122_unit`
* `MParT.C123_component`
* `MParT.C123_triangular`
* `MParT.C123_training`
* `MParT.C124_objective`
* `MParT.C124_minimisers`
* `MParT.C124_createTriangular`
* `MParT.C125_normal`
* `MParT.C125_training`
* `MParT.C126_units`
* `MParT.C126_training`
* `MParT.C126_fails_softplus`
* `MParT.C127_objective`
* `MParT.C127_gradient`
* `MParT.C127_call`
* `MParT.C127_minimisers`
* `MParT.C127_pooled`
* `MParT.C127_training`
* `MParT.C128_gradient`
* `MParT.C128_triangular`
* `MParT.C128_descent`
* `MParT.C128_stationary`
* `MParT.C128_training`
* `MParT.C128_improves`
* `MParT.SoftPlusFp.C129_positive_partial`
* `MParT.SoftPlusFp.C129_accuracy`
* `MParT.SoftPlusFp.C129_fails_positive`
* `MParT.SoftPlusFp.C129_inverse_partial`
* `MParT.SoftPlusFp.C129_overflow`
* `MParT.SoftPlusFp.C129_fails_small`
* `MParT.SoftPlusFp.C129_fails_negative`

## Quot.sound, propext (25 theorems)

* `MParT.Limiter.C06_boolean`
* `MParT.MISet.C11_length_unchecked`
* `MParT.MISet.C18_reducedMargin_violates`
* `MParT.C25_evaluate`
* `MParT.ATM.C55_copy_partial`
* `MParT.Ser.C56_fails_large_matrix`
* `MParT.MultiIndex.C59_const_zero_length`
* `MParT.C65_strided`
* `MParT.C65_pointer`
* `MParT.C65_contiguous`
* `MParT.C65_vec`
* `MParT.C65_const`
* `MParT.C67_distinct`
* `MParT.C70_transpose`
* `MParT.C70_rejects`
* `MParT.Init.C72_history_partial`
* `MParT.Init.C72_fails_finalize`
* `MParT.Init.C72_fails_again`
* `MParT.C80_fails_order`
* `MParT.C81_set_partial`
* `MParT.Shared.C92_sameDim_partial`
* `MParT.Recursive.C95_tiny`
* `MParT.Life.C96_fails_arrays`
* `MParT.Life.C96_fails_temporary`
* `MParT.Ser.C97_neverAnother`

## propext (20 theorems)

* `MParT.MultiIndex.C02_beyond_rejected`
* `MParT.MISet.C07_zero_length`
* `MParT.MISet.C08_zero_length`
* `MParT.MISet.C17_rejected`
* `MParT.MISet.C17_dangling`
* `MParT.C65_stdMat`
* `MParT.C70_sum_rejects`
* `MParT.Init.C72_unused`
* `MParT.Init.C72_fails_kokkos_first`
* `MParT.Init.C72_fails_race`
* `MParT.Init.C72_no_overlap`
* `MParT.MISet.C73_fails_inactive`
* `MParT.MISet.C74_zero`
* `MParT.C78_fails_nugget`
* `MParT.C78_fails_unknown_name`
* `MParT.C79_fails_deserialize`
* `MParT.C80_fails_no_variables`
* `MParT.FixedSet.C90_fails_print_empty`
* `MParT.MultiIndex.W32.C107_fails_totalOrder`
* `MParT.MultiIndex.W32.C107_fails_forward`
