# Where the code does not have a property

Written by `tools/findings.py` from the comments of the theorems. Each entry is a theorem about the model of the code as it is.

* `C06_xor_not_downClosed` (`Props/Limiter.lean`): **C06.** `Xor` of downward-closed limiters need not be downward closed.
* `C06_fails_anisotropic` (`Props/Limiter.lean`): **C06, disagreement.** Against the documentation (`∏ w^ν > ε`), equality is accepted.
* `C06_fails_dimension` (`Props/Limiter.lean`): **C06, error branch.** `Dimension(l,n)` on an all-zero multi-index throws when `l` exceeds the length by more than one.
* `C100_fails_component` (`Props/LawsMaps.lean`): **C100 fails for monotone components in general.** With the one-point Clenshaw–Curtis rule, Hermite polynomials of order 2 in one variable, `exp`, the continuous derivative (the default) and no nugget, there are coefficients for which the pullback density over the standard normal distribution is finite everywhere but has total mass greater than one: no sampler has it.
* `C101_fails_covariance` (`Props/Transports.lean`): C101 fails for a Gaussian with a covariance matrix: however it is transported (at least once), and whatever array is offered, sampling the result does not return, except for one sample of one number. `Sample` allocates a row-major array for the Gaussian, which insists on a column-major one.
* `C101_fails_gradient` (`Props/Transports.lean`): C101 fails for gradients with a covariance matrix: the gradients of a pulled back Gaussian, with respect to the points and to the coefficients of the map, and the gradient of the training objective, do not return, except for one point of one number.
* `C103_fails_reproducible` (`Props/Rounding.lean`): **C103: the result does depend on the schedule.** Three numbers summed by one thread, and the same numbers by two threads: with 53 binary digits the results are different numbers, so that the value of an objective or of a gradient need not be the same in two runs of the same program.
* `C105_fails_composed` (`Props/DeepIdentify.lean`): **C105 does not extend to compositions.** A composition of two maps of the factory, each of which is identifiable, computes the same values and the same log-determinants with the coefficients of the layers exchanged.
* `C106_fails_options` (`Props/FailedLoad.lean`): With other options in the archive there is a crash point that leaves options which are neither those that were there nor those of the archive.
* `C106_fails_sets` (`Props/FailedLoad.lean`): A failed load can leave a set that no constructor makes: if the archive was cut off within the dimensions of the terms, then the offsets are already those of the archive, and asking for a term that starts after the end of the old arrays reads memory that is not there.
* `C106_fails_first_set` (`Props/Failures.lean`): **Violation.** The first `SetCoeffs` on a map with components, with too few values: it throws, but the map and its first component now have coefficients.
* `C106_fails_train` (`Props/Failures.lean`): **Violation.** An optimiser that fails after it asked for a point has changed the coefficients of the map to this point.
* `C106_fails_train_unset` (`Props/Failures.lean`): **Violation.** Coefficients that were never set are set to ones by a training that is refused, as one with an unknown algorithm.
* `C106_fails_adaptive` (`Props/Failures.lean`): **C106, failure.** A training that fails has changed the sets of the caller: with one variable or more, every initial total order and an optimiser that fails in its second call, the set has one term more than before.
* `C107_fails_initializer` (`Props/MultiIndex32.lean`): **C107, disagreement.** An initializer list with an entry from 2³¹ on gives an object that holds the right entries but is different from, and smaller than, the object built from the same array in any other way; a `MultiIndexSet` that contains one does not find the other.
* `C107_fails_totalOrder` (`Props/MultiIndex32.lean`): **C107, disagreement.** `TotalOrder(p)` looks at the sum modulo 2³², so that it accepts entries as large as 2³¹ whatever `p` is.
* `C107_fails_isForward` (`Props/MultiIndex32.lean`): **C107, disagreement.** `IsForward` adds up the differences modulo 2³², so that it takes a far away multi-index for a neighbour.
* `C107_fails_forward` (`Props/MultiIndex32.lean`): **C107, disagreement.** The forward neighbour of the largest entry is zero.
* `C108_fails_logdet` (`Props/ComponentFp.lean`): **C108 fails for the log-determinant** with the continuous derivative, the default: where `Evaluate` throws, `LogDeterminant` returns `+∞`.
* `C108_fails_nan` (`Props/ComponentFp.lean`): **C108 fails for NaN**: the message of the exception says "nan", but a NaN in the coefficients is not noticed; `Evaluate` returns NaN.
* `C108_fails_product` (`Props/ComponentFp.lean`): **C108 fails for the product**: the positive function is finite, `exp(709)`, but `x_D` times it is not; `Evaluate` returns `+∞`.
* `C109_fails_tolerance` (`Props/QuadError.lean`): **C109 fails for the tolerances.** Whatever the tolerances, and with the default least depth 0, there are Hermite expansions and coefficients for which the adaptive rules accept the first estimate and `Evaluate` is wrong by more than any given number.
* `C11_fails_after_setLimiter` (`Props/MultiIndexSet.lean`): **C11, failure.** After `SetLimiter` a multi-index the limiter rejects can still be added, if an earlier operation left it known to the set: the documented role of the limiter is violated.
* `C11_length_unchecked` (`Props/MultiIndexSet.lean`): **C11, failure.** The length of the new multi-index is not checked: a shorter one becomes a member, a longer one throws (after the object was modified).
* `C118_fails_beyond_bounds` (`Props/Universal.lean`): **C118 fails beyond the bounds.** A map of one variable built with an upper bound, whatever its order and its coefficients, misses the log-derivative of the target at one of two points above the bound, if there the target's differs by more than `2 ε`.
* `C126_fails_softplus` (`Props/UnitsSoftplus.lean`): **C126** fails with softplus, the default: for some coefficients, after doubling the numbers the inputs are expressed in, no coefficients give the map the same outputs and the log-determinant that goes with them.
* `C129_fails_positive` (`Props/SoftPlusFp.lean`): **C129 fails**: in double precision `Evaluate` is zero, not positive, for every argument up to `-38`. A map with softplus is constant, and its log-determinant minus infinity, where the derivative of the expansion is so small.
* `C129_fails_small` (`Props/SoftPlusFp.lean`): **C129 fails**: in double precision `Inverse` of a positive number up to `2⁻⁵⁴` is minus infinity. The exact inverse is about the logarithm of the number.
* `C129_fails_negative` (`Props/SoftPlusFp.lean`): **C129 fails**: `Inverse` of a negative number, which is not a value of softplus, is that number, not NaN.
* `C14_fails_not_downclosed` (`Props/MISetMargin.lean`): **C14, failure.** For a set that is not downward closed, `ReducedMargin()` reports a multi-index with a backward neighbour outside the set: `{(0,0),(2,0)}` reports `(2,1)`, although `(1,1)` is not a member.
* `C15_expandAll_duplicates` (`Props/MISetMargin.lean`): **C15, failure.** `Expand()` can report the same new index twice: from `{(0,0),(0,1),(1,0)}` the index of `(1,1)` is reported twice.
* `C17_dangling` (`Props/MISetMargin.lean`): **C17, failure.** In an empty one-dimensional set `ForciblyActivate((3))` stores five nodes, while only three are stored when the outermost loop takes its reference: with the capacity the doubling growth policy gives at that time (4), the vector is reallocated under the reference.
* `C18_throw_replaces_limiter` (`Props/MISetMargin.lean`): **C18, failure.** When `SetLimiter` throws, the object nevertheless carries the new limiter afterwards (no strong exception guarantee).
* `C18_reducedMargin_violates` (`Props/MISetMargin.lean`): **C18, failure.** After a successful `SetLimiter` the reduced margin can contain a multi-index the new limiter rejects.
* `C19_dense_length_zero` (`Props/FixedSet.lean`): **C19**, remark: a set of length zero has no dense form (division by zero).
* `C19_dense_last_start_zero` (`Props/FixedSet.lean`): **C19**, remark: in the dense layout the last entry of the `nzStarts` array, which the compressed layout uses as the end of the last term, is left at zero by the constructor.
* `C20_compressed_absent_out_of_bounds` (`Props/FixedSet.lean`): **C20** fails: on every compressed set, looking up any absent multi-index of the right length reads past the end of the start array (instead of returning `-1`).
* `C20_fails_compressed` (`Props/FixedSet.lean`): Hence the full property is false of, for example, the total-order set of dimension 2, order 1.
* `C23_degree_zero_ignored` (`Props/Expansion.lean`): Without the assumption that the function of degree 0 is 1: a component of degree 0 always contributes the factor 1, whatever the basis function of degree 0 is.
* `C23_dense_last_term_constant` (`Props/Expansion.lean`): **C23 fails for the dense layout.** The closing entry of `nzStarts` is 0 in that layout, so the loop over the components of the last term is empty: the last term always contributes its bare coefficient, at every point.
* `C23_fails_dense` (`Props/Expansion.lean`): A set with the single term `(1)` in dense layout: `Evaluate` returns `c`, the expansion is `c·x`.
* `C24_fails_normalized` (`Props/BasisLink.lean`): **C24 fails to apply** to a normalised family: its member of order zero is not the constant one, although the compressed expansion skips factors of order zero (see `C23_degree_zero_ignored`).
* `C24_fails_linearized_normalized` (`Props/ExpansionBasis.lean`): **C24 fails** for a linearised normalised class, whatever families one has in mind: two of its routines disagree on the values of order one.
* `C26_fails_normalized_order_one` (`Props/OrthoPoly.lean`): **C26 fails**: `Derivative(1, x)` of the normalised probabilist Hermite family is not the derivative of `Evaluate(1, ·)`, at any point: the normalisation is left out.
* `C27_fails_from_13` (`Props/Hermite.lean`): **C27 fails** from order 13 on: `Factorial` overflows, so that the normalisation constant is strictly smaller than the norm; from order 34 on it is zero and normalising divides by zero.
* `C27_fails_from_34` (`Props/Hermite.lean`): **C27 fails** from order 34 on: the normalisation constant is zero, so that normalising divides by zero.
* `C28_fails_evaluate_from_15` (`Props/Hermite.lean`): **C28 fails** for the scalar path from order 15 on: the scaling uses the overflowing `Factorial`, so that `Evaluate` differs from `EvaluateAll` at some point.
* `C28_fails_secondDerivative` (`Props/Hermite.lean`): **C28 fails** for `SecondDerivative`: at order 2 (the Gaussian) and `x = 0` it returns `-5`, while the second derivative is `-ψ_0(0)`, which lies in `(-1, 0)`.
* `C29_fails_normalized` (`Props/Hermite.lean`): **C29 fails** for normalised families: right of the interval, `EvaluateAll` and `EvaluateDerivatives` of the linearised normalised probabilist basis return different values of order one.
* `C31_fails_gradient` (`Props/Bijectors.lean`): **C31 fails**: through the public interface the point and the sensitivity are exchanged. For one logistic with unit parameters, `Gradient(pts = 1, sens = 0)` is `1/4` and `CoeffGrad(pts = 1, sens = 0)` is `1/2`; both vector-Jacobian products are zero because the sensitivity is zero.
* `C32_fails_reversed` (`Props/ClenshawCurtis.lean`): Disagreement with the documented meaning `∫_{lb}^{ub}` for `ub < lb`: whatever the rule, reversed bounds fall into the "sufficiently small interval" branch, and `x ↦ x^2` from 1 to 0 gives `-1/4` instead of `-1/3`.
* `C33_fails_minSub` (`Props/Adaptive.lean`): Disagreement: `minSub` at or above `maxSub` is accepted by the constructor, and then every integrand on every interval longer than `1e-14` makes `Integrate` write past the end of a workspace of `GetWorkspaceSize()` entries.
* `C33_fails_mask` (`Props/Adaptive.lean`): Disagreement: more than 32 forced levels shift the 32-bit segment mask by 32 or more.
* `C34_fails_minSub` (`Props/Adaptive.lean`): Disagreement: as for `AdaptiveSimpson`, `minSub` at or above `maxSub` overruns the workspace.
* `C34_fails_views` (`Props/Adaptive.lean`): Disagreement: the constructor taking views of `2^l+1` and `2^(l+1)+1` entries computes its level as `floor(log2(extent-2))`, one too small: `l = 1` fails the assertion, and for `l ≥ 2` the last entries of the coarse rule are left as they were.
* `C37_fails_status` (`Props/RootFinding.lean`): C37 fails: for every function and all arguments the status is 0 or -2, never the documented -1 for "the maximum number of iterations was exceeded".
* `C37_fails_limit` (`Props/RootFinding.lean`): C37 fails (witness): for the step function from -1 to 1 at 1/3, target 0, start 0, `ftol = 1/2` and an `xtol` smaller than `2^(-10000)`, all 10000 iterations are used up, neither tolerance is met (every value differs from the target by 1), and the status is 0. (In floating point the same happens for much larger `xtol`, as soon as it is below the spacing of the doubles around the jump.)
* `C38_fails_nugget` (`Props/MonotoneQuad.lean`): **C38 fails with a nugget.** `Evaluate` ignores the nugget: for every component with a non-zero nugget and a fixed rule whose weights sum to 1, at every point whose last input is not 0, its value is not the discretised component, while `DiscreteDerivative` at the same point reports the discretised component as its value.
* `C38_fails_inverse` (`Props/MonotoneQuad.lean`): **C41 fails for a component with a nugget.** If `t` solves the equation solved by `Inverse` for the right-hand side `y`, then `Evaluate` at `t` returns `y - ν t`, not `y`.
* `C38_fails_monotone` (`Props/MonotoneQuad.lean`): **C38 fails for the discretised component.** With the one-point Clenshaw–Curtis rule, Hermite polynomials of order 2 in one variable and `exp`, there are coefficients for which the value returned by `Evaluate` at 4 is smaller than at 2.
* `C39_fails_accumulate` (`Props/Monotone.lean`): **C39 fails for reused output memory.** Whatever non-zero number the column contained before the call makes the entry returned by `DiscreteMixedJacobian` wrong.
* `C39_fails_continuous` (`Props/Monotone.lean`): **C39 fails with a nugget.** For every component with a positive nugget, at every point, the value returned by `ContinuousDerivative` is not the derivative of the exact component.
* `C44_fails_twice` (`Props/Coeffs.lean`): The property is false when an object occurs twice: after `SetCoeffs([1, 2])` on `ComposedMap({m, m})` the first layer uses 2 instead of 1.
* `C44_fails_wrap_component` (`Props/Coeffs.lean`): It is false after `WrapCoeffs` on a component: the map still reports its old coefficients but uses others.
* `C44_fails_second_map` (`Props/Coeffs.lean`): It is false for a component that is placed in a second map.
* `C44_fails_rebind` (`Props/Coeffs.lean`): It is false after assigning a view to the map's `Coeffs()`, which the documentation of `Coeffs` offers: the components keep using the old coefficients.
* `C45_fails_identity` (`Props/Composed.lean`): C45 fails for identity layers: `CoeffGrad` of a composed map that contains one hits `assert(false)`, although the identity has no coefficients and hence nothing to differentiate.
* `C47_fails_affine` (`Props/Affine.lean`): C47 fails for affine layers of a composed map. For `x ↦ exp(2x)`, made of the affine layer `2x` and the layer `exp`, `LogDeterminantInputGrad` returns 3 although the derivative of its log-determinant is 2: the affine layer leaves the buffer it is given unchanged, which holds the gradient of the following layers.
* `C47_fails_affine_triangular` (`Props/Affine.lean`): C43/C47 fail for affine components of a triangular map. For `(x₁, x₂) ↦ (exp x₁, x₂)` with the affine second component `x₂`, `LogDeterminantInputGrad` returns `(2, 0)` although the log-determinant is `x₁`: the affine component leaves the gradient of the first component in the shared buffer and it is added twice.
* `C48_fails_gradient_nan` (`Props/Affine.lean`): C48 fails for the `Eigen` overload of `Gradient`: it passes memory that was not initialised as output, and the product `0 * output` that `dgemm` adds is not a number when that memory contains one that is not.
* `C49_fails_rebind` (`Props/Coeffs.lean`): `C49_sizes` fails after an assignment to `Coeffs()` of a map with components: the check of the public functions passes, but the components have no coefficients and would read from nowhere.
* `C49_fails_first_set` (`Props/Coeffs.lean`): The first `SetCoeffs` of an object accepts any number of coefficients, on maps without and with components. By `C49_sizes` every later use throws.
* `C49_fails_constructor` (`Props/Coeffs.lean`): Construction with a coefficient vector of the wrong size is accepted and is not noticed later either: a component that expects 2 coefficients and is constructed with 1 believes to have 1.
* `C50_fails_no_points` (`Props/Parallel.lean`): With no points the policy is undefined: the division is 0/0.
* `C50_fails_overflow` (`Props/Parallel.lean`): The bound on the number of points is needed: with three thousand million points (the count is an `unsigned int`) and teams of one thread, a thread that is started computes its index with an `int` overflow.
* `C52_fails_pushforward_gradient` (`Props/Densities.lean`): C52 fails for the gradient of a pushforward density: the function exists but always throws.
* `C52_fails_coeffGrad_eigen_size` (`Props/Densities.lean`): C52 fails for the Eigen overload in a concrete case: a map with two inputs and one coefficient, for which the "coefficient gradient" has two entries instead of one.
* `C53_fails_strided_output` (`Props/Gaussian.lean`): C53 fails for an output with a stride: the results of the reduction are written to consecutive entries. With the standard normal distribution of dimension 1, two points and an output that is every second entry of an array, `output(1)` does not become the log-density of the second point, and an entry that does not belong to the output is overwritten.
* `C53_fails_sample` (`Props/Gaussian.lean`): C53 fails for `Sample(N)` with a covariance matrix: the public function allocates a row-major matrix, which cannot be viewed as column-major, unless it has a single entry.
* `C53_fails_gradient` (`Props/Gaussian.lean`): C53 fails for the public `LogDensityInputGrad` with a covariance matrix, for the same reason.
* `C54_fails_no_samples` (`Props/Objective.lean`): C54 fails without samples: the objective is not a number.
* `C54_fails_strided_gradient` (`Props/Objective.lean`): C54 fails for `CoeffGradImpl` with a gradient view that has a stride: with a map of two coefficients, a gradient that consists of the entries 0 and 2 of an array of three gets its second number at entry 1.
* `C55_fails_initial_lost` (`Props/TrainAdaptive.lean`): **C55, failure.** The initial map is lost: with the initial map best of all, what is returned has fewer terms than the map that was passed in, and is a different map. (For every number of variables and every initial total order.)
* `C55_fails_out_of_range` (`Props/TrainAdaptive.lean`): **C55, failure.** Coefficients are read out of range: starting from the terms of order at most one in two variables, the first step reads the fourth of the three coefficients of the component, whatever the gradients and errors, as soon as the loop is entered at all. The reason is that `Expand()` reports the index of the term `(1,1)` twice.
* `C55_fails_uninitialised` (`Props/TrainAdaptive.lean`): **C55, failure.** An indeterminate value is used: if all the gradient entries are zero, or if the maximum degrees rule out every candidate, `maxIdx` and `maxIdxBlock` are read although nothing was assigned to them. Here the component is the constant in one variable.
* `C56_fails_bytes_left` (`Props/Serialization.lean`): No triangular map of `n` components consumes the bytes it wrote: whenever it is loaded, the last `8 n + 8` bytes are left.
* `C56_fails_next_object` (`Props/Serialization.lean`): A second object in the same stream, after a triangular map of at most 255 components, is never found: `Load` returns a null pointer.
* `C56_fails_without_coefficients` (`Props/Serialization.lean`): A triangular map one of whose components has no coefficients can be saved, but loading it throws, unless the number of components is a multiple of 256.
* `C56_fails_coefficients_lost` (`Props/Serialization.lean`): With a multiple of 256 components the loaded map has no coefficients, whatever was saved.
* `C56_fails_nested` (`Props/Serialization.lean`): A triangular map whose only component is a triangular map of at most 255 components: the loaded map has no coefficients, whatever was saved.
* `C56_fails_nested_null` (`Props/Serialization.lean`): A triangular map of two components, the first of which is a triangular map of at most 255 components: the second component is read as a null pointer and the constructor dereferences it.
* `C56_fails_external_workspace` (`Props/Serialization.lean`): A rule given an external workspace has no workspace after loading, unless it needs none.
* `C56_fails_large_matrix` (`Props/Serialization.lean`): Two different matrices of 2^32 entries are written as the same bytes, so that no reader can tell them apart.
* `C57_fails_value` (`Props/TensorProduct.lean`): **C57 fails when the first factor has more coefficients than inputs.** `F1(x; c) = c_0 + c_1 x` and `F2(x; c) = c_0 x`, both expansions of the library: the product with coefficients `(1, 2, 3)` is `(1 + 2 x_1) 3 x_2`, but `Evaluate` returns `(1 + 2 x_1) 2 x_2`, because the coefficients of the second factor are taken from position `InputSize()`.
* `C59_set_at_length_corrupts` (`Props/MultiIndex.lean`): **C59, disagreement.** `Set(Length(), val)` with `val > 0` is accepted for *every* multi-index, and afterwards `Vector()` has undefined behaviour (it writes past its output).
* `C59_get_at_length_accepted` (`Props/MultiIndex.lean`): **C59, disagreement.** `Get(Length())` does not throw either; it returns 0.
* `C59_const_zero_length` (`Props/MultiIndex.lean`): **C59, disagreement.** A zero-length multi-index built with a positive value reports that value as its maximum and differs from the other zero-length multi-indices.
* `C61_fails_jacobian` (`Props/ComponentLinear.lean`): **C61 fails for the Jacobian.** With the one-point Clenshaw–Curtis rule, Hermite polynomials of order 2 in one variable, `exp`, the continuous derivative and no nugget, there are coefficients for which `LogDeterminant` is finite at every point although the derivative of what `Evaluate` computes is zero at 2 and negative at 4.
* `C61_fails_nugget` (`Props/ComponentMap.lean`): **C61 fails with a nugget.** For every component with a fixed rule whose weights sum to 1 and a non-zero nugget, at every coefficient vector and every point where the second derivatives of the basis are right, the last entry of `Gradient` is not the derivative of what `Evaluate` computes.
* `C61_fails_inverse` (`Props/ComponentMap.lean`): **C61 fails for the inverse of one variable.** The documented first argument of `Inverse` for a component of one input has no rows; the starting point is then read outside it, which is undefined behaviour.
* `C62_fails_nested` (`Props/Factory.lean`): **C62 fails for few points of the nested rule.** With the adaptive Clenshaw–Curtis quadrature and `quadPts = 3` the factory throws, with `quadPts = 2` it converts the logarithm of 0 to an unsigned integer.
* `C64_fails_normalized` (`Props/FactoryExpansion.lean`): **C64 fails with finite bounds and the default normalisation.** The function of one variable and order one that `CreateExpansion` returns has, right of the bounds, the slope 1 with the coefficients 0 and 1, while `Gradient` returns another number.
* `C66_fails_block` (`Props/Arrays.lean`): **C66 fails for blocks.** `Evaluate(A.block(0,0,2,2))` for the identity and the matrix `1 2 3; 4 5 6` returns `1 2; 3 4`.
* `C68_fails_no_gradient` (`Props/Train.lean`): **C68 fails as C++ for algorithms without derivatives.** When an optimiser asks for a value without the gradient, as derivative-free algorithms of NLopt do, the objective refers to an entry of the array behind a null pointer.
* `C71_fails_not_computed` (`Props/LinearAlgebra.lean`): **C71** fails for solvers that were not computed: `solve` and `multiplyL` use a null pointer, and `determinant` looks at a flag that has no value.
* `C72_fails_kokkos_first` (`Props/Initialization.lean`): C72 fails for programs that also use Kokkos themselves: after `Kokkos::initialize`, `mpart::Initialize` aborts (it looks only at its own flag).
* `C72_fails_finalize` (`Props/Initialization.lean`): C72 fails for programs that call the public `mpart::Finalize`: at exit it is called again, which aborts.
* `C72_fails_again` (`Props/Initialization.lean`): C72 fails after `mpart::Finalize`: `Initialize` does not initialise again.
* `C72_fails_race` (`Props/Initialization.lean`): C72 fails when two threads call `Initialize` at the same time: some schedules initialise Kokkos twice.
* `C73_fails_inactive` (`Props/MISetQueries.lean`): **C73** fails when a backward neighbour is not a member: the result contains `-1`, converted to 4294967295, which is the index of no term.
* `C74_fails_one` (`Props/MISetQueries.lean`): **C74** fails for sets of length one: 2 is a term but not drawn, 1 is drawn as a term but is not one.
* `C74_fails_not_downclosed` (`Props/MISetQueries.lean`): **C74** fails for sets that are not downward closed: `m` also marks the stored backward neighbours, here (0,1), although it is not in the margin.
* `C74_fails_after_setLimiter` (`Props/MISetQueries.lean`): **C74** fails after `SetLimiter`: `m` marks (1,0), which the limiter rejects.
* `C74_fails_three` (`Props/MISetQueries.lean`): **C74** is for two variables only: with three, a cell can get two symbols, which shifts the rest of its row.
* `C75_fails_shared` (`Props/Samplers.lean`): **C75** fails for two samplers with the same reference object: a call on one changes the samples of the other.
* `C75_fails_schedule` (`Props/Samplers.lean`): **C75** fails when the schedule changes: another thread takes another generator from the pool.
* `C75_fails_same_second` (`Props/Samplers.lean`): Samplers are not independent by default: two Gaussians that are created in the same second, and not seeded, return the same samples (on the same schedules).
* `C76_fails_nan` (`Props/Options.lean`): **C76** fails for NaN: such options are not equal to their own copy.
* `C76_fails_derived` (`Props/Options.lean`): **C76** fails for adaptive options: the additional options are not compared.
* `C77_fails_target` (`Props/RootFindingAny.lean`): **C77** fails for other targets: the trial point is computed as if the target were zero, and may leave the bracket. With target 1 and start 0 the continuous function `bent` has the bracket [0, 1]; the first trial point is -1/3, and the call returns -1/6 with success, although the value there is off by more than 16 and every root is farther than 1/7.
* `C78_fails_nugget` (`Props/Bindings.lean`): **C78, failure.** The nugget set in MATLAB never reaches adaptive training, which uses 0.
* `C78_fails_unknown_name` (`Props/Bindings.lean`): **C78, failure.** A name that is no kind of basis is not rejected: the map is built with another basis.
* `C78_fails_default_degrees` (`Props/Bindings.lean`): **C78, failure.** With the maximum degrees that MATLAB's options have by default, adaptive training of a map of more than one variable does not return a map.
* `C79_fails_deserialize` (`Props/Bindings.lean`): **C79, failure.** `Deserialize` is an error for every file.
* `C80_fails_limiter` (`Props/Bindings.lean`): **C80, failure.** The limiter of the set is lost: the copy accepts everything.
* `C80_fails_zero` (`Props/Bindings.lean`): **C80, failure.** A set without the zero multi-index gets one in the copy.
* `C80_fails_order` (`Props/Bindings.lean`): **C80, failure.** The terms of the copy are in another order: here those of a set of one variable to which 1 and then 0 were added.
* `C80_fails_no_variables` (`Props/Bindings.lean`): **C80, failure.** An empty set of zero variables cannot be copied.
* `C81_fails_multiindex` (`Props/Bindings.lean`): **C81, failure.** Iterating over a multi-index yields its entries and then a zero that is not an entry, whatever the multi-index.
* `C82_fails_get` (`Props/Bindings.lean`): **C82, failure.** The index after the last one is accepted.
* `C82_fails_set` (`Props/Bindings.lean`): **C82, failure.** A positive value can be assigned at the index after the last one, and the multi-index is damaged.
* `C83_fails_julia` (`Props/Bindings.lean`): **C83, failure.** The file of a map whose coefficients were not set cannot be loaded in Julia.
* `C84_fails_affine` (`Props/Bindings.lean`): **C84, failure.** For an affine map `LogDeterminantInputGrad` returns in Julia whatever the new memory contained; the gradient is zero.
* `C85_fails_tall` (`Props/Summarized.lean`): C85 fails for tall matrices: functions `A x + b` with more outputs than inputs, which the class documentation allows ("arbitrary rectangular matrix"), cannot be constructed.
* `C86_fails_external` (`Props/QuadObjects.lean`): C86 fails for workspaces of the user: an object of maximum dimension 1 on an array of exactly the size that `GetWorkspaceSize(1)` asks for accepts `SetDim(2)`, and `Integrate` then runs out of the array.
* `C86_fails_load` (`Props/QuadObjects.lean`): C86 fails for loading: after the archive of an object without memory of its own has been loaded into an object that works in its own memory, this memory is freed, and `Integrate` still uses it.
* `C87_fails_nan` (`Props/InverseBatch.lean`): **C87** fails for tolerances that are not numbers: `options["xtol"] = "nan"` is accepted (`std::stod` reads it as NaN).
* `C88_fails_gradient` (`Props/DeviceMaps.lean`): **C88 fails for `Gradient`.** For every map on the device with different numbers of inputs and outputs, `Gradient` never returns a matrix with as many rows as there are inputs, whatever the points and sensitivities.
* `C88_fails_inverse` (`Props/DeviceMaps.lean`): **C88 fails for `Inverse`.** Whatever a map on the host returns for `Inverse` of arrays on the device has one row for each coefficient, not one for each output: it is the result of `CoeffGrad`.
* `C89_fails_product` (`Props/DeviceLinAlg.lean`): **C89** fails for products: a matrix with one column in row-major memory has strides 1 and 1, cuBLAS refuses the leading dimension 1, the code does not look at the status, and the result is a matrix of zeros.
* `C89_fails_dgemm` (`Props/DeviceLinAlg.lean`): **C89** fails for products: whenever the first operand is not transposed and has contiguous columns that overlap, `dgemm` leaves `C` as it was and reports nothing.
* `C89_fails_height` (`Props/DeviceLinAlg.lean`): **C89** fails for right-hand sides with more rows than the matrix: they are not refused; the first rows are solved for and the others are left.
* `C89_fails_determinant` (`Props/DeviceLinAlg.lean`): **C89** fails for determinants: the sign of the row exchanges is dropped, so that the determinant of the matrix that exchanges two coordinates is 1 and not -1, whatever valid factorisation the library finds.
* `C89_fails_multiplyL` (`Props/DeviceLinAlg.lean`): **C89** fails for `multiplyL`: if there are gaps between the columns of the matrix that was given to `compute`, the leading dimension of that matrix is used for the factor, and memory behind the factor is read.
* `C89_fails_not_computed` (`Props/DeviceLinAlg.lean`): **C89** fails for solvers that were not computed: the assertions look at a flag that has no value.
* `C90_fails_dense` (`Props/FixedDevice.lean`): **C90 fails for the dense layout**, for every set with at least one term: the copy on the device has the same size and the same maximal degrees, but its last term is zero.
* `C90_fails_print_empty` (`Props/FixedDevice.lean`): **C90.** A set that has only been default-constructed cannot be printed.
* `C90_fails_size` (`Props/FixedDevice.lean`): **C90 fails for larger sets**: as soon as one of the sizes does not fit, the constructor writes outside its arrays.
* `C91_fails_short` (`Props/ComponentArrays.lean`): **C91 fails for `ContinuousDerivative` and `LogDeterminant`.** For every component and all points, an output with fewer entries than there are points is not rejected: the call writes outside it.
* `C91_fails_logdet` (`Props/ComponentArrays.lean`): **C91 fails for `LogDeterminant`.** An output with more entries than there are points is not rejected, and the entries that belong to no point do not keep their content: they are replaced by their logarithms (`none`, that is minus infinity, if they are not positive).
* `C91_fails_rows` (`Props/ComponentArrays.lean`): **C91 fails for points with additional rows.** Neither `Evaluate` nor `LogDeterminant` rejects points with more rows than the component has inputs, and they disagree about what such a point is: for the point `(x_1, …, x_D, y)` the value is that at `(x_1, …, x_D)` but the log-determinant is that at `(x_1, …, x_{D-1}, y)`.
* `C91_fails_few_rows` (`Props/ComponentArrays.lean`): **C91 fails for points with too few rows.** `Evaluate` does not reject points with fewer rows than the component has inputs: it reads outside the array.
* `C92_fails_mixed` (`Props/SharedComponent.lean`): C92 fails, for every two functions with different numbers of outputs `n < m`, if one thread calls the first while another calls the second: there is a schedule under which the first one writes past the end of its results (and is undefined), one under which the second one writes past the end of its workspace, and one under which the second returns, as its outputs from `n` on, whatever the memory happened to contain.
* `C92_fails_same` (`Props/SharedComponent.lean`): C92 fails for one and the same function: two threads that call `LogDeterminantCoeffGrad` of a component with discrete derivatives and at least two coefficients can make each other undefined.
* `C93_fails_clenshawCurtis` (`Props/FactoryQuad.lean`): C93 fails for `ClenshawCurtisQuadrature`: the factory gives it memory of its own for one output, so that after any calls with one output a call with more fails an assertion.
* `C93_fails_api` (`Props/FactoryQuad.lean`): C93 fails for `ClenshawCurtisQuadrature`, for users: the gradient with respect to the coefficients (with at least one), the one with respect to the input (with at least one), and the log-determinant with discrete derivatives, each as the first call.
* `C94_fails_tolerances` (`Props/RootFindingFp.lean`): **C94** fails for tolerances that are not numbers: in every arithmetic in which nothing is smaller than NaN, once a bracket is found the search makes all its 10000 trials, and then reports success.
* `C94_fails_target` (`Props/RootFindingFp.lean`): **C94** fails for a target that is NaN: for every strictly increasing function, start and tolerances, the call reports success and returns a number, which lies within distance 2 of `x0 + 1`.
* `C94_fails_function` (`Props/RootFindingFp.lean`): **C94** fails for a function that is NaN (as a component is, if a coefficient is NaN): for every target, start and tolerances, the call reports success and returns a number between `x0 + 1` and `x0 + 3/2`.
* `C94_fails_component` (`Props/RootFindingFp.lean`): **C94** fails for components: a target that is NaN is inverted to a number, for every column of numbers at which the component is strictly increasing in its last input.
* `C96_fails_arrays` (`Props/Lifetimes.lean`): **C96 fails for arrays of the program** (the objective of MATLAB, whose points belong to MATLAB; Gaussians with a mean from an Eigen matrix or a MATLAB array; fixed sets in C++ on the entries of a `std::vector`). In every state, the object made from the array computes with what is later written to the array, and when the array is gone it reads freed memory.
* `C96_fails_temporary` (`Props/Lifetimes.lean`): **C96 fails for `FixedMultiIndexSet(dim, orders)` in Python**: in every state, the set it makes has a view of a temporary that is gone when the constructor returns.
* `C96_fails_coeffMap` (`Props/Lifetimes.lean`): **C96 fails for `CoeffMap`**: what it returns does not keep the coefficients. After the map is gone, assigning through it writes to freed memory.
* `C97_fails_triangular` (`Props/Truncated.lean`): **Violation.** A triangular map of which up to `8 n + 8` bytes are lost is loaded, not refused: the second copy of its components and the flag for its coefficients, which `save` wrote, are never read.
* `C98_fails_large` (`Props/Scratch.lean`): **Violation.** When the number of bytes does not fit an `unsigned int`, too little memory is asked for, every thread gets a null pointer for one of its views, and using that view is undefined.
* `C98_fails_maxSub` (`Props/Scratch.lean`): **Violation.** A `quadMaxSub` of 2^30 (meant as no limit) makes the size of the workspace wrap around to 5 entries; each integration, of whatever function, writes beyond them.
* `C99_fails_continue` (`Props/TrainAdaptiveCoeffs.lean`): **C99, failure.** The coefficients that were learnt are lost: although the optimiser never makes things worse, and a new term with coefficient zero changes nothing, the training error of the second map is larger than that of the first one. (The objective is linear, its gradient is the true one. For every number of variables and every initial total order.)
* `C99_fails_returned` (`Props/TrainAdaptiveCoeffs.lean`): **C99, failure.** The map that is returned is not the best one: with two outputs, a map that was trained on the way has a smaller test error than the one that is returned, although the optimiser never makes things worse and its result depends only on the map it is given. (For every number of variables and every initial total order; the objective is linear, its gradient is the true one.)
