# Formal model of MParT in Lean 4

Source: `/repo` (MeasureTransport/MParT at the pinned commit).  Nothing is compiled
or run from `/repo`; every Lean definition cites the file and lines it models.

Other files: `properties.jsonl` (the properties in English), `MANIFEST.json` (which theorems
prove them), `FINDINGS.md` (theorems that show where the code does not have a property),
`AXIOMS.md` (axioms of every theorem), `seeded/LOG.jsonl` (wrong programs tried against the
theorems), `tools/` (scripts that generate these files).

## Layout

* `lean/Verif/Model/*.lean`  – the model: total functions (computable ones, or, for the
  numerical parts, functions over `ℝ` / an arbitrary field) mirroring the C++ functions.
  The comment at the top of each file lists its simplifications.
* `lean/Verif/Spec/*.lean`   – small specifications: dense vectors, sets of vectors,
  histories of calls, derivatives, integrals, contracts of maps and densities.
* `lean/Verif/Lemmas/*.lean` – helper lemmas and invariants.
* `lean/Verif/Props/*.lean`  – the property theorems (named in `MANIFEST.json`), with
  `example`s that show that a concrete case meets the hypotheses.

A property that the code does not have is not weakened silently: the English statement
stays in `properties.jsonl`, its status is `partial`, a theorem `Cxx_fails_…` proves the
failure on the model of the code as it is, and the other theorems say under which additional
conditions the property holds.

## Conventions

* A call returns `Res α` (`Model/Res.lean`): `ok a`; `throw` (a C++ exception, a failing
  `assert` or `Kokkos::abort`); or `ub` (an out-of-range access without a check, a read of
  uninitialised memory, a dangling reference, a shift by too much, a null dereference, …).
  Undefined behaviour is never replaced by a default value, so a theorem with conclusion
  `= .ok …` excludes it.
* `assert(...)` is enabled.
* C++ `unsigned int` → `Nat`, `int` → `Int`, without wrap-around, except where 32-bit
  arithmetic can be observed at sizes that fit into memory: `Factorial`, the subdivision mask
  and the denominators of the quadratures, the sizes written by serialization, the point index of
  a thread (`C50_fails_overflow`), sizes of fixed sets (C90), scratch memory (C98), and multi-indices with
  huge entries (C107).
* `double` → exact arithmetic in `ℝ` (or in any commutative ring or field).  Rounding is
  modelled only in C103 (`Model/Rounding.lean`, `Model/RoundingAffine.lean`, `Model/RoundingGaussian.lean`), C129 (`Model/SoftPlusFp.lean`), C108 (`Model/ComponentFp.lean`, any arithmetic) and, without numbers, in C94 and C95; not-a-number and infinite values are `none` where they can arise without rounding
  (log-determinants of singular maps, an objective without samples, a root finder that fails,
  `0 * uninitialised`).  Every other numerical claim is about the exact program.  In the serialization model a
  `double` is its 64-bit pattern.
* Kokkos views → lists; views that share memory (coefficients) → ranges of buffers in a heap
  (`Model/Coeffs.lean`).  Memory that is an output is an argument with arbitrary content.
* Parallel kernels: per-point bodies are functions; that every interleaving of the threads
  gives the result of the sequential loop, and that the launch configuration runs each point
  once, is C50; reductions are arbitrary split/join trees (C51).
* The host instantiations (`Kokkos::HostSpace`) are modelled; of the device ones only what C88 to C90 name.

## Trusted base

* Lean 4.33.0's kernel, and Mathlib's definitions of reals, derivatives, integrals, matrices,
  measures (in statements).
* Axioms: only `propext`, `Classical.choice` and `Quot.sound`; `AXIOMS.md` lists the axioms of each
  theorem.  No axioms of our own, no `sorry`, no `native_decide`, no `bv_decide`.
* The correspondence between the C++ text and the Lean definitions, established by reading; each
  definition cites file and lines.
* Facts about libraries that are not in the repository:
  * overload resolution: the unqualified `abs` in `AffineMap::Factorize` is the one on `double` (`<cmath>` is included
    through Kokkos and Eigen), not the one on `int`;
  * Eigen: `partialPivLu`/`LLT` return exact factors, solves and determinants are exact, `Eigen`
    matrices created without initialisation have arbitrary content, products are exact;
  * Kokkos: new views are zero; `subview` shares memory; assigning a strided or row-major view to
    a column-major one aborts unless the strides fit; a team policy runs each team member once;
    `parallel_reduce` joins partial sums in an arbitrary tree;
  * cereal: the binary format described at the top of `Model/Serialization.lean`;
  * the standard library: `std::set`/`std::map` order and equivalence, the doubling growth of
    `std::vector` (only in the witness `C17_dangling`);
  * NLopt: an optimiser is an arbitrary tree of questions (C68); in adaptive training its results are arbitrary (C55, C99).

## What is modelled

| code | model | not modelled |
|------|-------|--------------|
| `MultiIndex.{h,cpp}` | `Model/MultiIndex`, `Model/MultiIndex32` | stream output other than `String()`, hashing |
| `MultiIndexNeighborhood` | `Model/Neighborhood` | user-defined neighbourhoods |
| `MultiIndexLimiter` | `Model/Limiter` | user-defined limiters that throw (in sets: total functions) |
| `MultiIndexSet` | `Model/MultiIndexSet`, `Model/Visualize` | user-defined neighbourhoods |
| `FixedMultiIndexSet` | `Model/FixedSet` | `Print`, `ToDevice` |
| `OrthogonalPolynomial`, `HermiteFunction`, `LinearizedBasis` | `Model/OrthoPoly`, `Model/Hermite` | |
| `PositiveBijectors`, `Sigmoid` | `Model/Bijectors` | rounding at large arguments |
| `Quadrature` | `Model/Quadrature`, `Model/QuadPrograms`, `Model/QuadObjects`, `Model/QuadControl` (any arithmetic) | the unbounded-depth branch of `AdaptiveSimpson` is modelled as the same loop |
| `RootFinding` | `Model/RootFinding` (exact), `Model/RootFindingFp` (any arithmetic) | |
| `MultivariateExpansionWorker`, `MultivariateExpansion` | `Model/Expansion`, `Model/ExpansionBasis` | |
| `TensorProductFunction` | `Model/TensorProduct` | |
| `MonotoneIntegrand`, `MonotoneComponent` | `Model/MonotoneComponent`, `Model/ComponentMap`, `Model/InverseBatch`, `Model/RootFindingFp`, `Model/ComponentFp` (any arithmetic) | |
| `ConditionalMapBase`, `TriangularMap`, `IdentityMap`, `SummarizedMap` | `Model/Maps` | device copies |
| `ComposedMap` | `Model/ComposedMap` | `int` overflow in the checkpointer |
| `AffineMap`, `AffineFunction` | `Model/AffineMap` | row/column-major variants |
| `LinearAlgebra` | `Model/LinearAlgebra` (host), `Model/DeviceLinAlg` (device) | the factorisations inside Eigen and cuSOLVER (any valid factors), cuBLAS beyond its documented contract |
| `Initialization` | `Model/Initialization` | what Kokkos does with the arguments |
| `ParameterizedFunctionBase` (coefficients) | `Model/Coeffs` | coefficients in another memory space |
| `KokkosHelpers`, the loops of the kernels, `ReduceDim` | `Model/Parallel` | |
| `Distributions/*`, `MapObjective` | `Model/Distributions`, `Model/Samplers` | the stream of the random number generator (any function of the seed and the thread) |
| comparison of options | `Model/Options` | |
| `MapFactory::CreateSingleEntryMap`, `CreateComponent`, `CreateTriangular`, `CreateExpansion`, `MapOptions` | `Model/MapFactory`, `Model/Factory`, `Model/Registry` | printing of `MapOptions` |
| `ArrayConversions`, the public overloads of `ParameterizedFunctionBase` and `ConditionalMapBase` | `Model/Arrays`, `Model/DeviceMaps` | which layouts `Kokkos::deep_copy` accepts |
| `TrainMap`, `CreateGaussianKLObjective` | `Model/Train` | NLopt, printing |
| `TrainMapAdaptive` | `Model/TrainAdaptive` (multi-index sets), `Model/TrainAdaptiveCoeffs` (coefficients, final retraining) | optimiser (any function), printing |
| language bindings: options, deep copy, item access, coefficient files, result memory | `Model/Bindings` | array and number conversions, sessions |
| `Utilities/Serialization.h` and all `serialize`/`save`/`load` members | `Model/Serialization` | archives other than the binary one |

Not modelled: NLopt itself (an arbitrary tree of questions in `Model/Train`), the execution on a GPU (kernels are the same functions in both spaces; the transfers are in `Model/DeviceMaps`; `AddInPlace` passes references to host objects to the kernel, which a GPU cannot follow: not modelled). Of the language bindings only what `Model/Bindings` names is modelled (options, deep copy, item access, coefficient files,
Julia's result memory); conversion of arrays and numbers between languages is not.

Remarks on particular models
* Dense layout of `FixedMultiIndexSet`: the constructor from orders leaves the closing start at zero;
  the worker then ignores the last term (`C23_dense_last_term_constant`).
* The quadratures are modelled twice: statement by statement with a bounds-checked workspace for
  integrands without side effects (C32–C34), and as programs that call an integrand with side effects
  (`QProg`, needed by the monotone component, whose integrand writes gradients).  `UsesMesh` says that such a
  program is a weighted sum over a finite mesh that depends only on the values of the integrand;
  `C39_simpson`, `C39_adaptiveCC`, `C39_clenshawCurtis` prove that the library's quadratures are such and
  give the same numbers as the first model.
* Maps (`CMap`) are records of functions on one column.  Contracts (`Evaluates`, `HasLogDet`, `Differentiates`, …)
  say what it means for an implementation to be correct, and the theorems about composed, triangular
  and summarised maps and about densities hold for all components that meet them.  The contracts include
  overwriting the output buffers; `AffineMap::LogDeterminantInputGrad` does not (`C47_fails_affine`).
* Expansions over compressed sets never read the member of degree zero of a basis.  `Basis.eff` is the basis with that
  member replaced by the constant one; the theorems on expansions and components ask only `b.eff` to be smooth, so
  they cover the normalised families the factory uses by default.  They ask for continuous first derivatives (`C1Basis`);
  second derivatives are asked for only at the points where a theorem speaks of them (`TwiceAt`), because a linearised
  basis has none at the two ends of its interval.
* The cache is filled twice: with the members of an abstract basis (`Model/Expansion`), and through the array routines of a
  basis class called with pointers into the cache (`Model/ExpansionBasis`).  `C24_class` proves that the two agree for every
  class that `Implements` the abstract basis, and `C24_represents`, `C24_represents_linearized` name the classes that do.
* `C61`: `MonotoneComponent.obj` is one component as a `CMap`.  The scratch and workspace memory it starts with are
  parameters, and the theorems hold for all contents.
* `C55`: gradients and errors are arbitrary functions of the step and of the sets, so the theorems hold for
  every optimiser.  The flag `strict` says whether a read of coefficients outside their range stops
  the program or returns any number.
* `C99`: the same loop with the coefficients.  The optimiser is an arbitrary function from the map and the coefficients it
  starts with to the coefficients it finds.
* `C56`: triangular maps write their components and then, in `save` of the base class, again; see
  `C56_fails_…`.

## Per-property plan

| id | what is modelled | how it is proved |
|----|------------------|------------------|
| C01–C04, C59 | `MultiIndex` as the record (length, nzInds, nzVals, max, sum) with all member functions | invariant `WF` (sorted, nonzero, in range); refinement to dense vectors |
| C05 | `DefaultNeighborhood` | refinement to `+e_i` / `-e_i` on dense vectors |
| C06 | all limiters | direct, plus monotonicity in the componentwise order |
| C07, C08 | the two recursive fills with their mutable `base` vector | induction on the remaining dimensions |
| C09–C18 | `MultiIndexSet` as a state machine (allMultis, active2global, global2active, in/out edges, maxOrders, multi2global, limiter) with one transition per public method | one inductive invariant, established by `init` and preserved by every transition; observations derived from it |
| C19–C21 | `FixedMultiIndexSet` with explicit arrays and `ub` outcomes | induction on the term list / remaining dimension |
| C22–C24, C60 | expansion worker with explicit cache array and start positions; per-point bodies of the expansion | loop invariants; derivative theorems with `HasDerivAt` |
| C25–C28 | three-term recurrences and their loops over ℝ | induction on the order (Clenshaw generalised invariant), `HasDerivAt` |
| C29–C31 | linearised basis, bijectors, sigmoids over ℝ | real analysis from Mathlib |
| C32 | Clenshaw–Curtis points and weights | trigonometric sums |
| C33, C34 | adaptive quadrature loops with explicit workspace, level and bit mask | simulation of the recursive bisection, termination measure |
| C35–C37 | bracketing and ITP loops over ℝ | loop invariants |
| C38, C39 | monotone integrand/component over ℝ | interval integrals, `HasDerivAt` |
| C40–C48 | maps as records of functions, composition/triangular stacking, checkpointer state machine, coefficient heap with views | induction over component lists, invariants over request sequences |
| C49 | coefficient state machine of `ParameterizedFunctionBase` | invariant over call histories |
| C50, C51 | league/team enumeration; split-join trees | bijection; commutative-monoid induction |
| C52–C54 | densities, Gaussian, KL objective | algebra over ℝ, `HasDerivAt` |
| C55 | `TrainMapAdaptive` control loop with optimiser results as inputs | invariant over iterations |
| C56 | archive byte streams | round-trip induction |
| C61 | a monotone component as a map on one column | the contracts of `Spec/Maps.lean`, from C38, C39, C36 |
| C62 | `createComponent` over the class, bijector and quadrature the options select | each class implements its family (C24, C29), each quadrature uses a mesh (C32–C35, C39), then C61 |
| C63 | `createTriangular` | total-order sets (C21), C62 for each component, then C40–C43 |
| C64 | `createExpansion`, `MultivariateExpansion` as an object | C24, C60 and the path gradients of `Lemmas/Gradient` |
| C65 | `Model/Arrays`: arrays as windows into a list of entries (address of entry `(i,j)` from base and strides) | arithmetic on addresses; equivalences where a conversion drops strides |
| C66 | the public overloads as loops over the columns in any order, new memory with arbitrary content | induction on the order of the columns with separated addresses |
| C67 | `Model/Registry`: the 36 registrations as a literal list, `insert`, `find` | induction on the registrations; finite case split on the keys |
| C68 | `Model/Train`: an optimiser is an inductive tree of questions, `TrainMap` runs it against the objective | induction on the tree, C54 for every answer |
| C69 | `gaussianKLDensity` | C53 and C54 with the identity covariance |
| C70 | `Model/LinearAlgebra`: views with shapes, `dgemm` and the sums as loops over the entries | entries against Mathlib's matrix product; induction over the loops |
| C71 | `Model/LinearAlgebra`: the substitutions of `PartialPivLU`/`Cholesky` on packed factors; Eigen's factorisation is any pair of factors with P A = L U (resp. L Lᵀ = A) | forward/backward substitution by induction on the rows; existence of factors (by induction and by Mathlib's LDL) shows the hypotheses hold for every invertible / positive definite matrix |
| C72 | `Model/Initialization`: the flag, Kokkos' own state machine, the exit handlers, interleavings of two threads | induction over the history; counterexamples by evaluation |
| C73 | `Model/Visualize`: `backwardNeighbors` on the state of `Model/MultiIndexSet`, with −1 for a stored inactive index | the set invariant gives the neighbour sets; counterexample by evaluation |
| C74 | `Model/Visualize`: the text character for character | the rows by induction on the columns, every cell from the invariant; counterexamples by evaluation |
| C75 | `Model/Samplers`: a store of generator pools; drawing is any function of the state of the pool chosen by the schedule | non-interference over histories of calls; counterexamples with a counting generator |
| C76 | `Model/Options`: `==` field by field, doubles as bit patterns with IEEE equality | case analysis; exponent/fraction arithmetic |
| C77 | `Model/RootFinding`, as for C36 | the invariant of the search without monotonicity; the counterexample by computing the first step |
| C78 | `Model/Bindings`: the argument lists and how they are read | computing with variables for every option; failures: the nugget, unknown names and the default maximum degrees |
| C79 | `Model/Bindings`, `Model/Serialization` | reading back what was written; failure: the number of results |
| C80 | `Model/Bindings` over `Model/MultiIndexSet` | from C07 and C12; failures: zero term, order, limiter |
| C81 | `Spec/Bindings`: Python's iteration as an inductive relation | induction on the remaining items; failure: one item too many |
| C82 | `Model/Bindings`: unsigned subtraction | from C02 and C59 |
| C83 | `Model/Bindings`, `Model/Serialization` | the readers of C56; failure in Julia without coefficients |
| C84 | `Model/Bindings` over `Model/Maps` | contents of fresh memory are a variable; failure: affine maps |
| C85 | `Model/AffineMap` (`AffineFunction`) | direct, with the affine map lemmas of C48; failure: tall matrices |
| C86 | `Model/QuadObjects`: objects with a workspace pointer over shared memory | `Uses`: induction over histories of all operations; failures: `SetDim` on workspaces of the user, loading over an object's own memory |
| C87 | `Model/InverseBatch` over `Model/MonotoneComponent` and `Model/RootFinding` | induction over the points, C36 and C38 for one point; failure: NaN tolerances |
| C88 | `Model/DeviceMaps`: arrays tagged with their memory space, `ToHost`, `ToDevice`, all overloads of the two base classes compiled with `MPART_ENABLE_GPU` | copies composed with the column loop of C66; failures: `Gradient` on the device allocates `outputDim` rows, `Inverse` of a host map for device arrays calls `CoeffGrad` |
| C89 | matrices in device memory with strides; cuBLAS products on column-major memory with leading dimensions and an ignored status; `PartialPivLU` and `Cholesky` on the device with `getrf`/`potrf` as parameters that satisfy their contract | induction over the columns with a frame for the untouched memory; algebra of the factorisations from C71; fails: sign of the determinant, one-column row-major operands, `multiplyL` after a padded matrix, too tall right-hand sides |
| C90 | Model/FixedDevice: device constructors with the order of every parallel loop as argument, `ToDevice`, `Print`, sizes with 32-bit sums | commuting updates give independence of the order; closed forms of both layouts; closed forms of the sizes, and a comparison of two fills with arrays of different extents |
| C91 | `Model/ComponentArrays.lean`: the loops over the points with the arrays they write to, and the size checks, around the per-point kernels | induction over the points; the per-point facts are those of C38/C39; refuted where no size is checked |
| C92 | `Model/SharedComponent.lean`: the accesses of each call to the shared quadrature before its kernel starts, threads interleaved by an arbitrary schedule; a kernel with a Clenshaw–Curtis rule started with any dimension and workspace | invariant over schedules for calls of one dimension; induction over histories for calls prepared one at a time; refuted by schedules otherwise |
| C93 | `Model/FactoryQuad.lean`: the quadrature object as the factory makes it (over `Model/QuadObjects.lean`) and sequences of calls with `SetDim`, scratch workspace and `Integrate` | induction over the calls with the invariant of C86; refuted for `ClenshawCurtisQuadrature` |
| C94 | `Model/RootFindingFp.lean`: the root finder over an arbitrary arithmetic, recording its calls; the numbers with NaN as one arithmetic; one point of a component's inverse with a target that may be NaN | induction over the loops, without assumptions on the arithmetic; refinement to `Model/RootFinding` for numbers; refuted for NaN targets, values and tolerances |
| C95 | `Model/QuadControl.lean`: the loop of both adaptive rules with the outcome of every comparison of numbers as an argument, recording the segments | induction over the depth left, for all outcomes; the loop of `Model/Quadrature` over the reals takes these steps |
| C96 | `Model/Lifetimes.lean`: memory as blocks with reference counts, managed and unmanaged views, the ways constructors make their members in C++, Python, Julia and MATLAB, `SetCoeffs`/`WrapCoeffs`/`CoeffMap`, programs as sequences of statements | frame lemma (a block nothing else refers to is not changed) by cases over statements and induction over programs; reference-count invariant over multisets of views, by permutations; failures by running the statements from an arbitrary state |
| C97 | the readers of `Model/Serialization.lean` on the beginning of what was written | readers closed under sequencing: more bytes change nothing unless the reader threw and needs them (`Sound`, `Follows`); induction over the fuel with the number of bytes left as its bound |
| C98 | `Model/Scratch.lean`: bytes asked for by each kernel (32-bit), Kokkos' thread scratch memory (interleaved per view), threads as state machines reading and writing entries of their views | closed form of the addresses, injectivity by ordering; simulation by induction over the schedule; failures for sizes that wrap |
| C99 | `Model/TrainAdaptiveCoeffs.lean`: `TrainMapAdaptive` with the coefficients of every component, the optimiser and the objective as arbitrary functions of the map and its coefficients | history of trained maps as an invariant of the loop; the two violations (coefficients of the expanded component, retraining of the returned map) for every number of variables and order |
| C100 | the models of C52, C53 and of the maps; laws are measures with a density with respect to Lebesgue measure (`Spec/Laws.lean`) | gradients along all paths give the Fréchet derivative (`Lemmas/Frechet.lean`), change of variables of Mathlib; composed with the law of the Gaussian, instances for affine and triangular maps and for compositions; total mass greater than one for a component with an inexact quadrature |
| C101 | `Model/DistributionObjects.lean`: samplers on whole arrays with a layout, `Distribution`, chains of pullbacks and pushforwards; the factory functions do not compile as written, their bodies are modelled | C100 as an invariant of the chain, product measures for independence; the covariance failures of C53 propagate through every chain |
| C102 | the objective of C54 on the first `N` of infinitely many independent samples (`Spec/Divergence.lean`) | the log-density is continuous because it has gradients; strong law of large numbers and Kullback–Leibler divergence of Mathlib, C100 for the law of the pullback sampler |
| C103 | the same programs as in C33 and C02, run with rounded numbers (`Model/Rounding.lean`: `Fl fl` are the reals with operations followed by `fl`) | run three times, rounded, exact and with absolute values, and compare the states step by step; induction over the tree of parts; two schedules with different results in 53 digits; for a component, the closed form of C108 over rounded numbers and the bounds of the expansions in it; for affine maps (`Model/RoundingAffine.lean`) the products are added in the order of any tree; the Gaussian log-density (`Model/RoundingGaussian.lean`) follows from the reduction |
| C104 | the models of C54, C69 and C40, `Spec/Separate.lean` for the parts of coefficients and data | the standard normal log-density of stacked outputs is a sum (induction over the components), C42 for the log-determinants; uniqueness of gradients; the factory by C63 |
| C105 | the models of C62, C63 and C64, `Spec/Identify.lean` | the functions of each family are linearly independent between the bounds (degrees; `e^{x²/2}` times a polynomial is no polynomial), hence their products (induction over the variables); a component at `x_D = 0` gives the offset; a function analytic on both sides of 0 which a rule with positive weights sums to 0 over every interval is 0; the adaptive quadratures are one fixed rule over short enough intervals (`Settles`), so the two expansions agree near 0, hence everywhere if 0 is within the bounds; triangular maps by induction over the components, setting the later inputs to 0; any triangular map of maps that evaluate, and single-entry maps, in both directions (`C105_stacked`, `C105_singleEntry`) |
| C106 | `Model/Failures.lean`: adaptive training with the sets of the caller also when it throws, and loading into an existing object member by member; the models of C44 and C68 | coefficients: invariant of histories, a throwing step changes nothing, except a first `SetCoeffs` with too few values (violation); training: the coefficients of the last point asked for stay (violation); adaptive training: for every call of `TrainMap` that fails the sets are those of the map about to be trained (violation), induction over the loop with the invariant of C99; loading: the bytes of the file followed by the old ones (options), array by array (sets), which can leave a set whose terms are read out of range (violation) |
| C107 | constructors, Set and neighbourhood with 32-bit wrap-around (`Model/MultiIndex32.lean`) | closed form of every object a program can build (exact except for the sum, which is taken modulo 2^32), from it entries, equality and order; agreement with the exact model below the limits; counterexamples for the initializer list, TotalOrder, IsForward and forward neighbours |
| C108 | the component over an arbitrary number type with no laws (`Model/ComponentFp.lean`); quadrature as a program of calls; the isinf test as a throw | the folds of the expansion kernels in the order of the code, the cache read-back, and induction over the quadrature program; agreement with the exact model over ℝ (`C108_exact`); counterexamples over a type with overflow and NaN for the log-determinant, NaN coefficients and the product x_D·g |
| C109 | the real-valued component with the quadrature programs of `Model/QuadPrograms.lean` and the rule computed by GetRule | a rule with nonnegative weights that sum to one and is exact on a polynomial is off by at most twice the distance to it; induction over the leaves of the adaptive mesh; Bernstein polynomials for the rate with a Lipschitz constant; a polynomial hidden from the first nodes refutes the tolerance claim |
| C110 | gradients, `Evaluate` and `Inverse` of the real-valued component with the quadrature programs and the rule computed by GetRule | differentiation under the integral and uniqueness of derivatives turn C39 into a statement about the exact component; the rule applied to the differentiated integrand gives the error; the analysis of the root search on functions that are only near an increasing one (`Lemmas/RootNear.lean`) gives the inverse for every quadrature, the localised bound (`Lemmas/RootLocal.lean`) for fixed rules |
| C111 | the triangular map built by the factory, its pullback density, and the exact triangular map as a function on vectors | continuous partial derivatives of the integral in its upper limit and the other inputs give differentiability of the exact map (also for bases extended beyond finite bounds), whose Jacobian is lower triangular with the integrand on the diagonal; it is one-to-one because each component increases in its last input; change of variables for the Lebesgue measure and C63 give the mass; the quadrature error is that of C109 |
| C112 | the KL objective and its gradient over a map built by the factory, and the exact average negative log-likelihood | C63, C50 and C111 give the value: computed images and exact determinant; averaging keeps the bound; near-minimisers transfer by adding the bound twice; for the gradient the slices of the coefficient vector locate the component that owns a coefficient, C110 bounds its derivative, C39 gives the derivative of the exact determinant, and the sensitivity of the reference is evaluated at the computed image |
| C113 | the inverse of a triangular map built by the factory, with any quadrature, and the exact map | the discretised component may jump and decrease, so the root search is analysed on functions that are only close to an increasing one (`Lemmas/RootNear.lean`: every trial point stays near the preimage, the bracket ends always straddle it up to ε/m); induction over the components of `InverseInplace`: the leading coordinates found so far are within the accumulated error, the Lipschitz constant turns that into a residual of the next component, and the recurrence e ≤ τ + (L/m) Σ e gives τ(1+L/m)^i |
| C114 | the law of samples drawn with `Inverse` of a map built by the factory, or by a pullback sampler, against the pulled-back density | C113 couples each draw with the point the exact map sends to it, so the draws into B lie between the exact images of the eroded and the thickened B; C111 turns the mass of an exact image into the mass of the pulled-back density; the rest of the mass is the complement of the image of G, measurable since the exact map is continuous and one-to-one |
| C115 | pushforward densities and samplers of square maps built by the factory, against the image of the reference under the exact map | C114's bound for `Inverse` at an exact image gives the point at which the density is evaluated; the log-determinant is that of the exact map (C111); change of variables under the exact map turns values into masses; the sampler is within ε of the exact image (C111), so the draws into B lie between preimages of the eroded and the thickened B |
| C116 | compositions of square layers, and of maps built by the factory, against the composition of the exact maps | a layer pairs a map with its coefficients and the exact map it stands for; the forward error follows by induction along the exact path (e ↦ ε + Λ e), the log-determinant by adding the layers' logs (chain rule for the exact determinants), the inverse by induction from the last layer back (e ↦ K e + τ); laws by change of variables under the exact composition; C111 and C113 give the constants of each factory-built layer |
| C117 | objective, pullback sampler, pushforward density and pushforward sampler of compositions, against the exact composition | C116 gives pointwise bounds for the pulled-back density, `Inverse` and `Evaluate`; the objective is an average of the first; draws into B lie between exact images of the eroded and the thickened B; the pushforward density is followed from the inexact preimage through the layers (C116's induction from a perturbed start); masses by change of variables under the exact composition |
| C118 | `CreateTriangular`, `Evaluate`, `LogDeterminant` and the training objective against an arbitrary increasing triangular target | Stone-Weierstrass on the box for the offset and for g^-1 of the slope; polynomials of degree 0..p span, so a polynomial of total degree at most p with these as offset and diagonal derivative is an expansion over the total-order multi-indices; g and log g are uniformly continuous near compact sets; the value follows by integrating the slope; C112 for computed against exact. Hermite functions are polynomials times a Gaussian: approximate the quotient by it, with its derivative in the last variable. Within bounds the linearly extended basis is the plain one; beyond them the slope is constant, which is proved as a failure. From order 34 on normalising polynomials divides by zero (C27) |
| C119 | `CreateTriangular`, `PullbackDensity::LogDensity` and the standard normal density against an arbitrary conditional distribution | Compose the conditional distribution functions with the normal quantile: an increasing triangular target (C118) whose pullback of the normal density is the given density. Uniform continuity of the reference's log-density near the image of the box gives the pointwise bound. For the laws: a cube carries all but eps/3 of the mass, there the densities agree up to a factor, and the exact law has mass at most one (C112), so little of it is left outside |
| C120 | `CreateTriangular` with order one, `KLObjective::Objective`, `PullbackDensity::LogDensity` | A component of order one has terms constant, linear in one input, so the diagonal derivative is constant, the quadrature exact, and the positive function onto the positive numbers: the components are the affine functions with positive diagonal coefficient. The objective then splits into one least squares problem per output; project the diagonal input on the span of the ones before it, and compare with any competitor by log t <= (t^2 - 1)/2. The matrix of the outputs whitens the covariance, which gives the density |
| C121 | `CreateTriangular`, `KLObjective::Objective` on data a polynomial interpolates | The output s (x_D - q(x_<D)) is in reach for every slope s and polynomial q up to the order: the terms without x_D span the polynomials, the term linear in x_D sets the slope, and the quadrature of a constant is exact. Where q interpolates the data the output is 0 and the objective falls like -log s. Products of linear forms interpolate any values at different points |
| C122 | `CreateTriangular` of any order, `KLObjective::Objective` | The objective is a sum over the outputs. Terms without the diagonal input shift an output by their values and change neither slope nor nodes: a quadratic in the coefficient whose minimum makes the output uncorrelated with the term. With the exponential the term linear in the diagonal input multiplies the integral and the slope by the same factor: a function of that factor whose derivative vanishes |
| C123 | `CreateComponent`, `CreateTriangular`, `KLObjective::Objective` | The terms both sets share have the same basis functions although the factory sizes the basis by the largest order, so coefficients moved to the places of their terms, with zeros elsewhere, give the same expansion. The quadrature nodes do not depend on the terms, so values, slopes, log-determinants and objectives are the same |
| C124 | `TriangularMap`, `CreateTriangular`, `KLObjective::Objective`, standard normal density | The standard normal density of stacked outputs is the product of those of the parts and the log-determinant is the sum (C42), so the objective is a sum over the components; the slices of the coefficients vary independently, by induction on the list of components |
| C125 | `CreateTriangular`, `PullbackDensity::LogDensity`, `KLObjective::Objective`, against the normal density formula | A positive definite covariance has a Cholesky factor; its inverse is a lower triangular matrix that whitens it, and its leading block whitens the covariance of the leading variables. The last rows are affine outputs with positive slopes, which C120 reaches with order one and C123 with every higher order |
| C126 | `CreateTriangular`, `Evaluate`, `LogDeterminant`, `KLObjective::Objective` | A product of polynomials in scaled and shifted inputs is a product of polynomials of the same degrees, so total-order expansions are closed under changes of units, also under setting the diagonal input to 0. With f(x, 0) kept, the rest scaled by s and -log s times the diagonal input added, exp of the diagonal derivative is divided by s at every node of the rule. The inverse change gives optimality. With softplus the correspondence fails (`C126_fails_softplus`): a softplus of an affine function grows linearly on one side and decays exponentially on the other, and no change of coefficients scales both. |
| C127 | `KLObjective`, `MapObjective::operator()`, `TrainMap` | Sums over a list are sums over its distinct points weighted with their counts, so means agree; the kernels succeed on a set of samples if they do on each point. Induction over the questions of the optimiser, a tree of arbitrary depth, for the whole run of `TrainMap`. No assumption on the map or the reference |
| C128 | `KLObjective`, `TrainCoeffGrad`, `operator()`, `TrainMap`, `CreateTriangular` | The gradient of one sample is the sum of the exact gradients of the reference at the value and of the log-determinant (C63 contracts for fixed rules), by the chain rule along paths; the reduction is linear (C51). Descent: a path with negative derivative decreases to the right. Training: induction over the optimiser's questions |
| C129 | `SoftPlus::Evaluate`, `SoftPlus::Inverse` (`Model/SoftPlusFp.lean`: every operation and library function rounded; NaN, infinities and the overflow of `exp` in `Inverse`) | Bounds on each rounded operation; where they fail, rounding to 53 digits of a number near 1 is computed exactly |
| C57, C58 | tensor product function, single-entry map factory | direct / induction |

## Disagreements between the code and the properties

`FINDINGS.md` lists the theorems.  Further observations from reading that are not theorems:

* the device instantiation of `ConditionalMapBase::Inverse` calls `CoeffGrad`, and the one of
  `Gradient` allocates a wrong number of rows;
* `TriangularMap::InverseImpl` and the `Inverse` overloads use the last column of `x1` without
  checking that it has one;
* the result of Eigen's `LLT` is used without looking at `info()`;
* `TransportDistributionFactory.h` gives two template arguments to `Distribution`, which takes one;
* `CreateSingleEntryMap` calls `SetCoeffs(zeros)`, which overwrites the coefficients of the component it was given;
* `TrainMapAdaptive` builds the vector `newCoeffs` and never attaches it, so the warm start is not used.
