#!/usr/bin/env python3
"""Regenerates /verif/properties.jsonl.  One entry per property."""
import json, os
P=[]
def p(id,title,statement,quantifier,why,anchors):
    P.append(dict(id=id,title=title,statement=statement,quantifier=quantifier,why_tests_cant=why,anchors=anchors))

MI="src/MultiIndices/MultiIndex.cpp"; MS="src/MultiIndices/MultiIndexSet.cpp"; FS="src/MultiIndices/FixedMultiIndexSet.cpp"
NB="src/MultiIndices/MultiIndexNeighborhood.cpp"; LM="src/MultiIndices/MultiIndexLimiter.cpp"

p("C01","Dense/sparse round trip of a multi-index",
 "Constructing a MultiIndex from an array of nonnegative integers and asking for Vector() gives the array back; Get(i) is its i-th entry, Sum() the sum of the entries, Max() the largest entry, NumNz() the number of nonzero entries, Length() the array length.",
 "every array of every length", "arrays are unbounded in length and value", [MI+": MultiIndex(ptr,len), Vector, Get, NumNz","MParT/MultiIndices/MultiIndex.h: Sum, Max"])
p("C02","Set behaves like array assignment",
 "After any sequence of Set(ind,val) calls with ind < Length(), the multi-index is indistinguishable (Vector, Get, Sum, Max, NumNz, ==) from the one built directly from the array with the same assignments. Set with ind > Length() is rejected.",
 "every history of Set calls, every starting multi-index", "histories are unbounded; the last-index boundary needs all lengths", [MI+": Set, Get, Vector"])
p("C03","Comparison operators form one strict total order",
 "On multi-indices, < is irreflexive, transitive and total with respect to ==, == holds exactly when the dense arrays are equal, and !=, >, <=, >= are the derived relations; hence std::map keyed by MultiIndex finds a key iff an equal array was inserted.",
 "every pair and triple of multi-indices of any lengths", "strict weak ordering is a property of all triples", [MI+": operator<, operator==, operator!=, operator>, operator<=, operator>="])
p("C04","AnyBounded / FilterBounded report exactly the terms touching the bound",
 "AnyBounded(bound) is true iff some component is >= the matching component of bound, throws iff the multi-index is longer than the bound, and FilterBounded returns this flag for every active term in index order.",
 "every multi-index, every bound, every set", "unbounded dimension and set size", [MI+": AnyBounded", MS+": FilterBounded"])
p("C05","Neighbour generation and neighbour tests agree",
 "ForwardNeighbors(m) is, in order of dimension, m plus one unit in each dimension; BackwardNeighbors(m) is m minus one unit in each nonzero dimension; IsForward(a,b) iff b occurs in ForwardNeighbors(a) iff a occurs in BackwardNeighbors(b) iff IsBackward(b,a).",
 "every pair of multi-indices of equal length", "unbounded dimension and degree", [NB+": ForwardNeighbors, BackwardNeighbors, IsForward, IsBackward"])
p("C06","Limiters accept exactly their documented region",
 "TotalOrder(p) accepts iff the entries sum to at most p; Dimension(l,n) iff entries outside [l,l+n) vanish; MaxDegree(p) iff lengths agree and every entry is at most its bound; Anisotropic(w,eps) iff the product of w_i^a_i reaches eps; None accepts all; And/Or/Xor are the boolean combinations. The four basic limiters and And/Or of downward-closed limiters are downward closed (lowering an entry keeps acceptance); Xor need not be.",
 "every limiter parameter and every multi-index", "regions are infinite sets", [LM, "MParT/MultiIndices/MultiIndexLimiter.h"])
p("C07","CreateTotalOrder builds exactly the total-order set",
 "CreateTotalOrder(n,p,limiter) contains a multi-index of length n iff its entries sum to at most p and the limiter accepts it, each exactly once, in the lexicographic generation order.",
 "every n>0, p and limiter", "set sizes grow combinatorially", [MS+": CreateTotalOrder, RecursiveTotalOrderFill, AddActive"])
p("C08","CreateTensorProduct builds exactly the tensor set",
 "CreateTensorProduct(n,p,limiter) contains a multi-index of length n iff every entry is at most p and the limiter accepts it, each exactly once.",
 "every n>0, p and limiter", "set sizes grow exponentially", [MS+": CreateTensorProduct, RecursiveTensorFill"])
p("C09","Linear indices and multi-indices stay in bijection",
 "After any history of public mutations, MultiToIndex(IndexToMulti(i)) = i for every i < Size(), IndexToMulti(MultiToIndex(m)) = m whenever MultiToIndex(m) is not -1, no multi-index occurs twice, IsActive(m) iff MultiToIndex(m) != -1, and existing indices never change when terms are added.",
 "every history of AddActive, +=, Union, Activate, Expand, Expand(i), ForciblyActivate, ForciblyExpand, SetLimiter calls", "the histories are unbounded and the index maps are maintained incrementally", [MS+": AddMulti, AddActive, AddInactive, Activate, Expand, ForciblyActivate, Union, SetLimiter, MultiToIndex"])
p("C10","MaxOrders is the componentwise maximum",
 "After any history of mutations MaxOrders()[d] equals the maximum of component d over the terms in the set (0 for an empty set).",
 "every mutation history, every dimension", "incrementally maintained over unbounded histories", [MS+": Activate", "MParT/MultiIndices/MultiIndexSet.h: MaxOrders"])
p("C11","Adding terms never loses or invents terms",
 "AddActive(m) (also +=) makes m a member iff m was already known to the set or the limiter accepts it, returns its index (or -1 when rejected), keeps every earlier term at its index, and adds no other active term.",
 "every set reachable by any history, every multi-index", "unbounded histories", [MS+": AddActive, AddInactive, Activate, operator+="])
p("C12","Union is set union",
 "After a.Union(b) (or a += b) the members of a are its old members plus exactly the members of b accepted by a's limiter; the return value is the number of new members; old indices are unchanged.",
 "all pairs of reachable sets", "pairs of unbounded histories", [MS+": Union, operator+="])
p("C13","Margin is exactly the admissible outer layer",
 "Margin() lists, once each, exactly the multi-indices that are not in the set, are accepted by the limiter, and have a backward neighbour in the set that the limiter accepts.",
 "every set reachable by any history of additions and expansions with a fixed limiter", "depends on incrementally maintained edges over unbounded histories", [MS+": Margin, AddForwardNeighbors, AddBackwardNeighbors, AddMulti"])
p("C14","Reduced margin",
 "For a downward-closed set and limiter, ReducedMargin() lists exactly the non-members accepted by the limiter all of whose backward neighbours are members. (For sets that are not downward closed the documented definition fails.)",
 "every reachable downward-closed set", "depends on incrementally maintained edges", [MS+": ReducedMargin"])
p("C15","Expansion preserves downward closedness and reports what it added",
 "Expand(i) and Expand() only add terms whose backward neighbours are all members, so a downward-closed set stays downward closed; every old term keeps its index; the returned indices are exactly those of the added terms; Expand(i) reports each once; Expand() may report one more than once.",
 "every reachable set, every active index", "unbounded histories", [MS+": Expand, IsAdmissible, Frontier"])
p("C16","Admissibility and frontier mean what the documentation says",
 "For every known multi-index m, IsAdmissible(m) iff the limiter accepts m and m is a member or all its backward neighbours are members (limiter downward closed); Frontier() is exactly the members having an admissible non-member forward neighbour; StrictFrontier() those of them with no member forward neighbour; NumActiveForward counts member forward neighbours.",
 "every reachable set", "unbounded histories", [MS+": IsAdmissible, IsExpandable, Frontier, StrictFrontier, NumActiveForward, BackwardNeighbors"])
p("C17","ForciblyActivate downward-closes",
 "ForciblyActivate(m) with a downward-closed limiter accepting m makes m and every componentwise smaller multi-index a member, adds nothing else, returns exactly the indices of the added terms, and terminates; every prior term keeps its index.",
 "every reachable downward-closed set, every multi-index", "recursion over an unbounded lattice", [MS+": ForciblyActivate, ForciblyExpand"])
p("C18","SetLimiter rejects violated limiters and otherwise governs later growth",
 "SetLimiter throws iff some member violates the new limiter. After success every member satisfies the limiter, and later Margin()/expansions only produce accepted multi-indices.",
 "every reachable set, every limiter", "the state left behind depends on the whole history", [MS+": SetLimiter, AddInactive"])
p("C19","Fix() snapshots the set in both layouts",
 "Fix(true) and Fix(false) give fixed sets with the same Size, Length and MaxDegrees as the set, and IndexToMulti(i) returns the dense form of the i-th term, without any out-of-range access.",
 "every reachable set, both layouts, every index", "unbounded sizes; the memory-layout arithmetic must hold at every size", [MS+": Fix", FS+": FixedMultiIndexSet ctors, SetupTerms, CalculateMaxDegrees, IndexToMulti"])
p("C20","FixedMultiIndexSet::MultiToIndex inverts IndexToMulti",
 "On a compressed or dense fixed set without duplicate terms, MultiToIndex(IndexToMulti(i)) = i, MultiToIndex(m) = -1 for absent m, and no out-of-range memory is read.",
 "every fixed set, every dense multi-index of the right length", "out-of-range reads are invisible to tests", [FS+": MultiToIndex"])
p("C21","FixedMultiIndexSet(dim,order) is the total-order set and fits its allocation",
 "The total-order constructor allocates exactly the number of terms and nonzeros it writes, never writes out of range, and holds every multi-index of sum at most order exactly once; Size() is binomial(dim+order,dim).",
 "every dim>0 and order", "allocation size and fill are two independent recursions", [FS+": TotalOrderSize, FillTotalOrder"])
E="MParT/MultivariateExpansionWorker.h"
p("C22","Expansion cache layout is disjoint and in range",
 "For every multi-index set the cache slots used by FillCache1/FillCache2 for different dimensions and derivative blocks are disjoint, lie inside CacheSize(), and every slot read during evaluation or differentiation was written before.",
 "every fixed multi-index set, every derivative flag", "overlap and stale reads are data dependent", [E+": ctor, FillCache1, FillCache2"])
p("C23","Expansion evaluation is the sum of products of basis functions",
 "Evaluate returns sum_k c_k prod_d phi_{a_kd}(x_d) for every coefficient vector, point and multi-index set (with phi_0 = 1), whatever the layout.",
 "every set, coefficients and point", "unbounded dimension and term count", [E+": Evaluate"])
p("C24","Expansion derivatives are the true derivatives",
 "DiagonalDerivative(order 1,2), CoeffDerivative, InputDerivative, MixedCoeffDerivative and MixedInputDerivative return the exact partial derivatives of the function computed by Evaluate.",
 "every set, coefficients and point", "finite differences only sample", [E+": DiagonalDerivative, CoeffDerivative, InputDerivative, MixedCoeffDerivative, MixedInputDerivative"])
OP="MParT/OrthogonalPolynomial.h"
p("C25","All evaluation paths of an orthogonal polynomial agree",
 "Evaluate(n,x) (backward Clenshaw recurrence) equals the n-th entry of EvaluateAll, EvaluateDerivatives and EvaluateSecondDerivatives, which equals the three-term recurrence, for every recurrence and normalisation.",
 "every recurrence family, order and point", "orders are unbounded", [OP+": EvaluateAll, Evaluate, EvaluateDerivatives, EvaluateSecondDerivatives"])
p("C26","Orthogonal polynomial derivatives are true derivatives",
 "EvaluateDerivatives, EvaluateSecondDerivatives, Derivative and SecondDerivative return the exact first/second derivative of Evaluate (with and without normalisation).",
 "every recurrence family, order and point", "orders and points are unbounded", [OP+": Derivative, SecondDerivative, EvaluateDerivatives"])
p("C27","Hermite polynomials",
 "ProbabilistHermite computes the probabilists' Hermite polynomials He_n and PhysicistHermite H_n(x) = 2^{n/2} He_n(sqrt2 x); the normalisation constant squared equals the Gaussian norm, for every order.",
 "every order and point", "order unbounded, factorial overflow occurs at order 13", [OP+": ProbabilistHermiteMixer, PhysicistHermiteMixer","MParT/Utilities/MathFunctions.h: Factorial"])
p("C28","Hermite functions",
 "HermiteFunction EvaluateAll, Evaluate, EvaluateDerivatives, EvaluateSecondDerivatives, Derivative and SecondDerivative are mutually consistent and are true derivatives.",
 "every order and point", "orders are unbounded", ["MParT/HermiteFunction.h"])
p("C29","Linearized basis is a C1 extension",
 "LinearizedBasis equals the wrapped basis on [lb,ub] and its tangent lines outside; value and first derivative are continuous; Evaluate/EvaluateAll/EvaluateDerivatives/EvaluateSecondDerivatives agree with each other and are true derivatives.",
 "every basis, bounds lb<ub, order, point", "needs all reals incl. the two break points", ["MParT/LinearizedBasis.h"])
p("C30","Positive bijectors",
 "SoftPlus and Exp are positive and strictly increasing, their Derivative/SecondDerivative are exact derivatives, and Inverse is a two-sided inverse on (0,inf).",
 "every real", "all reals", ["MParT/PositiveBijectors.h"])
p("C31","Sigmoid functions and their gradients",
 "Logistic Evaluate/Inverse are mutually inverse with correct derivatives; Sigmoid1d.Evaluate = sum_k w_k sigma(b_k(x-c_k)), and Gradient/CoeffGrad called through the public interface return the exact vector-Jacobian products.",
 "every parameter set, point and sensitivity", "all reals; argument order is only visible for distinct arguments", ["MParT/Sigmoid.h"])
Q="MParT/Quadrature.h"
p("C32","Clenshaw-Curtis rule",
 "GetRule(n) returns points symmetric in [-1,1], positive weights summing to 2, so Integrate is exact for constants and affine functions and maps nonnegative integrands to nonnegative results for lb<=ub; rules of levels l and l+1 are nested.",
 "every number of points (positivity and exactness: up to 65537, beyond which the 32-bit denominators of the weights wrap around)", "all n", [Q+": ClenshawCurtisQuadrature::GetRule, Integrate"])
p("C33","Adaptive Simpson quadrature terminates in bounds and equals the recursive rule",
 "With minSub < maxSub <= 32 (the depth its 32-bit segment mask can represent), AdaptiveSimpson.Integrate terminates for every integrand, never touches workspace outside GetWorkspaceSize(), and returns exactly the left-to-right sum of the accepted leaf rules of the recursive bisection (so it is exact for cubics and additive over the bisection tree).",
 "every integrand, interval, tolerances", "an unbounded family of integrands drives the control flow", [Q+": AdaptiveSimpson::Integrate, GetWorkspaceSize"])
p("C34","Adaptive Clenshaw-Curtis quadrature terminates in bounds and equals the recursive rule",
 "Same for AdaptiveClenshawCurtis: termination, workspace safety, value = sum of accepted fine-rule leaves; the incremental coarse/fine sums equal the two full rules.",
 "every integrand, interval, tolerances, level", "as above", [Q+": AdaptiveClenshawCurtis::Integrate"])
R="MParT/Utilities/RootFinding.h"
p("C35","FindBracket brackets the root",
 "For a strictly increasing function, if FindBracket reports success the returned bounds satisfy xlb < xub and f(xlb) <= yd <= f(xub) with the reported values, and it succeeds whenever f is steep enough and the root within 2^128 steps.",
 "every increasing function, start and target", "all functions", [R+": FindBracket"])
p("C36","InverseSingleBracket finds the root to tolerance",
 "For a strictly increasing continuous f with a valid bracket and positive x-tolerance the ITP loop keeps the bracket valid, halves it on schedule, stops within the iteration limit, and returns x within the x-tolerance of the root or with |f(x)-yd| below the f-tolerance.",
 "every increasing function and tolerance", "all functions", [R+": Find_x_ITP, InverseSingleBracket"])
p("C37","Root finder reports failure",
 "When the iteration limit is reached without meeting a tolerance InverseSingleBracket reports a nonzero status.",
 "every function", "needs adversarial functions", [R+": InverseSingleBracket"])
MC="MParT/MonotoneComponent.h"
p("C38","A monotone component is strictly increasing in its last input",
 "With exact integration T(x) = f(x_{1:d-1},0) + int_0^{x_d} (g(d_d f)+nugget) dt is strictly increasing in x_d with derivative g(d_d f(x))+nugget > 0. The implemented value with a quadrature rule applies that rule to exactly this integrand.",
 "every expansion, coefficients and point", "all functions and points", [MC+": EvaluateImpl, EvaluateSingle","MParT/MonotoneIntegrand.h: operator()"])
p("C39","Monotone component derivatives are consistent",
 "DiscreteDerivative, the continuous derivative, CoeffJacobian, InputJacobian and the mixed Jacobians return the exact derivatives of the (discretised, resp. continuous) component.",
 "every expansion, quadrature rule, coefficients and point", "finite differences only sample", [MC+": ContinuousDerivative, DiscreteDerivative, CoeffJacobian, InputJacobian, ContinuousMixedJacobian","MParT/MonotoneIntegrand.h"])
T="src/TriangularMap.cpp"
p("C40","Triangular map evaluates its blocks on leading inputs",
 "TriangularMap::Evaluate stacks the component outputs, component i being applied to the first inputDim_i inputs; block k of the output never depends on later inputs.",
 "every list of valid components, every point", "any number of blocks", [T+": ctor, EvaluateImpl"])
p("C41","Triangular inverse undoes evaluate",
 "If every component inverse is exact in its last variables, Inverse(x1, Evaluate([x1;x2])) = x2 and Evaluate([x1; Inverse(x1,r)]) = r; InverseInplace leaves the same result in the block rows it is handed.",
 "every list of components, every point", "any number of blocks", [T+": InverseImpl, InverseInplace"])
p("C42","Triangular log-determinant is the log-determinant of the Jacobian",
 "LogDeterminant equals the sum of component log-determinants, which equals log|det| of the block-lower-triangular Jacobian.",
 "every list of components", "any number of blocks", [T+": LogDeterminantImpl"])
p("C43","Triangular gradients",
 "Gradient and CoeffGrad return J^T s with respect to inputs resp. coefficients; LogDeterminantCoeffGrad and LogDeterminantInputGrad the gradients of LogDeterminant.",
 "every list of components, every sensitivity", "any number of blocks", [T+": GradientImpl, CoeffGradImpl, LogDeterminantCoeffGradImpl, LogDeterminantInputGradImpl"])
p("C44","Coefficients are shared, not duplicated",
 "After SetCoeffs/WrapCoeffs on a triangular, composed or summarised map, every component reads exactly its consecutive slice of the parent's coefficient vector; slices are disjoint, cover it, and later changes through the parent are seen by the component and vice versa.",
 "every nesting of maps and every history of SetCoeffs/WrapCoeffs/Coeffs writes", "aliasing depends on history", [T+": SetCoeffs, WrapCoeffs","src/ComposedMap.cpp: SetCoeffs","src/SummarizedMap.cpp","src/ParameterizedFunctionBase.cpp: SetCoeffs, WrapCoeffs"])
CM="src/ComposedMap.cpp"
p("C45","Composed map is composition",
 "ComposedMap::Evaluate is T_n o ... o T_1, Inverse composes the inverses in reverse order and undoes Evaluate, LogDeterminant is the sum of the layers' log-determinants at the intermediate points, Gradient/CoeffGrad follow the chain rule.",
 "every list of layers, every point", "any number of layers", [CM+": EvaluateImpl, InverseImpl, LogDeterminantImpl, GradientImpl, CoeffGradImpl"])
p("C46","Checkpointing is transparent",
 "For every number of checkpoints and every sequence of layer requests from last to first, GetLayerInput returns the exact input of the requested layer, stores at most maxSaves states, and every gradient equals the gradient computed with all intermediate states saved.",
 "every maxSaves, number of layers and decreasing request sequence", "schedules are unbounded", [CM+": Checkpointer::GetLayerInput, GetNextCheckpoint"])
p("C47","Log-determinant input gradient of composed and triangular maps",
 "LogDeterminantInputGrad and LogDeterminantCoeffGrad of a composed map are the gradients of its LogDeterminant for all layer types, including affine layers.",
 "every list of layers", "stale buffers depend on memory contents", [CM+": LogDeterminantInputGradImpl, LogDeterminantCoeffGradImpl","src/AffineMap.cpp: LogDeterminantInputGradImpl"])
p("C48","Identity, affine and summarised maps",
 "IdentityMap returns the last outputDim inputs and has exact inverse and zero log-determinant; AffineMap evaluates Ax+b, inverts it, and has log|det A|; SummarizedMap applies its component to [s(x_head); x_tail].",
 "every dimension, matrix and point", "all dimensions", ["src/IdentityMap.cpp","src/AffineMap.cpp","src/SummarizedMap.cpp"])
p("C49","Wrong-size or missing coefficients are rejected",
 "Evaluate, Gradient, CoeffGrad, Inverse and LogDeterminant throw when coefficients were never set; SetCoeffs/WrapCoeffs with the wrong number of coefficients is rejected; otherwise Coeffs() returns the vector last set.",
 "every history of SetCoeffs/WrapCoeffs calls", "depends on history", ["src/ParameterizedFunctionBase.cpp: SetCoeffs, WrapCoeffs, CheckCoefficients"])
p("C50","Every point is processed exactly once under any schedule",
 "The team policy used by all parallel kernels covers each point index exactly once for every team size and number of points > 0, and since each point writes only its own outputs, the result is independent of the order in which teams run.",
 "every number of points that together with a team size fits an int (index arithmetic is done in int), team size, rounding of the division, and interleaving of the threads' steps", "schedules", ["MParT/Utilities/KokkosHelpers.h: GetCachedRangePolicy", MC+": EvaluateImpl"])
p("C51","Parallel reductions are schedule independent",
 "ReduceDim returns alpha times the sum over the reduced axis however the range is split and joined.",
 "every split tree of the reduction range", "schedules", ["MParT/Utilities/LinearAlgebra.h: ReduceDim"])
p("C52","Pullback and pushforward densities satisfy the change of variables",
 "PullbackDensity.LogDensity(x) = log density of reference at S(x) + log|det dS(x)|; PushforwardDensity.LogDensity(y) = log density at S^{-1}(y) - log|det dS|; pulling back then pushing forward by the same map returns the original density; LogDensityInputGrad/LogDensityCoeffGrad are their gradients through every overload.",
 "every map, density and point", "all functions", ["src/Distributions/PullbackDensity.cpp","MParT/Distributions/PushforwardDensity.h"])
p("C53","Gaussian density and sampler",
 "LogDensity is the multivariate normal log-density, LogDensityInputGrad its gradient, and Sample maps standard normal draws z to mean + L z.",
 "every mean, SPD covariance and point", "all dimensions", ["src/Distributions/GaussianSamplerDensity.cpp"])
p("C54","KL objective",
 "KLObjective value is minus the average pullback log-density over the samples, and ObjectivePlusCoeffGrad / CoeffGrad return its exact coefficient gradient consistently.",
 "every sample set, map and density", "all inputs", ["src/MapObjective.cpp"])
p("C55","Adaptive training never returns a worse map and never reads out of range",
 "TrainMapAdaptive keeps the best test error seen, returns the map and multi-index sets that produced it, adds only terms from the reduced margins, respects maxSize and maxDegrees.",
 "every sequence of training errors and gradients", "depends on the optimisation history", ["src/TrainMapAdaptive.cpp"])
p("C56","Serialisation round trip",
 "Saving and loading any map, multi-index set or option object through an archive yields an equal object and consumes exactly the bytes written, also when nested or followed by other objects.",
 "every object and nesting", "nesting depth unbounded", ["MParT/TriangularMap.h: save, load_and_construct", MC+": save","MParT/Utilities/Serialization.h","MParT/MultiIndices/FixedMultiIndexSet.h"])
p("C57","Tensor product of two functions",
 "TensorProductFunction evaluates f1(x1;c1)*f2(x2;c2) with c1, c2 the consecutive coefficient blocks of the two factors, and its derivatives are exact.",
 "every pair of functions", "all functions", ["MParT/TensorProductFunction.h"])
p("C58","Single-entry map leaves other coordinates alone",
 "CreateSingleEntryMap(dim, activeInd, comp) is the identity except in coordinate activeInd, for every activeInd in 1..dim.",
 "every dim, activeInd and component", "all dims", ["src/MapFactory.cpp: CreateSingleEntryMap"])

p("C59","Out-of-range indices are rejected",
 "Set(ind,val) and Get(ind) with ind >= Length() throw, and no sequence of accepted calls produces a multi-index whose reported Sum, Max, NumNz disagree with Vector().",
 "every multi-index and every index", "the boundary must be checked at every length", [MI+": Set, Get, MultiIndex(len,val)"])

p("C60","Multi-output expansions use one coefficient block per output",
 "For an expansion with m outputs over N terms, Evaluate returns in row o the expansion with coefficients oN..oN+N-1, Gradient returns the gradient of sum_o sens_o f_o(x), and CoeffGrad writes the derivative with respect to every one of the mN coefficients, whatever the buffers held before.",
 "every set, number of outputs, coefficient vector, sensitivity and point", "unbounded numbers of outputs, terms and dimensions", ["MParT/MultivariateExpansion.h: EvaluateImpl, GradientImpl, CoeffGradImpl"])
p("C61","A monotone component is a correct map on its own",
 "For every component and every coefficient vector and point, whatever the output and scratch memory held: Evaluate returns the discretised component; Gradient and CoeffGrad return the gradients of what Evaluate computes; LogDeterminant is the logarithm of the derivative of Evaluate in the last input and its two gradients are exact; Inverse, given the leading inputs, returns the root up to the documented tolerance.",
 "every multi-index set, basis, positive bijection, quadrature, coefficient vector and point", "the relation between the discretised value and its derivatives is between functions on all inputs", [MC+": EvaluateImpl, GradientImpl, CoeffGradImpl, LogDeterminantImpl, LogDeterminantCoeffGradImpl, LogDeterminantInputGradImpl, InverseImpl","MParT/ConditionalMapBase.h: Inverse, LogDeterminant"])

p("C62","CreateComponent builds the component its options describe",
 "For every multi-index set and option set, CreateComponent returns a component over that set whose one-dimensional functions are the chosen family (normalised if asked, extended linearly beyond the bounds), whose positive function is the chosen one and whose quadrature is the chosen one, with zero coefficients; it evaluates and differentiates correctly whatever scratch memory holds, and as built it multiplies the last input by g(0).",
 "every multi-index set, option set, coefficient vector, point and content of the scratch memory", "36 combinations of options, unbounded sets and all inputs", ["MParT/MapOptions.h","MParT/MapFactory.h: GetFactoryFunction","src/MapFactory.cpp: CreateComponent","src/MapFactoryImpl1.cpp"])
p("C63","CreateTriangular builds the triangular map of total-order components",
 "CreateTriangular(n, m, p, opts) with 0 < m <= n returns a map with n inputs and m outputs, whose output i is the component of the options over all multi-indices of total order at most p in the first n-m+i+1 inputs, with the sum of C(n-m+i+1+p, p) zero coefficients, and meets the contracts of a map; m = 0 and m > n are rejected.",
 "every n, m, p, option set, coefficient vector and point", "unbounded dimensions and orders", ["src/MapFactory.cpp: CreateTriangular"])
p("C64","CreateExpansion builds the expansion its options describe",
 "CreateExpansion(m, set, opts) returns a function with m outputs which are the expansions over the set in the chosen basis, with m times the number of terms zero coefficients, whose Gradient and CoeffGrad are the gradients of what Evaluate computes.",
 "every set, number of outputs, option set, coefficient vector and point", "all sets and all inputs", ["src/MapFactory.cpp: CreateExpansion","MParT/MultivariateExpansion.h"])

p("C65","Array conversions refer to the entries of their argument",
 "MatToKokkos, VecToKokkos, ToKokkos, KokkosToMat, KokkosToVec, KokkosToStd and the const variants give an array of the same shape whose entry (i,j) is the entry (i,j) of the argument, for every shape, layout and strides.",
 "every shape, storage order, offset and stride", "all strides and shapes", ["MParT/Utilities/ArrayConversions.h: ToKokkos, MatToKokkos, ConstRowMatToKokkos, ConstColMatToKokkos, VecToKokkos, KokkosToMat, KokkosToVec, KokkosToStd"])
p("C66","The overloads on matrices apply the map to every column",
 "Evaluate, Gradient, CoeffGrad, LogDeterminant, Inverse, LogDeterminantCoeffGrad and LogDeterminantInputGrad of a matrix of points, given as a view or as an Eigen matrix, return a new matrix whose column j is the result for column j of the arguments, whatever the order in which the columns are processed and whatever the new memory contained. Inverse throws when its arguments have different numbers of columns.",
 "every map, matrix, stride and order of the columns", "all schedules, strides and memory contents", ["src/ParameterizedFunctionBase.cpp: Evaluate, Gradient, CoeffGrad","src/ConditionalMapBase.cpp: LogDeterminant, Inverse, LogDeterminantCoeffGrad, LogDeterminantInputGrad"])
p("C67","Every set of options finds its component factory",
 "Whatever the order in which the static registrations run, CreateComponent finds a factory for every combination of basis, linearisation, bijector and quadrature, and it is the one with these classes; if some registrations are not linked in, it throws for the missing combinations and does the same as before for the others.",
 "every set of options and every order and subset of the registrations", "static initialisation order is not under the control of a test", ["MParT/MapFactory.h: CompFactoryImpl::GetFactoryFunction","src/MapFactory.cpp: CreateComponent","src/MapFactoryImpl1.cpp ... src/MapFactoryImpl18.cpp"])
p("C68","TrainMap is the optimiser applied to the exact objective",
 "Whatever the algorithm asks, TrainMap answers with the training error and its exact gradient at the point; it starts from the coefficients of the map, or from ones if they were not set; it leaves the map with the point the optimiser returns and returns its value, which is the training error of the map as it is left and not larger than the one it started from; if the optimiser fails or the coefficients have the wrong length it throws.",
 "every optimiser, map, objective, training set, starting point and schedule of the reductions", "all algorithms, data sets and schedules", ["src/TrainMap.cpp: TrainMap, functor_wrapper","src/MapObjective.cpp: operator()"])
p("C69","CreateGaussianKLObjective is the negative log-likelihood for a standard normal reference",
 "The training error of the objective is the average over the samples of |T(x)|^2/2 + n log(2 pi)/2 - log|det of the Jacobian|, where n is the given dimension or, by default, the number of rows of the training set; with a map that has another number of outputs it throws.",
 "every map, training set, dimension and coefficient vector", "all data sets and maps", ["src/MapObjective.cpp: CreateGaussianKLObjective"])

p("C70","Sums, products and transposes of views are those of the matrices",
 "A * B, transpose(A) * B, A * transpose(B), dgemm with every combination of transpositions, A + B, A += B and transpose(A) give the matrix whose entries are the sum over the inner index (resp. the sum, the transposed entry) of the entries of the arguments, for every shape including empty ones; dgemm leaves beta C + alpha op(A) op(B); shapes that do not fit are rejected before anything is written.",
 "every shape, entry, scalar and combination of transpositions", "all shapes and entries", ["src/Utilities/LinearAlgebra.cpp: dgemm, operator*, operator+, AddInPlace","MParT/Utilities/LinearAlgebra.h: TransposeObject, transpose"])
p("C71","The LU and Cholesky solvers solve the system and compute the determinant",
 "After compute(A) of an invertible matrix, solve and solveInPlace of PartialPivLU return the X with A X = B and determinant returns det A; after compute of a symmetric positive definite matrix Cholesky solves, solves with the factor, multiplies with the factor and computes the determinant likewise; a solver that was not computed, and right-hand sides of another height, are rejected.",
 "every invertible (positive definite) matrix, right-hand side and valid pivoting", "all matrices and sizes", ["src/Utilities/LinearAlgebra.cpp: PartialPivLU::compute, solveInPlace, solve, determinant, Cholesky::compute, solveInPlace, solveInPlaceL, multiplyL, determinant"])
p("C72","Initialize starts Kokkos once and the program ends cleanly",
 "However often and with whatever arguments mpart::Initialize is called, Kokkos is initialised exactly once, with the arguments of the first call, a warning is printed on later calls unless MPART_WARNINGS is off, and at exit Kokkos is finalised exactly once.",
 "every history of calls and schedule of threads", "histories of a whole process and thread schedules", ["src/Initialization.cpp","MParT/Initialization.h: Initialize, Finalize"])

p("C73","Backward and admissible forward neighbours are those of the set",
 "BackwardNeighbors of a member or of a term of the margin lists the linear indices of exactly the members one unit below it, each once, and nothing else; the overload taking an index gives the same for that member and rejects other indices; a multi-index away from the set is rejected. AdmissibleForwardNeighbors of a member lists exactly the accepted terms one unit above it that are members or whose backward neighbours are all members.",
 "every history of a set and every multi-index or index", "all histories and multi-indices", ["src/MultiIndices/MultiIndexSet.cpp: BackwardNeighbors, AdmissibleForwardNeighbors"])
p("C74","Visualize draws the set",
 "Visualize prints, for every set of dimension one or two, a grid with one cell per multi-index up to the maximum orders, labelled by its coordinates, showing 'a' exactly for members, 'r' exactly for the reduced margin, 'm' exactly for the rest of the margin and blanks elsewhere.",
 "every history of a set", "all histories", ["src/MultiIndices/MultiIndexSet.cpp: Visualize"])
p("C75","Samplers are reproducible and independent",
 "After SetSeed the samples of a sampler (Gaussian, pushforward, pullback) depend only on the sampler, the seed and the numbers of samples requested since; samplers that are not seeded do not repeat each other's samples; Distribution rejects a sampler and a density of different dimensions.",
 "every history of calls on all samplers of the program, nesting, seed and thread schedule", "histories of interleaved calls and thread schedules", ["MParT/Distributions/SampleGenerator.h: SetSeed, SampleGenerator","src/Distributions/GaussianSamplerDensity.cpp: SampleImpl","MParT/Distributions/PushforwardSampler.h: SampleImpl, SetSeed","MParT/Distributions/PullbackSampler.h: SampleImpl, SetSeed","MParT/Distributions/Distribution.h: Distribution"])
p("C76","Options compare equal exactly if they are the same",
 "operator== of MapOptions and ATMOptions is an equivalence relation that holds exactly if every option has the same value; options that were saved and loaded compare equal to the original.",
 "every pair of option objects, including NaN, infinities and signed zeros", "all values", ["MParT/MapOptions.h: MapOptions::operator==","MParT/AdaptiveTransportMap.h: ATMOptions"])

p("C77","The root finder is right for functions that are not increasing",
 "For every continuous function, increasing or not, every target, starting point and tolerances: when the root finder reports success the point it returns is within xtol of a point where the function takes on the target, or its value is within ftol of the target.",
 "every continuous function, target, starting point and tolerance", "all functions; discretised components need not be increasing", ["MParT/Utilities/RootFinding.h: InverseSingleBracket, Find_x_ITP, FindBracket"])

p("C78","Options set in MATLAB reach the C++ object",
 "Whatever options are set on a MATLAB options object, the C++ object that is built or trained with it uses exactly those values; unset options have the values C++ has by default; names that mean nothing are rejected.",
 "every combination of option values and every function that takes options", "arguments are passed by position through four layers; a test sets few of them", ["bindings/matlab/src/MexOptionsConversions.cpp: MapOptionsFromMatlab, ATMOptionsFromMatlab","bindings/matlab/mat/MapOptions/MapOptions.m: getMexOptions","bindings/matlab/mat/ATMOptions.m: getMexOptions","bindings/matlab/src/ConditionalMap_mex.cpp: ConditionalMap_newMap, ConditionalMap_newTotalTriMap, ConditionalMap_TrainMapAdaptive"])

p("C79","Options saved in MATLAB can be loaded in MATLAB",
 "For every MATLAB options object, Deserialize of the file written by Serialize gives back the same options.",
 "every combination of option values", "all combinations", ["bindings/matlab/src/ParameterizedFunctionBase_mex.cpp: MapOptions_Serialize, MapOptions_Deserialize","bindings/matlab/mat/MapOptions/MapOptions.m: Serialize, Deserialize"])

p("C80","A deep copy of a multi-index set in MATLAB equals the set",
 "For every multi-index set, the deep copy has the same terms in the same order and the same limiter.",
 "every set reachable by public mutations", "the copy is rebuilt rather than copied; all histories", ["bindings/matlab/src/MultiIndexSet_mex.cpp: MultiIndexSet_DeepCopy"])

p("C81","Iterating in Python yields the entries",
 "Iterating over a multi-index yields its entries, and over a multi-index set its terms, in order, and nothing else.",
 "every multi-index and every set", "all lengths; the end of the iteration depends on when access is rejected", ["bindings/python/src/MultiIndex.cpp: __getitem__"])

p("C82","Indices in Julia start at one and are checked",
 "idx[i] is the i-th entry for i from 1 to the length; every other index is rejected on reading and on writing.",
 "every multi-index and every 32 bit index", "unsigned subtraction; all indices", ["bindings/julia/src/MultiIndex.cpp: getindex, setindex!"])

p("C83","Dimensions and coefficients saved from a language binding are loaded again",
 "For every map, DeserializeMap of the file written by Serialize returns the input and output dimension and the coefficients of the map, in Python, MATLAB and Julia.",
 "every dimension and every coefficient vector, also one that was never set", "all lengths and bit patterns", ["bindings/python/src/Serialization.cpp: DeserializeMap","bindings/julia/src/ParameterizedFunctionBase.cpp: Serialize, __DeserializeMap","bindings/matlab/src/ParameterizedFunctionBase_mex.cpp: ParameterizedFunction_Serialize, ParameterizedFunction_DeserializeMap"])

p("C84","Results in Julia depend only on the arguments",
 "Every function of a map that is called from Julia returns what the C++ function returns, whatever the memory allocated for the result contained.",
 "every map, coefficients, points and contents of fresh memory", "fresh memory is usually zero in a test", ["bindings/julia/src/ParameterizedFunctionBase.cpp: Evaluate, Gradient, CoeffGrad","bindings/julia/src/ConditionalMapBase.cpp: LogDeterminant, LogDeterminantCoeffGrad, LogDeterminantInputGrad, Inverse","bindings/julia/include/JlArrayConversions.h: jlMalloc"])

p("C85","Affine functions compute A x + b and its gradient",
 "For every matrix and offset of matching sizes AffineFunction constructs, Evaluate returns A x + b (x + b, A x) and Gradient the transposed product, whatever the output contained; offsets of another length are rejected.",
 "every rectangular matrix, offset, point and sensitivity", "all shapes and values", ["src/AffineFunction.cpp: AffineFunction, EvaluateImpl, GradientImpl","MParT/AffineFunction.h"])

p("C86","Quadrature objects integrate with the dimension last set and never outside their workspace",
 "After every history of constructing, copying, assigning and destroying quadrature objects, SetDim, SetWorkspace, loading archives and integrating: SetDim rejects exactly the dimensions beyond the maximum given at construction; Integrate of an object without workspace is refused; every other Integrate stays inside the workspace, writes the value of the rule for the dimension last set and leaves the rest of the result array as it was.",
 "every history of operations on any number of objects that share memory, every rule, integrand, interval and dimension", "copies share memory whose life depends on the other objects; all histories and sizes", ["MParT/Quadrature.h: QuadratureBase, SetDim, SetWorkspace, GetWorkspaceSize, save, load, Integrate"])

p("C87","Inverting a component on many points",
 "MonotoneComponent::InverseImpl with options: the tolerances asked for are used and meaningless ones rejected; xs has one column for all targets or one for each, anything else is rejected; entry j of the result is the inverse for target j at its own column, independently of the other columns, and NaN if that column contains NaN.",
 "every component, number of points, columns with and without NaN, option values", "all batch shapes and option values", ["MParT/MonotoneComponent.h: InverseImpl(xs, ys, coeffs, output, options)"])

p("C88","Maps and points may be in different memory spaces",
"In a build with a GPU, every overload of Evaluate, Gradient, CoeffGrad, LogDeterminant, Inverse, LogDeterminantCoeffGrad and LogDeterminantInputGrad returns the values the map has at the columns of its arguments, whether the map is on the host or on the device and whether the arguments are arrays on the host, arrays on the device or Eigen matrices. Copies between the two memories keep the shape and the entries; an array on the host with neither contiguous rows nor contiguous columns is rejected with an exception.",
"every map whose kernels are right, every array of points with any strides, every array of sensitivities, every order in which the columns are processed",
"GPU builds are not part of the usual test runs, and a wrong overload or a wrong number of rows shows only for particular combinations of memory space, function and dimensions",
["src/ParameterizedFunctionBase.cpp:Evaluate,Gradient,CoeffGrad (MPART_ENABLE_GPU)","src/ConditionalMapBase.cpp:LogDeterminant,Inverse,LogDeterminantCoeffGrad,LogDeterminantInputGrad (MPART_ENABLE_GPU)","MParT/Utilities/ArrayConversions.h:ToHost,ToDevice"])

p("C89","Products, solves and determinants in device memory are those of the matrices",
"With GPU support, dgemm and operator* on device matrices compute alpha op(A) op(B) + beta C and write nothing else, whatever the layouts of the operands; PartialPivLU and Cholesky on the device refuse singular (not positive definite) matrices, solve A X = B, multiply with the factor and return the determinant; right-hand sides of another height and solvers that were not computed are refused.",
"every matrix, layout (strides), transposition and valid factorisation by the library",
"all matrices, strides and pivotings; no test runs without a GPU",
["src/Utilities/LinearAlgebra.cpp: dgemm, PartialPivLU<DeviceSpace>, Cholesky<DeviceSpace>","MParT/Utilities/LinearAlgebra.h: TransposeObject, operator*"])
p("C90","Fixed sets on the device and large total-order sets",
"Copying a fixed multi-index set to the device yields a set with the same terms and maximal degrees, in both layouts and whatever the schedule of the parallel loops; sets constructed on the device equal those constructed on the host from the same arguments; Print writes every term once; the total-order constructor works for every dimension and order, whatever the size of the set.",
"all fixed sets a program can build, all orders in which the iterations of the parallel loops take effect, all dimensions and orders",
"A test copies one set under one schedule; the maximal degrees are computed by concurrent updates, and the sizes overflow only for sets with billions of entries.",
["src/MultiIndices/FixedMultiIndexSet.cpp: FixedMultiIndexSet::ToDevice, SetupTerms, CalculateMaxDegrees, Print, TotalOrderSize, FillTotalOrder","MParT/MultiIndices/FixedMultiIndexSet.h: FixedMultiIndexSet"])
p("C91","Component functions on whole arrays",
"The array functions of a monotone component (Evaluate, Gradient, CoeffGrad, LogDeterminant and its gradients, CoeffJacobian, InputJacobian, the mixed Jacobians and the two derivative functions) reject arrays whose sizes do not fit the component and the points before anything is written, and otherwise fill entry or column i of every output with the result for point i, whatever it contained before, and touch nothing else.",
"every component, every number of points, all array sizes and contents",
"the sizes are independent numbers of unbounded range; a test sees only some mismatches, and a write outside an array may go unnoticed",
["MParT/MonotoneComponent.h: EvaluateImpl, GradientImpl, CoeffGradImpl, LogDeterminantImpl, LogDeterminantCoeffGradImpl, LogDeterminantInputGradImpl, ContinuousDerivative, DiscreteDerivative, CoeffJacobian, InputJacobian, ContinuousMixedJacobian, ContinuousMixedInputJacobian, DiscreteMixedJacobian, checkJacobianInput, checkGradFunctionInput"])

p("C92","Calls on one component by several threads",
"Threads that share a monotone component may call its functions at the same time: each call returns what it returns when it is the only one, whatever functions the other threads call and however the calls interleave.",
"every number of threads, every sequence of calls by each of them, every schedule, every state left by earlier calls",
"the functions set the dimension of a quadrature that is a member of the component and read it again later; a test sees few of the interleavings, and the damage (a write past an array of one number) may go unnoticed",
["MParT/MonotoneComponent.h: EvaluateImpl, InverseImpl, DiscreteDerivative, CoeffJacobian, InputJacobian, DiscreteMixedJacobian, ContinuousDerivative, ContinuousMixedJacobian, ContinuousMixedInputJacobian","MParT/Quadrature.h: SetDim, WorkspaceSize, Integrate"])
p("C93","Every function of a component from the factory can be called, in every order",
"A component built by the factory with any of the quadratures can be evaluated, inverted and differentiated in every order and any number of times: no call fails an assertion, none uses more workspace than there is, and each integrates all of its outputs with the rule asked for in the options, whatever was called before.",
"all options, all sequences of calls, all integrands, all contents of the scratch memory",
"each function changes the dimension of the shared quadrature object, so that the calls before matter; the project is tested without assertions",
["src/MapFactoryImpl11.cpp: CreateComponentImpl_LinPhys_CC","src/MapFactoryImpl12.cpp","src/MapFactoryImpl1.cpp","MParT/Quadrature.h: SetDim, GetWorkspaceSize","MParT/MonotoneComponent.h: quad_"])

p("C94","Rounding and NaN in the inverse",
"In floating point, whatever the rounding, overflow and NaN: the root finder behind Inverse ends after a bounded number of evaluations; when it reports success the point it returns is certified by function values it has computed, on both sides of the target; and what is not a number stays so: if the target, the starting point, the function values or the tolerances are NaN, the result is NaN or a failure is reported.",
"every arithmetic, function, target, starting point and tolerance, numbers or NaN",
"all functions and all rounding errors; a NaN in the data goes unnoticed unless every path is looked at",
["MParT/Utilities/RootFinding.h: InverseSingleBracket, FindBracket, Find_x_ITP","MParT/MonotoneComponent.h: InverseImpl"])

p("C95","The adaptive rules do bounded work, whatever the numbers",
"With minSub < maxSub <= 32 an integration by an adaptive rule ends for every integrand, interval and tolerance, also if values overflow or are NaN and however operations are rounded: it works on at least 2^(minSub+1)-1 and at most 2^maxSub-1 segments, never goes deeper than maxSub, and the accepted segments tile the interval. The bounds are reached, the upper one by an integrand that is NaN.",
"every integrand, interval and tolerance; every rounding, overflow and NaN, that is every outcome of the comparisons",
"the outcomes of up to 2^32 comparisons decide the control flow",
["MParT/Quadrature.h: AdaptiveSimpson::Integrate, AdaptiveClenshawCurtis::Integrate","MParT/MapOptions.h: quadMaxSub, quadMinSub"])

p("C96","Objects do not depend on the life of the arrays they were made from",
"An object made from arrays (objective, affine map, Gaussian, fixed multi-index set, coefficients of a map) computes with the entries the arrays had, whatever the program later does with the arrays or with other objects; objects said to share a view compute with its present entries and keep its memory; no sequence of statements reads or frees memory that is gone, and when all variables and objects are gone all memory has been freed.",
"every program (sequence of statements creating, overwriting and freeing arrays and views, making, using and dropping objects), every contents",
"garbage collection and scopes end at times a test does not control, and a read of freed memory often gives the old value; all histories",
["MParT/MapObjective.h: KLObjective","src/MapObjective.cpp: CreateGaussianKLObjective","src/AffineMap.cpp: AffineMap","src/AffineFunction.cpp: AffineFunction","src/Distributions/GaussianSamplerDensity.cpp: GaussianSamplerDensity","src/MultiIndices/FixedMultiIndexSet.cpp: FixedMultiIndexSet","src/ParameterizedFunctionBase.cpp: SetCoeffs, WrapCoeffs, CoeffMap","bindings/python/src/MapObjective.cpp","bindings/python/src/MultiIndex.cpp","bindings/matlab/src/MapObjective_mex.cpp","bindings/julia/src/MapObjective.cpp"])

p("C97","A file that was cut off is refused",
"Loading options, views, matrices, multi-index sets, bases, quadrature rules, expansions or maps from an archive whose end is missing throws: it never returns an object and never is undefined behaviour. In a stream of several maps the complete ones are loaded and the incomplete one is refused.",
"every object that can be saved and loaded, every point at which writing it was interrupted",
"a crash can leave any prefix of the file; which byte is missing decides which read fails",
["MParT/Utilities/Serialization.h","MParT/ParameterizedFunctionBase.h: Save, Load","MParT/TriangularMap.h: save, load_and_construct","MParT/MapOptions.h: serialize","MParT/MonotoneComponent.h: save, load_and_construct"])

p("C98","Each thread has enough scratch memory, and only its own",
"In every kernel (evaluation, inversion, all gradients of components and expansions) each thread gets scratch memory for all its arrays inside the memory of its team, no two arrays of any two threads overlap, and the threads compute what they would compute with memory of their own, in whatever order they run.",
"every kernel, every size of cache, number of terms, dimension and quadrature rule whose bytes fit 32 bits, every team size, every interleaving of the accesses of the threads, every behaviour of the threads that stays inside its arrays",
"overlapping scratch memory shows only under particular team sizes and interleavings; sizes near 2^32 bytes cannot be tested",
["MParT/Utilities/KokkosHelpers.h: GetCachedRangePolicy","MParT/MonotoneComponent.h: EvaluateImpl, InverseImpl, ContinuousDerivative, DiscreteDerivative, CoeffJacobian, InputJacobian, ContinuousMixedJacobian, ContinuousMixedInputJacobian, DiscreteMixedJacobian","MParT/MultivariateExpansion.h: EvaluateImpl, GradientImpl, CoeffGradImpl","MParT/Quadrature.h: GetWorkspaceSize"])

p("C99","Adaptive training continues from what it has learnt, and returns the best map",
"TrainMapAdaptive trains every new map starting from the coefficients of the map before it, with zero for the added term, so that with an optimiser that does not make things worse the training error never increases; the term it adds is the candidate for which the derivative of the training error at the current map is largest; the map that is returned is the one with the smallest test error of all the maps that were trained.",
"every optimiser and objective (arbitrary functions of the map and its coefficients), every initial sets, limiters, maximum degrees, sizes and patience",
"the coefficients depend on the whole history of the training; a test sees one optimiser and one data set, with which losing coefficients may go unnoticed",
["src/TrainMapAdaptive.cpp: TrainMapAdaptive","MParT/TrainMapAdaptive.h: ATMOptions","src/TrainMap.cpp: TrainMap","src/TriangularMap.cpp: SetCoeffs"])

p("C100","Samples have the law that the density gives",
"When the reference sampler draws with the reference density, the samples of a pullback or pushforward sampler have exactly the density that the pullback or pushforward density object computes; for a map with leading inputs, Inverse(x1, z) has for every x1 the density that the pullback density computes at (x1, .), which integrates to one over the last inputs; and the density of a triangular map is the density of its upper part times the conditional density of its lower part.",
"every map that keeps the contracts of Evaluate, Gradient, LogDeterminant and Inverse, every dimension, coefficients, leading inputs and Gaussian; every measurable set of samples",
"a law is a statement about all events; sampling tests see finitely many samples with statistical error and would not notice a density whose total mass is off by a per cent",
["src/Distributions/PullbackDensity.cpp: PullbackDensity","MParT/Distributions/PushforwardDensity.h: PushforwardDensity","MParT/Distributions/PullbackSampler.h: PullbackSampler","MParT/Distributions/PushforwardSampler.h: PushforwardSampler","src/Distributions/GaussianSamplerDensity.cpp: SampleImpl, LogDensityImpl","src/TriangularMap.cpp: InverseImpl, LogDeterminantImpl","src/AffineMap.cpp: InverseImpl","MParT/MonotoneComponent.h: LogDeterminantImpl"])

p("C101","Distributions can be transported again and again",
"Starting from a Gaussian distribution, transporting it any number of times by pullbacks and pushforwards gives a distribution object that can be sampled into any array, with any number of samples: the samples are independent and each has exactly the density whose logarithm LogDensity returns, which is a number everywhere and integrates to one. A step is refused exactly if the map does not have as many inputs and outputs as the distribution has variables, and a sampler and a density are combined exactly if their dimensions agree. Gradients of the log-density reach the Gaussian whatever the number of points.",
"every chain of pullbacks and pushforwards of any length, every map that keeps the contracts, every Gaussian, every number of samples and every array layout",
"the objects nest without bound and the arrays they hand to each other have layouts that depend on the nesting; tests build one level with the layouts that work",
["MParT/Distributions/Distribution.h: Distribution, CreateDistribution","MParT/Distributions/TransportDistributionFactory.h: CreatePullback, CreatePushforward","MParT/Distributions/SampleGenerator.h: Sample","MParT/Distributions/PullbackSampler.h: SampleImpl","MParT/Distributions/PushforwardSampler.h: SampleImpl","src/Distributions/GaussianSamplerDensity.cpp: SampleImpl, LogDensityInputGradImpl","src/Distributions/DensityBase.cpp: LogDensityInputGrad"])

p("C102","The training objective estimates the Kullback-Leibler divergence",
"For independent samples of a law the value of the objective is, on average and for every number of samples, minus the mean of the log-density of the pullback, and converges to it with probability one; this limit is the Kullback-Leibler divergence of the law of the pullback density from the law of the samples, plus the entropy of the samples, which no map changes. So the limit is smallest exactly if the samples of the pullback sampler have the law of the data, and of two coefficient vectors the objective finally prefers the one with the smaller divergence.",
"every law of the data for which the means exist, every map and reference density that keep the contracts, every coefficient vector and almost every infinite sequence of samples",
"a statement about all laws and almost all sequences of samples; a test sees one data set and cannot tell an objective with a small bias, a wrong constant or a missing log-determinant for some region",
["src/MapObjective.cpp: KLObjective::ObjectiveImpl","MParT/MapObjective.h: KLObjective","src/Distributions/PullbackDensity.cpp: LogDensityImpl","MParT/Distributions/PullbackSampler.h: SampleImpl"])

p("C103","Rounding errors stay small, whatever the schedule",
"In floating point the sums over samples (reductions of matrices, value and gradient of the training objective) the values and gradients of expansions, the values of monotone components with a fixed quadrature rule, the values and gradients of affine maps, and the log-density of a Gaussian with unit covariance differ from the exact ones by no more than the error of as many roundings as there are operations on the longest path, relative to the sum of the absolute values of the summands, however the range is split among threads and in whatever order the parts are joined; and two runs with the same inputs give the same numbers.",
"every rounding with a bounded relative error (no overflow or underflow), every number of samples, terms and variables, every splitting into parts and every order of joining them, every history of the evaluation cache",
"all roundings and all schedules; a test sees the schedule of one run and compares with a tolerance",
["MParT/Utilities/LinearAlgebra.h: ReduceDim","src/MapObjective.cpp: ObjectiveImpl, CoeffGradImpl, ObjectivePlusCoeffGradImpl","MParT/MultivariateExpansionWorker.h: Evaluate, DiagonalDerivative, CoeffDerivative, InputDerivative","src/AffineMap.cpp: EvaluateImpl, GradientImpl","src/Utilities/LinearAlgebra.cpp: dgemm","src/Distributions/GaussianSamplerDensity.cpp: LogDensityImpl"])

p("C104","The components of a triangular map can be trained one by one",
"With a standard normal reference the training objective of a triangular map is the sum of the objectives of its components, each with its part of the coefficients and with the rows of the data it has as inputs; its gradient consists of their gradients, one after the other; and coefficients minimise it exactly if each part minimises the objective of its component. This holds for the maps the factory builds with any quadrature.",
"every triangular map, number and size of components, data set, coefficients and schedule of the reductions",
"all maps, data sets and coefficients, and a statement about minima over all coefficient vectors",
["src/MapObjective.cpp: CreateGaussianKLObjective, ObjectiveImpl, CoeffGradImpl","src/TriangularMap.cpp: EvaluateImpl, LogDeterminantImpl, CoeffGradImpl, LogDeterminantCoeffGradImpl","src/MapFactory.cpp: CreateTriangular","src/TrainMap.cpp: TrainMap"])

p("C105","Different coefficients are different functions",
"Two different coefficient vectors of an expansion or of a map made by the factory never give the same function: some point tells them apart. So coefficients are determined by the function, whichever basis, bounds, normalisation and positive function are chosen. With the fixed quadrature the values of a triangular map alone determine its coefficients, although the integral is only approximated; with adaptive quadrature, whose nodes depend on the coefficients, the values and log-determinants together do. The coefficients of any triangular map are determined by its values exactly if those of every component are, and CreateSingleEntryMap changes nothing about this.",
"every multi-index set, number of variables and outputs, options, and all pairs of coefficient vectors",
"a statement about all pairs of coefficient vectors and all points; a test compares a few of them",
["src/MapFactory.cpp: CreateExpansion, CreateComponent, CreateTriangular, CreateSingleEntryMap","src/TriangularMap.cpp: TriangularMap","MParT/MultivariateExpansionWorker.h: Evaluate","MParT/MonotoneComponent.h: EvaluateImpl, LogDeterminantImpl","MParT/Quadrature.h: ClenshawCurtisQuadrature","MParT/OrthogonalPolynomial.h","MParT/HermiteFunction.h","MParT/LinearizedBasis.h"])

p("C106","A call that fails leaves things as they were",
"A call that ends with an exception has no effect on the objects it was given: after a failed SetCoeffs, WrapCoeffs or constructor all coefficients are the ones from before; after a failed training the map has the coefficients and the multi-index sets have the terms from before; after loading from a truncated file the options or the set are the ones from before.",
"every history of calls on coefficients and every call that throws; every optimiser, objective and point in the course of training at which it fails; every file that was cut off anywhere",
"the failure can occur at every point of every run; a test provokes one failure at one point",
["src/ParameterizedFunctionBase.cpp: SetCoeffs, WrapCoeffs","src/TriangularMap.cpp: SetCoeffs, WrapCoeffs","src/TrainMap.cpp: TrainMap","src/TrainMapAdaptive.cpp: TrainMapAdaptive","MParT/MapOptions.h: serialize","MParT/MultiIndices/FixedMultiIndexSet.h: load","bindings/python/src/MapOptions.cpp: Deserialize","bindings/python/src/MultiIndex.cpp: Deserialize"])

p("C107","Multi-indices with large entries",
"Entries are numbers of 32 bits. Whatever they are, a multi-index gives back its entries, its maximum and the number of its nonzero entries, == is equality of the entries and < is a strict total order, however the object was built. TotalOrder compares the sum of the entries, the neighbourhood adds one to one entry and recognises exactly such neighbours.",
"every array of 32-bit numbers, every constructor, every history of Set",
"the differences appear only for sums from 2^32 or entries from 2^31 on, which no test uses, and depend on which constructor was called",
["src/MultiIndices/MultiIndex.cpp: MultiIndex(std::initializer_list), Set, operator<, operator!=","src/MultiIndices/MultiIndexNeighborhood.cpp: ForwardNeighbors, IsForward","MParT/MultiIndices/MultiIndexLimiter.h: TotalOrder"])
p("C108","Overflow in the integrand is reported, not returned",
"When the positive function of a monotone component is infinite at a point at which the quadrature evaluates it, evaluating the component, its coefficient Jacobian, its input Jacobian, its discrete derivative or its mixed derivative throws, and no number is returned or left in the output; when it is infinite at none of them no exception is thrown, and Evaluate returns the quadrature of the integrand plus the value of the expansion at zero, computed from left to right.",
"all admissible term sets, all coefficients and points, all quadrature rules including adaptive ones, all scratch contents, and all number types: nothing is assumed of addition, multiplication, the basis functions or the positive function, so that rounding, overflow and NaN are covered",
"overflow depends on where the (possibly adaptive) quadrature happens to look and on the accumulation order, so each test covers one path; that no silent infinity appears is a statement about all coefficients",
["MParT/MonotoneIntegrand.h: MonotoneIntegrand::operator()","MParT/MonotoneComponent.h: EvaluateSingle, EvaluateImpl, DiscreteDerivative, CoeffJacobian, InputJacobian, DiscreteMixedJacobian, ContinuousDerivative, LogDeterminantImpl","MParT/MultivariateExpansionWorker.h: Evaluate, DiagonalDerivative, MixedCoeffDerivative, InputDerivative, MixedInputDerivative"])
p("C109","More quadrature points bring a component closer to the exact integral",
"The value of a monotone component differs from the value defined by the exact integral by at most twice the distance of the integrand to the polynomials the quadrature integrates exactly: degree below the number of points for the fixed Clenshaw-Curtis rule, and piecewise cubics (Simpson) or piecewise polynomials of degree 2^(level+1) (nested Clenshaw-Curtis) on a dyadic mesh as fine as minSub for the adaptive rules, whatever the tolerances. Hence an integrand with Lipschitz constant L gives an error of at most L/sqrt(n-1) with n points and L/2^minSub with an adaptive rule, and two last inputs are mapped in the right order as soon as their distance times the least slope exceeds twice that. The tolerances of the adaptive rules bound the error of the value.",
"all admissible components (any basis and positive function that are continuously differentiable, any term set), all coefficients and inputs, all numbers of points, tolerances and subdivision limits",
"the bound relates a computed value to an exact integral over a continuum of integrands; a test compares a few values, and the components for which an adaptive rule stops too early are exactly those a test will not contain",
["MParT/Quadrature.h: ClenshawCurtisQuadrature::GetRule, Integrate; AdaptiveSimpson::Integrate; AdaptiveClenshawCurtis::Integrate","MParT/MonotoneComponent.h: EvaluateImpl, EvaluateSingle"])
p("C110","Gradients, slope and inverse of a component are as accurate as the quadrature resolves the integrand",
"Every entry of the coefficient and input gradients of a monotone component is within |sensitivity| times e of the derivative of the component defined by the exact integral, where e is the error up to which the chosen quadrature (fixed Clenshaw-Curtis, adaptive Simpson, adaptive Clenshaw-Curtis, whatever the tolerances) resolves the derivative of the integrand in that coefficient or input. With a fixed rule the computed component is strictly increasing in its last input wherever the exact slope exceeds that error. With every quadrature, adaptive ones included, Inverse reports success and returns a point within max(xtol/2, ytol/m) + e/m of the solution of the exact component, m being the least slope around it.",
"all admissible components (for the last input: with twice continuously differentiable basis functions), all coefficients, points, sensitivities, tolerances, initial guesses and target values",
"the bound compares computed derivatives and roots with those of an integral over a continuum; a test can compare a gradient with a finite difference of the same discretised component, never with the exact one for every component",
["MParT/MonotoneComponent.h: CoeffGradImpl, GradientImpl, InputJacobian, CoeffJacobian, InverseImpl","MParT/MonotoneIntegrand.h: operator()","MParT/Quadrature.h: Integrate","MParT/Utilities/RootFinding.h: InverseSingleBracket"])
p("C111","The density pulled back through a triangular map is the law of the exact map up to the quadrature error",
"For a map built by CreateTriangular with the continuous derivative and any coefficients, LogDensity of a pullback is the reference log-density at the computed outputs plus the logarithm of the Jacobian determinant of the triangular map defined by the exact integrals, which is one-to-one and differentiable. Each computed output is within e of the exact one when the integrand is within e/2 of a polynomial of the degree of the quadrature. Hence the pulled-back density gives every measurable set the mass of its image under the exact map up to a factor exp(+-d), d bounding the change of the reference log-density between computed and exact outputs; over the standard normal distribution d = n e (R + e/2) where the exact outputs are at most R in size, so that the mass never exceeds exp(d).",
"all options of the factory that are not known to fail, all dimensions and orders, all coefficients and leading inputs, all reference densities, all measurable sets",
"a test can compare the density with finite differences at points, but that it integrates to the mass of the image holds for no finite sample, and the reported determinant is not that of the computed map, so that comparing the two is no test",
["src/MapFactory.cpp: CreateTriangular, CreateComponent","MParT/MonotoneComponent.h: EvaluateImpl, LogDeterminantImpl, ContinuousDerivative","MParT/TriangularMap.h: LogDeterminantImpl","MParT/Distributions/PullbackDensity.h: LogDensityImpl"])
p("C112","Training a triangular map minimises the exact negative log-likelihood up to the quadrature error",
"For a map built by CreateTriangular with the continuous derivative, any reference density and any samples, the value that the KL training objective reports at any coefficients is the average negative log-likelihood of the samples under the triangular map defined by the exact integrals, up to the change d of the reference log-density between computed and exact images; over the standard normal reference d = n e (R + e/2) where the integrands are within e/2 of polynomials of the degree of the quadrature and the exact images are at most R in size. Coefficients that minimise the reported objective over any set up to h minimise the exact negative log-likelihood over that set up to h + 2d. Each entry of the gradient given to the optimiser, whatever the schedule of the parallel sums, is the derivative of the exact negative log-likelihood up to (R + e0) e + e0 M.",
"all options of the factory that are not known to fail, all dimensions and orders, all coefficients and sets of coefficients, all samples, all reference densities, all schedules of the reduction",
"a test can compare the gradient with finite differences of the objective at some coefficients, but the reported objective is not the likelihood of the computed map, and that near-minimisers of it are near-minimisers of the likelihood is about all coefficients",
["MParT/MapObjective.h: KLObjective","src/MapObjective.cpp: KLObjective::ObjectiveImpl, TrainCoeffGrad, CoeffGradImpl","src/MapFactory.cpp: CreateTriangular","MParT/MonotoneComponent.h: CoeffGradImpl, LogDeterminantCoeffGradImpl","MParT/TriangularMap.h: CoeffGradImpl, LogDeterminantCoeffGradImpl","MParT/Distributions/PullbackDensity.h: LogDensityImpl, CoeffGrad"])
p("C113","Inverting a triangular map recovers the exact preimage up to amplified quadrature and search error",
"Let a triangular map be built by the factory, with the fixed or one of the adaptive quadratures. Let r be the image of a point x under the exact map (the one with the exact integral), up to a residual sigma per output. Suppose that on the box of half-width W around x each exact component has diagonal slope at least m, is Lipschitz with constant L in the preceding outputs, and that its integrand is within epsilon/2 of a polynomial the quadrature integrates exactly, with epsilon at most m and m - epsilon/5 at least 1e-12. The computed component need not be increasing or continuous. If W leaves room for the root search, then Inverse(x1, r) returns, without an error, numbers whose i-th entry is within tau (1 + L/m)^i of the i-th unknown coordinate of x, with tau = max(5e-7, 1e-6/m) + (epsilon + sigma)/m. In particular, inverting the computed image of x returns x up to that bound, with sigma = epsilon.",
"every dimension, order, coefficient vector and good option set (each quadrature, basis and positive function); every point, right-hand side and initial content of the output",
"a round-trip test compares the inverse with the forward map at a few points and cannot see that the error of each output is amplified by the later ones, nor that both agree with the exact map only up to the quadrature error",
["src/TriangularMap.cpp: InverseImpl, InverseInplace","MParT/MonotoneComponent.h: InverseImpl, EvaluateSingle","MParT/Utilities/RootFinding.h: InverseSingleBracket, FindBracket","src/MapFactory.cpp: CreateTriangular","MParT/Quadrature.h: ClenshawCurtisQuadrature, AdaptiveSimpson, AdaptiveClenshawCurtis"])
p("C114","Samples drawn through the inverse follow the pulled-back density up to an explicit transport and quadrature error",
"Let a triangular map be built by the factory, with the fixed or one of the adaptive quadratures, and let P be the pullback of the standard normal density through it. Draw independent standard normal numbers and hand them to Inverse (with leading inputs), or to a pullback sampler. Let G be a set of points around which the exact map is well conditioned (as in C113), and r the bound of C113. Then every draw that the exact map takes from a point y of G returns normally and within r of y in every coordinate. The chance that a sample lies in a set B is at most exp(delta) times the mass P gives to the points of G within r of B, plus the mass P leaves outside of G, and at least exp(-delta) times the mass P gives to the points of G farther than r from the complement of B, where delta = n epsilon (R + epsilon/2) and R bounds the exact images of G.",
"every dimension, order, coefficient vector, leading input, set B and measurable set G; every good option set with continuous derivatives and no nugget (each quadrature, basis and positive function)",
"a test can compare histograms of a few samples with the density, but samples and density are computed by different approximations of the same map (root search and quadrature against quadrature and the exact determinant), and agreement of the two laws is about all sets",
["MParT/Distributions/PullbackSampler.h: SampleImpl","src/Distributions/PullbackDensity.cpp: LogDensityImpl","src/TriangularMap.cpp: InverseImpl, InverseInplace","src/Distributions/GaussianSamplerDensity.cpp: SampleImpl, LogDensityImpl","MParT/Utilities/RootFinding.h: InverseSingleBracket","src/MapFactory.cpp: CreateTriangular"])
p("C115","Pushforward densities and pushforward samples of a triangular map describe the image of the reference under the exact map",
"Let a square triangular map be built by the factory, with any quadrature, continuous derivatives and no nugget, and let Q be the pushforward of a reference density through it. Let G be a set of points around which the exact map is well conditioned (as in C113), and r the bound of C113. At the exact image of every point x of G, LogDensity of Q returns normally, and its value is the exact log-density of the image (reference minus log-determinant) at a point within r of x in every coordinate. If that exact expression changes by at most delta between points within r, then Q is within delta of the exact log-density, gives the exact image of every measurable subset of G its reference mass up to exp(+-delta), and the chance that the pushforward sampler returns a point of a set B is at most exp(delta) times the mass Q gives to the exact images of G within epsilon of B plus the reference mass outside of G, and at least exp(-delta) times the mass Q gives to the exact images of G farther than epsilon from the complement of B. Over the standard normal distribution delta = n r (rho + r/2) + kappa, with rho the size of the points and kappa the change of the exact log-determinant.",
"every dimension, order, coefficient vector, good option set with continuous derivatives and no nugget, every point, set B, measurable set G and content of the output buffers",
"a test can compare the density at a few points with one computed otherwise; the density goes through a root search and the sampler through quadrature, and that both describe the same law is about all sets and all coefficients",
["MParT/Distributions/PushforwardDensity.h: LogDensityImpl","MParT/Distributions/PushforwardSampler.h: SampleImpl","src/TriangularMap.cpp: InverseImpl, LogDeterminantImpl, EvaluateImpl","MParT/Utilities/RootFinding.h: InverseSingleBracket","src/MapFactory.cpp: CreateTriangular"])
p("C116","Compositions of triangular maps built by the factory: values, log-determinants, inverses and laws up to explicitly accumulated errors",
"Let a map be composed, with any number of checkpoints, of N square layers, each carrying an exact differentiable injective map with positive Jacobian determinant. If along the exact path of a point every layer is, within distance R, accurate to epsilon, Lipschitz with constant Lambda and has an exact log-determinant that changes at most M times the distance, and epsilon (1 + Lambda + ... + Lambda^(N-1)) <= R, then Evaluate of the composition returns a value within epsilon (1 + ... + Lambda^(N-1)) of the composition of the exact maps and LogDeterminant is within M epsilon times the sum over the layers k of (1 + ... + Lambda^(k-1)) of the exact one. If each layer's Inverse recovers the layer's point from every target within S of its image up to K times the distance plus tau, then Inverse of the composition recovers the point from every target within sigma of the exact image up to K^N sigma + tau (1 + ... + K^(N-1)), provided the intermediate errors stay below S. The pulled-back density of the composition over the standard normal distribution is the exact one up to an explicit delta, pointwise and in the mass of every measurable set. A composition of CreateTriangular maps, with any orders and good options with continuous derivatives and no nugget, is such a composition for every coefficient vector: its layers' exact maps are those of C111, with the constants of C111 and C113.",
"every dimension, number of layers, orders, good option sets, number of checkpoints, coefficient vector, point, target and content of the output buffers",
"errors of one layer are amplified by all the later ones; tests evaluate one or two layers at a few points and compare a composition with the layers it is made of, not with the exact maps",
["src/ComposedMap.cpp: EvaluateImpl, LogDeterminantImpl, InverseImpl, SetCoeffs, ComposedMap","src/TriangularMap.cpp: EvaluateImpl, LogDeterminantImpl, InverseImpl","MParT/Distributions/PullbackDensity.h: LogDensityImpl","src/MapFactory.cpp: CreateTriangular"])
p("C117","Training, sampling and pushforward densities of compositions describe the exact composition up to explicitly accumulated errors",
"Let a map be composed of N faithful square layers as in C116 (every composition of CreateTriangular maps with good options, continuous derivatives and no nugget is one), accurate along the exact paths of the points in question. The training objective of the composition is a number within delta of minus the average exact log-likelihood of the data, and coefficients that minimise it over a set up to eta minimise the exact one over that set up to eta + 2 delta. With a reference of total mass one, the chance that the pullback sampler, which inverts the composition, returns a point of B is at most exp(delta) times the mass the pulled-back density gives to the points of G within r of B plus what it leaves outside of G, and at least exp(-delta) times the mass it gives to the points of G farther than r from the complement of B, r being the accumulated error of the inverses. The pushforward density at the exact image of a point is within delta' of the exact log-density of the image, gives the exact image of every measurable subset of G its reference mass up to exp(+-delta'), and the samples of the pushforward sampler follow it in the same sense, with the accumulated error of Evaluate as distance.",
"every dimension, number of layers and checkpoints, coefficient vector, data set, reference density, set B, measurable set G and content of the output buffers",
"objective, sampler and density go through the layers in different directions; that they describe one law is about all sets and all coefficients, which no finite sample settles",
["src/ComposedMap.cpp: EvaluateImpl, LogDeterminantImpl, InverseImpl","src/MapObjective.cpp: ObjectiveImpl","MParT/Distributions/PullbackDensity.h: LogDensityImpl","MParT/Distributions/PullbackSampler.h: SampleImpl","MParT/Distributions/PushforwardDensity.h: LogDensityImpl","MParT/Distributions/PushforwardSampler.h: SampleImpl"])
p("C118","Maps of high enough order reproduce every increasing triangular transformation as closely as desired",
"Take a target transformation of n variables given k leading ones whose output i is a continuous function of the first k+i+1 inputs with a continuous positive derivative in the last of them. For every box and every eps there is an order from which on the map CreateTriangular builds has coefficients with which, everywhere in the box, LogDeterminant is within eps of the target's log-determinant and each output of Evaluate is within eps of the target's plus the error of the quadrature on the target's own slope; with a quadrature of high enough degree the values are within eps altogether. For a reference with continuous log-density the training objective then comes within any gamma of minus the average log-likelihood of the target, with one coefficient vector for all data in the box, so its infimum is not larger than what the target attains.",
"every number of inputs and outputs, every target of this kind, box, accuracy, order beyond the threshold, positive function, quadrature, data set in the box and content of the scratch memory",
"an approximation theorem over an infinite-dimensional class of targets; tests can try a few targets and orders",
["src/MapFactory.cpp: CreateTriangular, CreateComponent","MParT/MonotoneComponent.h: EvaluateImpl, ContinuousDerivative","MParT/MultivariateExpansionWorker.h: Evaluate, DiagonalDerivative","MParT/PositiveBijectors.h: SoftPlus, Exp","src/MapObjective.cpp: ObjectiveImpl"])
p("C119","Pulled-back densities reach every distribution with continuous positive conditional densities",
"Take a distribution of n variables given k leading ones whose conditional distribution functions and densities are continuous, the densities positive. For every box and gamma there are an order, and an accuracy of the quadrature on the transformation that carries the distribution to the standard normal one, from which on the map CreateTriangular builds has coefficients with which LogDensity of the pullback of the standard normal density is within gamma of the logarithm of the given conditional density in the box. For every eps and leading inputs there are coefficients with which the law the exact map defines gives every measurable set the probability the given distribution gives it, up to eps. Coefficients at which the training objective is up to eta as small as with any others fit every data set in the box as well as the given distribution does, up to eta + gamma.",
"every number of inputs and outputs, every distribution of this kind, box, accuracy, leading inputs, measurable set, order beyond the threshold, positive function and content of the scratch memory",
"an approximation theorem over an infinite-dimensional class of distributions and all measurable sets; tests can try a few of each",
["src/MapFactory.cpp: CreateTriangular","src/Distributions/PullbackDensity.cpp: LogDensityImpl","src/Distributions/GaussianSamplerDensity.cpp: LogDensityImpl","MParT/MonotoneComponent.h: EvaluateImpl, ContinuousDerivative"])
p("C120","Training a map of total order one is linear regression",
"A map CreateTriangular builds with total order one computes affine functions whose coefficient of the diagonal input is positive, and every such collection of functions is reached by some coefficients. Coefficients minimise the training objective of a data set exactly if on the data every output has mean 0 and second moment 1 and is uncorrelated with the inputs before its diagonal one. Such coefficients exist exactly if on the data no diagonal input is an affine function of the inputs before it; otherwise the objective is below every bound. Two minimisers give the same outputs on the data and the same log-determinant, and the same outputs everywhere if no input is an affine function of the ones before it on the data. At a minimiser the outputs are uncorrelated with each other, and the objective is n/2 (1 + log 2 pi) minus the log-determinant. LogDensity of the pullback of the standard normal density through a trained square map is the logarithm of the normal density with the mean and the covariance matrix of the data. With more inputs than outputs it is the logarithm of the conditional normal density: joint density of all inputs over marginal density of the leading ones, with the mean and covariance of the data.",
"every number of inputs and outputs, data set that is not empty, option the factory takes with continuous derivatives (basis, bounds, positive function, quadrature, nugget) within the ranges of C63, vector of coefficients and content of the scratch memory",
"the optimum ranges over all coefficient vectors and the condition for its existence over all data sets; a test compares a few trained maps with a regression up to the optimiser's tolerance",
["src/MapFactory.cpp: CreateTriangular","src/TrainMap.cpp: TrainMap","src/MapObjective.cpp: KLObjective::ObjectiveImpl","src/Distributions/PullbackDensity.cpp: LogDensityImpl","src/Distributions/GaussianSamplerDensity.cpp: LogDensityImpl"])
p("C121","Maps of high order overfit: the training objective has no minimum",
"Take a map CreateTriangular builds with a polynomial basis and a positive total order p. If on the training data some diagonal input is a polynomial of total degree at most p of the inputs before it, the training objective is below every bound: there are no optimal coefficients, and TrainMap stops only at its own limits. This is so for every data set of at most p + 1 samples that differ in the inputs before some diagonal input, so whatever the samples of the diagonal input are.",
"every number of inputs and outputs, order, data set of this kind within the basis bounds, option the factory takes with a polynomial family and continuous derivatives within the ranges of C63, bound and content of the scratch memory",
"non-existence of a minimum over all coefficient vectors; an optimiser run ends at some finite value in every test",
["src/MapFactory.cpp: CreateTriangular","src/TrainMap.cpp: TrainMap","src/MapObjective.cpp: KLObjective::ObjectiveImpl","MParT/MonotoneComponent.h: EvaluateImpl, ContinuousDerivative"])
p("C122","What training achieves for maps of every order",
"Where the training objective of a map built by CreateTriangular is minimal, every output has mean 0 on the data. With a polynomial basis it is uncorrelated with every polynomial, of total degree up to the order of the map, in the inputs before the diagonal one. With the exponential as positive function and the fixed quadrature it has mean square 1, and the objective is n/2 (1 + log 2 pi) minus the mean of the log-determinant. This is about the outputs as computed, with the error of the quadrature.",
"every number of inputs and outputs, order, data set that is not empty, minimiser, polynomial and option the factory takes with continuous derivatives within the ranges of C63",
"first-order conditions at minima over all coefficient vectors and all data sets; tests see approximate minima of a few of them",
["src/MapFactory.cpp: CreateTriangular","src/TrainMap.cpp: TrainMap","src/MapObjective.cpp: KLObjective::ObjectiveImpl","MParT/MonotoneComponent.h: EvaluateImpl, ContinuousDerivative"])
p("C123","Adding terms to a map never makes it fit worse",
"Whatever values, log-determinants and training objectives a component built by CreateComponent reaches with some coefficients, a component built with the same options over a set with all its terms and further ones reaches with other coefficients, exactly and not up to the quadrature error. The same holds for CreateTriangular with a higher total order. So the minimum of the training objective of a map of higher order is at most every value of the objective of one of lower order.",
"every pair of nested multi-index sets in compressed form, pair of orders, number of inputs and outputs, coefficient vector, input, reference density, data set, option the factory takes with continuous derivatives within the ranges of C63 and content of the scratch memory",
"exact equality of two maps for all inputs and data sets, and the existence of coefficients for every coefficient vector",
["src/MapFactory.cpp: CreateComponent, CreateTriangular","MParT/MultivariateExpansionWorker.h: Evaluate","src/MapObjective.cpp: KLObjective::ObjectiveImpl"])
p("C124","Training a triangular map is training its components one by one",
"The training objective with standard normal reference of a triangular map is the sum of the objectives of its components, each with its own slice of the coefficients and on the samples of the leading inputs it reads. So coefficients are optimal for the map if and only if the slice of every component is optimal for that component alone. This holds for every triangular map and in particular for those of CreateTriangular, whose components are those CreateComponent builds with total-order sets.",
"every list of components the constructor accepts, with any number of outputs each, coefficient vector, data set that is not empty; for CreateTriangular every size, order and option with continuous derivatives within the ranges of C63",
"an equivalence between minima over all coefficient vectors of a map and of its components",
["src/TriangularMap.cpp: TriangularMap, EvaluateImpl, LogDeterminantImpl, WrapCoeffs","src/MapFactory.cpp: CreateTriangular","src/MapObjective.cpp: KLObjective::ObjectiveImpl","src/Distributions/GaussianSamplerDensity.cpp: LogDensityImpl"])
p("C125","Maps hold every normal distribution exactly and, trained, fit at least as well",
"For every normal distribution of k + n variables, a map that CreateTriangular builds for n outputs with positive total order has coefficients with which LogDensity of the pullback of the standard normal density is, at every input and without quadrature error, the logarithm of the density of the last n variables given the first k. So where the training objective of such a map is minimal, it is at most minus the mean log-density of the data under every normal distribution.",
"every number of inputs and outputs, positive order, mean, positive definite covariance matrix, input, data set that is not empty, minimiser and option the factory takes with continuous derivatives within the ranges of C63",
"exact equality of functions for all normal distributions, orders and inputs, and a bound on minima over all coefficients; tests can compare a few of each up to a tolerance",
["src/MapFactory.cpp: CreateTriangular","src/Distributions/PullbackDensity.cpp: LogDensityImpl","src/Distributions/GaussianSamplerDensity.cpp: LogDensityImpl","src/MapObjective.cpp: KLObjective::ObjectiveImpl","src/TrainMap.cpp: TrainMap"])
p("C126","Training does not depend on the units of the data",
"Take a map CreateTriangular builds with a polynomial basis without bounds, the exponential as positive function, the fixed quadrature and positive total order. Measure its inputs in other units: any scales and origins for the leading inputs, any positive scales for the others. For all coefficients there are others with which Evaluate gives at the new inputs what it gave at the old ones, exactly and not up to the quadrature error; the log-determinant drops by the logarithms of the scales, and the training objective rises by them on every data set. So optimal coefficients for the old data have counterparts that are optimal for the new data and compute the same outputs. With softplus, the default positive function, this does not hold: some second-order maps have no counterpart once the inputs are doubled.",
"every number of inputs and outputs, order, change of units, coefficient vector, input, data set that is not empty, option of this kind within the ranges of C63 and content of the scratch memory",
"an exact correspondence between all coefficient vectors and between minima over all of them, for every change of units; tests compare approximate minima for a few scales",
["src/MapFactory.cpp: CreateTriangular","MParT/MonotoneComponent.h: EvaluateImpl, ContinuousDerivative","MParT/MultivariateExpansionWorker.h: Evaluate, DiagonalDerivative","src/MapObjective.cpp: KLObjective::ObjectiveImpl","src/TrainMap.cpp: TrainMap"])
p("C127","Training sees the samples only through their frequencies",
"For every map, reference density and coefficients: if the same points occur in two training sets with the same relative frequencies, for instance because one is the other in a different order or with every sample repeated equally often, then whenever the objective can be computed on one it can be computed on the other, with the same value (also if that is not a number) and the same gradient, whatever the schedules of the reductions. So TrainMap with any optimisation algorithm ends with the same coefficients and the same returned value, and the minimisers are the same. The objective of two sets together is the mean of their objectives weighted with their sizes.",
"every map, reference density, coefficient vector, pair of training sets, schedule of every reduction, optimisation algorithm and starting point, in exact arithmetic",
"the optimiser can ask for any sequence of coefficients, and the reduction can be split in any way at each call; tests compare a few orders with one schedule",
["src/MapObjective.cpp: KLObjective::ObjectiveImpl, KLObjective::CoeffGradImpl, KLObjective::ObjectivePlusCoeffGradImpl, MapObjective::operator()","src/TrainMap.cpp: TrainMap","MParT/Utilities/LinearAlgebra.h: ReduceDim"])
p("C128","The gradient that training follows is the exact gradient of the objective it reports",
"Take a map CreateTriangular builds with the fixed quadrature, the continuous derivative, no nugget, any number of quadrature points and any order (order at most 1 if the basis has bounds). Its log-determinant is not exactly that of the Jacobian of Evaluate, because Evaluate integrates numerically. Nevertheless the vector that TrainCoeffGrad and operator() return is the exact gradient of the number that the objective returns, for every schedule. So a vector that is not zero is a direction in which every short step back improves the objective, the vector is zero at every minimum, and TrainMap with any algorithm is that algorithm applied to a function and its exact gradient. The same holds for every map whose values and log-determinants are each differentiated exactly.",
"every number of inputs and outputs, order, coefficient vector, data set that is not empty, schedule, optimisation algorithm, starting point, option of this kind within the ranges of C63, and for the general statement every such map and reference density",
"a derivative in all directions and a minimum over all coefficient vectors; tests compare finite differences at a few points up to a tolerance that hides small inconsistencies of value and gradient",
["src/MapObjective.cpp: KLObjective::ObjectivePlusCoeffGradImpl, KLObjective::CoeffGradImpl, MapObjective::TrainCoeffGrad, MapObjective::operator()","src/TrainMap.cpp: TrainMap","src/MapFactory.cpp: CreateTriangular","MParT/MonotoneComponent.h: CoeffGradImpl, LogDeterminantCoeffGradImpl","MParT/Distributions/PullbackDensity.h: LogDensityCoeffGradImpl"])
p("C129","The positive function stays positive in floating point",
"In floating point the softplus function (the default) still does what a positive, invertible function is used for: Evaluate is within a few roundings of log(1+e^x) and a positive number for every finite argument, so that maps are increasing and have a finite log-determinant; Inverse of a positive number is a finite number, also if the exponential overflows; and Inverse of a number that is not positive does not return a finite number.",
"every finite argument, every rounding with a bounded relative error and, for the violations, rounding to nearest in double precision",
"all numbers of a floating point format; the tests use arguments of moderate size",
["MParT/PositiveBijectors.h: SoftPlus::Evaluate, SoftPlus::Inverse"])
with open(os.path.join(os.path.dirname(__file__),"..","properties.jsonl"),"w") as f:
    for x in P: f.write(json.dumps(x)+"\n")
print(len(P))
