import Verif.Model.MapFactory
import Verif.Model.ComponentMap
import Verif.Model.QuadPrograms
import Verif.Model.Hermite
/-!
# Model of `MapOptions`, `MapFactory::CreateComponent`, `CreateTriangular` and `CreateExpansion`

Source: `MParT/MapOptions.h`, `MParT/MapFactory.h`, `src/MapFactory.cpp`, `src/MapFactoryImpl1.cpp` – `MapFactoryImpl18.cpp`.

Simplifications
* an infinite bound is `none`; a bound that is not a number, and a lower bound of `+infinity` or an upper bound of `-infinity`, are left out;
* the registry has an entry for each of the 36 combinations of basis, linearisation, positive function and quadrature, as
  the 18 files register them, so that the lookup in `GetFactoryFunction` never throws;
* an expansion sees a basis through the numbers its class writes (`Basis1d.read`); that every call of the class writes these
  numbers is a theorem for the options where it is true (`C62_basis`) and false for others (`C24_fails_linearized_normalized`);
* the assertions of `SetDim` are left out: with `ClenshawCurtisQuadrature` they fail (`Model/FactoryQuad.lean`, C93).
-/
namespace MParT

/-- `enum class BasisTypes`, MapOptions.h 10–15. -/
inductive BasisType
  | probabilistHermite
  | physicistHermite
  | hermiteFunctions
deriving DecidableEq, Repr

/-- `enum class PosFuncTypes`, MapOptions.h 17–21. -/
inductive PosFuncType
  | exp
  | softPlus
deriving DecidableEq, Repr

/-- `enum class QuadTypes`, MapOptions.h 23–28. -/
inductive QuadType
  | clenshawCurtis
  | adaptiveSimpson
  | adaptiveClenshawCurtis
deriving DecidableEq, Repr

/-- `struct MapOptions` with its defaults, MapOptions.h 47–107. -/
structure MapOptions where
  basisType : BasisType := .probabilistHermite
  basisLB : Option ℝ := none
  basisUB : Option ℝ := none
  posFuncType : PosFuncType := .softPlus
  quadType : QuadType := .adaptiveSimpson
  quadAbsTol : ℝ := 1e-6
  quadRelTol : ℝ := 1e-6
  quadMaxSub : Nat := 30
  quadMinSub : Nat := 0
  quadPts : Nat := 5
  contDeriv : Bool := true
  basisNorm : Bool := true
  nugget : ℝ := 0

namespace Basis1d

/-- The content of a list after a call that returned. The output arrays of MultivariateExpansionWorker.h 144–186. -/
def written : Res (List ℝ) → List ℝ
  | .ok l => l
  | _ => []

/-- The basis an expansion of orders up to `N` sees: the last entries written by `EvaluateAll`, `EvaluateDerivatives` and
`EvaluateSecondDerivatives` for each order. MultivariateExpansionWorker.h 144–186. -/
noncomputable def read (b : Basis1d) (N : Nat) : Basis ℝ where
  val n x := if n ≤ N then (written (b.evaluateAll (List.replicate (n + 1) 0) n x)).getD n 0 else 0
  d1 n x := if n ≤ N then
    (written (do let r ← b.evaluateDerivatives (List.replicate (n + 1) 0) (List.replicate (n + 1) 0) n x; .ok r.2)).getD n 0 else 0
  d2 n x := if n ≤ N then
    (written (do
      let r ← b.evaluateSecondDerivatives (List.replicate (n + 1) 0) (List.replicate (n + 1) 0) (List.replicate (n + 1) 0) n x
      .ok r.2.2)).getD n 0 else 0

end Basis1d

namespace MapFactory

/-- `isLinearized`, MapFactory.h 129. -/
def isLinearized (opts : MapOptions) : Bool := opts.basisLB.isSome || opts.basisUB.isSome

/-- The class named by `basisType`: `ProbabilistHermite(opts.basisNorm)`, `PhysicistHermite(opts.basisNorm)` or `HermiteFunction()`,
e.g. MapFactoryImpl1.cpp 19. -/
noncomputable def plainClass (opts : MapOptions) : Basis1d := match opts.basisType with
  | .probabilistHermite => (probabilistHermite opts.basisNorm).toBasis
  | .physicistHermite => (physicistHermite opts.basisNorm).toBasis
  | .hermiteFunctions => HermiteFunction.toBasis

/-- `basis1d` as selected by the key of MapFactory.h 129–130: linearised if one of the bounds is finite, e.g.
MapFactoryImpl10.cpp 19. -/
noncomputable def class1d (opts : MapOptions) : Basis1d :=
  if isLinearized opts then LinearizedBasis.ofBounds (plainClass opts) opts.basisLB opts.basisUB else plainClass opts

/-- `PosFuncType` as selected by the key. MapFactory.h 123 and e.g. MapFactoryImpl10.cpp 33–34. -/
noncomputable def posFunc (opts : MapOptions) : PosBijector := match opts.posFuncType with
  | .exp => expBij
  | .softPlus => softPlus

/-- `unsigned int level = std::log2(opts.quadPts-2)`, e.g. MapFactoryImpl1.cpp 21, in 32-bit unsigned arithmetic; the logarithm of 0 does
not fit an unsigned integer: `ub`. -/
def quadLevel (quadPts : Nat) : Res Nat :=
  if (quadPts + (2 ^ 32 - 2)) % 2 ^ 32 = 0 then .ub else .ok (Nat.log 2 ((quadPts + (2 ^ 32 - 2)) % 2 ^ 32))

/-- `quad` as selected by the key: `ClenshawCurtisQuadrature(quadPts, 1)`, `AdaptiveSimpson(quadMaxSub, 1, …, First, quadMinSub)`,
`AdaptiveClenshawCurtis(level, quadMaxSub, 1, …, First, quadMinSub)`, e.g. MapFactoryImpl1.cpp 21–22. -/
noncomputable def quadrature (opts : MapOptions) : Res (Nat → QProg) := match opts.quadType with
  | .clenshawCurtis => do
    let r ← ClenshawCurtis.getRule opts.quadPts (AdaptiveClenshawCurtis.view opts.quadPts) (AdaptiveClenshawCurtis.view opts.quadPts)
    .ok (QProg.clenshawCurtis r.2 r.1)
  | .adaptiveSimpson => .ok (QProg.simpson ⟨1, opts.quadMaxSub, opts.quadMinSub, opts.quadAbsTol, opts.quadRelTol, .first⟩)
  | .adaptiveClenshawCurtis => do
    let level ← quadLevel opts.quadPts
    let r ← AdaptiveClenshawCurtis.new level
    .ok (QProg.adaptiveCC ⟨1, opts.quadMaxSub, opts.quadMinSub, opts.quadAbsTol, opts.quadRelTol, .first⟩ r)

/-- The largest order in a set, which bounds the orders asked of the basis. `maxDegrees`, FixedMultiIndexSet.h 106. -/
def maxOrder (f : FixedSet) : Nat := f.maxDegrees.foldr max 0

/-- `CreateComponent(mset, opts)`, MapFactory.cpp 19–23 and e.g. MapFactoryImpl1.cpp 16–31: the component and its coefficients. `mem` is what the
scratch memory of the kernels contains, `work` the work vector of the coefficient gradient. -/
noncomputable def createComponent (mset : FixedSet) (opts : MapOptions) (mem : Nat → Option ℝ) (work : List ℝ) :
    Res (CMap × List ℝ) := do
  let quad ← quadrature opts
  let expansion ← Worker.ofFixed mset
  let output : MonotoneComponent :=
    ⟨expansion, (class1d opts).read (maxOrder mset), posFunc opts, quad, opts.contDeriv, opts.nugget⟩
  let n ← mset.size
  .ok (output.obj ((List.range expansion.cacheSize).map mem) work, List.replicate n 0)

/-- Loop of `CreateTriangular` over `i..i+n-1`, MapFactory.cpp 112–115, in 32-bit unsigned arithmetic. -/
noncomputable def componentLoop (extraInputs totalOrder : Nat) (opts : MapOptions) (mem : Nat → Option ℝ) (work : List ℝ) (i : Nat) :
    Nat → Res (List CMap)
  | 0 => .ok []
  | n + 1 => do
    let mset ← FixedSet.totalOrder ((i + extraInputs + 1) % 2 ^ 32) totalOrder
    let comp ← createComponent mset opts mem work
    let rest ← componentLoop extraInputs totalOrder opts mem work (i + 1) n
    .ok (comp.1 :: rest)

/-- `CreateTriangular(inputDim, outputDim, totalOrder, options)`, MapFactory.cpp 101–119: the map and its coefficients. -/
noncomputable def createTriangular (inputDim outputDim totalOrder : Nat) (opts : MapOptions) (mem : Nat → Option ℝ) (work : List ℝ) :
    Res (CMap × List ℝ) := do
  let comps ← componentLoop ((inputDim + (2 ^ 32 - outputDim)) % 2 ^ 32) totalOrder opts mem work 0 outputDim
  let output ← TriangularMap.new comps
  .ok (withZeros output)

end MapFactory

/-- `MultivariateExpansion<BasisEvaluatorType>(outDim, mset, basis1d)` as an object, MultivariateExpansion.h 27–33 and 45–212, one point at a
time: the functions write the rows of the output in place. `work` is what the scratch array `grad` contains. A
`ParameterizedFunctionBase` has no inverse and no log-determinant: `throw`. -/
noncomputable def MultivariateExpansion.obj (w : Worker) (b : Basis ℝ) (outDim : Nat) (work : Nat → ℝ) : CMap where
  inputDim := w.dim
  outputDim := outDim
  numCoeffs := match w.multiSet.size with
    | .ok n => n * outDim
    | _ => 0
  eval c pts output := do
    let r ← Worker.mvEvaluate w b c outDim pts
    if outDim ≤ output.length then .ok (r ++ output.drop outDim) else .ub
  grad c pts sens output := do
    let r ← Worker.mvGradient w b c outDim pts sens ((List.range pts.length).map work)
    if pts.length ≤ output.length then .ok (r ++ output.drop pts.length) else .ub
  coeffGrad c pts sens output := do
    let n ← w.multiSet.size
    Worker.mvCoeffGrad w b c outDim pts sens ((List.range n).map work) output
  logDet _ _ _ := .throw
  inv _ _ _ _ := .throw
  ldCoeffGrad _ _ _ := .throw
  ldInputGrad _ _ _ := .throw

/-- `CreateExpansion(outputDim, mset, opts)`, MapFactory.cpp 123–168: the function and its coefficients. -/
noncomputable def MapFactory.createExpansion (outputDim : Nat) (mset : FixedSet) (opts : MapOptions) (work : Nat → ℝ) :
    Res (CMap × List ℝ) := do
  let w ← Worker.ofFixed mset
  .ok (withZeros (MultivariateExpansion.obj w ((MapFactory.class1d opts).read (MapFactory.maxOrder mset)) outputDim work))

end MParT
