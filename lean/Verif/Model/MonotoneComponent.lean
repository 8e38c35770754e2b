import Verif.Model.Expansion
import Verif.Model.Bijectors
import Verif.Model.RootFinding
/-!
# Model of `MonotoneIntegrand` and `MonotoneComponent`

Source: `MParT/MonotoneIntegrand.h`, `MParT/MonotoneComponent.h`.

Simplifications
* `double` arithmetic is exact real arithmetic, so the test `isinf(gf)` is never true and NaN checks are dropped;
* every function here is the body executed for one point (`ptInd`); the parallel loop over the points is modelled in
  `Model/Parallel.lean`; thread scratch memory is an argument with arbitrary contents;
* the quadrature (template argument `QuadratureType`) is any program that calls the integrand and reads what the calls
  return (`QProg`); the concrete quadratures are modelled in `Model/Quadrature.lean`.
-/
namespace MParT

/-- A quadrature on `[0,1]` as the integrand sees it: a program that either stops with the result, calls the integrand at
`t` with an output buffer holding `buf` and goes on with what the call left there, or runs into undefined behaviour. `quad_.Integrate(workspace, integrand, 0, 1, res)`, MonotoneComponent.h 625, 724, 797, 968. -/
inductive QProg
  | done (res : List ℝ)
  | call (t : ℝ) (buf : List ℝ) (k : List ℝ → QProg)
  | bad

namespace QProg

/-- Run the program with an integrand that has side effects on a state (its cache). MonotoneComponent.h 724. -/
def run {σ : Type} (f : σ → ℝ → List ℝ → Res (σ × List ℝ)) : QProg → σ → Res (σ × List ℝ)
  | done r, s => .ok (s, r)
  | call t buf k, s => do
    let r ← f s t buf
    run f (k r.2) r.1
  | bad, _ => .ub

/-- Run the program with an integrand without side effects. MonotoneComponent.h 724. -/
def pureRun (F : ℝ → List ℝ) : QProg → Res (List ℝ)
  | done r => .ok r
  | call t _ k => pureRun F (k (F t))
  | bad => .ub

/-- A fixed rule: `(t, w)` are nodes and weights on `[0,1]`, `acc` the sum so far. `ClenshawCurtisQuadrature::Integrate`
with `lb = 0`, `ub = 1`, Quadrature.h 297–308, is this program with `t = 0.5*(1 + pts[i])` and weight `0.5*wts[i]`. -/
noncomputable def ofRule (fdim : Nat) : List (ℝ × ℝ) → List ℝ → QProg
  | [], acc => done acc
  | (t, w) :: r, acc =>
    call t (List.replicate fdim 0) fun o => ofRule fdim r (List.zipWith (fun a v => a + w * v) acc o)

end QProg

/-- `MonotoneIntegrand`: the arguments of its constructors except the memory, MonotoneIntegrand.h 52–109. -/
structure MonotoneIntegrand where
  w : Worker
  b : Basis ℝ
  g : PosBijector
  pt : List ℝ
  xd : ℝ
  coeffs : List ℝ
  flag : DFlag
  nugget : ℝ

namespace MonotoneIntegrand
open Worker

/-- The unmanaged view `gradSeg(&output[1], n)`, e.g. MonotoneIntegrand.h 141. -/
def seg (out : List ℝ) (n : Nat) : Res (List ℝ) :=
  if 1 + n ≤ out.length then .ok ((out.drop 1).take n) else .ub

/-- `output` after the view `gradSeg(&output[1], n)` was changed to `s`. MonotoneIntegrand.h 141, 159, 168. -/
def putSeg (out s : List ℝ) (n : Nat) : List ℝ := out.take 1 ++ s ++ out.drop (1 + n)

/-- `output[0] = xd*(gf + nugget)`, MonotoneIntegrand.h 180–181. -/
def putValue (m : MonotoneIntegrand) (df : ℝ) (out : List ℝ) : Res (List ℝ) :=
  Res.setIdx out 0 (m.xd * (m.g.eval df + m.nugget))

/-- The derivative with respect to `x_d` in entry `ind`, MonotoneIntegrand.h 193–202. -/
def putDiag (m : MonotoneIntegrand) (cache : Cache ℝ) (t df : ℝ) (ind : Nat) (out : List ℝ) : Res (List ℝ) := do
  let d2f ← diagonalDerivative m.w cache m.coeffs 2
  Res.setIdx out ind (d2f * (m.xd * t * m.g.deriv df) + (m.g.eval df + m.nugget))

/-- The flag passed to `FillCache2`, MonotoneIntegrand.h 132–136. -/
def fillFlag (flag : DFlag) : DFlag :=
  if flag = .diagonal ∨ flag = .mixed ∨ flag = .input then .diagonal2 else .diagonal

/-- `operator()(t, output)`, MonotoneIntegrand.h 118–203. The state is the cache and `workspace_`. The view of length
`dim = pt.size()` scaled up to `dim-1` needs `dim > 0`. -/
def call (m : MonotoneIntegrand) (s : Cache ℝ × List ℝ) (t : ℝ) (out : List ℝ) :
    Res ((Cache ℝ × List ℝ) × List ℝ) := do
  let numTerms ← m.w.multiSet.size
  let dim := m.pt.length
  let cache ← fillCache2 m.w m.b s.1 (t * m.xd)
    (fillFlag m.flag)
  match m.flag with
  | .parameters => do
    let gs ← seg out numTerms
    let r ← mixedCoeffDerivative m.w cache m.coeffs 1 gs
    let out ← m.putValue r.1 (putSeg out (r.2.map (· * (m.xd * m.g.deriv r.1))) numTerms)
    return ((cache, s.2), out)
  | .mixed => do
    let df ← diagonalDerivative m.w cache m.coeffs 1
    let r2 ← mixedCoeffDerivative m.w cache m.coeffs 2 s.2
    let work := r2.2.mapIdx fun i v => if i < numTerms then v * (m.xd * t * m.g.deriv df) else v
    let gs ← seg out numTerms
    let r ← mixedCoeffDerivative m.w cache m.coeffs 1 gs
    let out ← m.putValue r.1 (putSeg out (List.zipWith (fun v u =>
      (m.xd * t * r2.1 * m.g.deriv2 r.1 + m.g.deriv df) * v + u) r.2 work) numTerms)
    return ((cache, work), out)
  | .input => do
    let gs ← if dim = 0 then Res.ub else seg out dim
    let r ← mixedInputDerivative m.w cache m.coeffs gs
    let out ← m.putValue r.1 (putSeg out (r.2.mapIdx fun i v =>
      if i < dim - 1 then v * (m.xd * m.g.deriv r.1) else v) dim)
    let out ← m.putDiag cache t r.1 dim out
    return ((cache, s.2), out)
  | .diagonal => do
    let df ← diagonalDerivative m.w cache m.coeffs 1
    let out ← m.putValue df out
    let out ← m.putDiag cache t df 1 out
    return ((cache, s.2), out)
  | _ => do
    let df ← diagonalDerivative m.w cache m.coeffs 1
    let out ← m.putValue df out
    return ((cache, s.2), out)

end MonotoneIntegrand

/-- Data members of `MonotoneComponent`, MonotoneComponent.h 63–84, 1059–1063; `quad n` is `quad_` after `SetDim(n)`. -/
structure MonotoneComponent where
  w : Worker
  b : Basis ℝ
  g : PosBijector
  quad : Nat → QProg
  useContDeriv : Bool
  nugget : ℝ

namespace MonotoneComponent
open Worker

/-- The integrand object built in the kernels, e.g. MonotoneComponent.h 622. -/
def integrand (c : MonotoneComponent) (pt : List ℝ) (xd : ℝ) (coeffs : List ℝ) (flag : DFlag) (nugget : ℝ) :
    MonotoneIntegrand := ⟨c.w, c.b, c.g, pt, xd, coeffs, flag, nugget⟩

/-- `EvaluateSingle`, MonotoneComponent.h 993–1018: new cache and value. -/
def evaluateSingle (c : MonotoneComponent) (cache : Cache ℝ) (pt : List ℝ) (xd : ℝ) (coeffs : List ℝ) (nugget : ℝ) :
    Res (Cache ℝ × ℝ) := do
  let r ← (c.quad 1).run (c.integrand pt xd coeffs .none nugget).call (cache, [])
  let v ← Res.idx r.2 0
  let cache ← fillCache2 c.w c.b r.1.1 0 .none
  let e ← evaluate c.w cache coeffs
  return (cache, v + e)

/-- `EvaluateImpl` for one point, MonotoneComponent.h 273–289. The call of `EvaluateSingle` does not pass `nugget_`, so
its default value `0.0` is used. -/
def evaluatePt (c : MonotoneComponent) (scratch : Cache ℝ) (coeffs pt : List ℝ) : Res ℝ := do
  let cache ← fillCache1 c.w c.b scratch pt .none
  let xd ← Res.idx pt (c.w.dim - 1)
  let r ← c.evaluateSingle cache pt xd coeffs 0
  return r.2

/-- `EvaluateImpl`, MonotoneComponent.h 256–299: check on the length of the output, then all points in order. -/
def evaluateImpl (c : MonotoneComponent) (scratch : Cache ℝ) (coeffs : List ℝ) (pts : List (List ℝ)) (outLen : Nat) :
    Res (List ℝ) :=
  if outLen ≠ pts.length then .throw else pts.mapM (c.evaluatePt scratch coeffs)

/-- `SingleEvaluator::operator()`, MonotoneComponent.h 1066–1082, as a function of `x` (0 where it has no value). -/
noncomputable def singleEvaluator (c : MonotoneComponent) (cache : Cache ℝ) (pt coeffs : List ℝ) (x : ℝ) : ℝ :=
  match c.evaluateSingle cache pt x coeffs c.nugget with
  | .ok r => r.2
  | _ => 0

/-- `InverseImpl` for one point, MonotoneComponent.h 407–437. Simplification: every call of the evaluator starts from the
cache left by `FillCache1`, whereas the code goes on with the cache left by the previous call (the value does not depend
on it, `C38_single`). -/
noncomputable def inversePt (c : MonotoneComponent) (scratch : Cache ℝ) (coeffs pt : List ℝ) (y xtol ytol : ℝ) :
    Res (Option ℝ × Int) := do
  let cache ← fillCache1 c.w c.b scratch pt .none
  let x0 ← Res.idx pt (pt.length - 1)
  return RootFinding.inverseSingleBracket y (c.singleEvaluator cache pt coeffs) x0 xtol ytol

open Classical in
/-- The argument checks of `InverseImpl` on the tolerances and sizes, MonotoneComponent.h 352–397
(`eps = numeric_limits<double>::epsilon()`). -/
noncomputable def inverseCheck (xtol ytol : ℝ) (numXs numYs outLen : Nat) : Res Unit :=
  if xtol < 0 then .throw
  else if ytol < 0 then .throw
  else if ytol ≤ (2 : ℝ) ^ (-52 : ℤ) ∧ xtol ≤ (2 : ℝ) ^ (-52 : ℤ) then .throw
  else if numXs ≠ 1 ∧ numXs ≠ numYs then .throw
  else if outLen ≠ numYs then .throw
  else .ok ()

/-- `ContinuousDerivative` for one point, MonotoneComponent.h 501–525. -/
def continuousDerivativePt (c : MonotoneComponent) (scratch : Cache ℝ) (coeffs pt : List ℝ) : Res ℝ := do
  let cache ← fillCache1 c.w c.b scratch pt .none
  let xd ← Res.idx pt (pt.length - 1)
  let cache ← fillCache2 c.w c.b cache xd .diagonal
  let df ← diagonalDerivative c.w cache coeffs 1
  return c.g.eval df

/-- `DiscreteDerivative` for one point, MonotoneComponent.h 605–633: `evals(ptInd)` and `derivs(ptInd)`. -/
def discreteDerivativePt (c : MonotoneComponent) (scratch : Cache ℝ) (coeffs pt : List ℝ) : Res (ℝ × ℝ) := do
  let cache ← fillCache1 c.w c.b scratch pt .none
  let xd ← Res.idx pt (pt.length - 1)
  let r ← (c.quad 2).run (c.integrand pt xd coeffs .diagonal c.nugget).call (cache, [])
  let v ← Res.idx r.2 0
  let d ← Res.idx r.2 1
  let cache ← fillCache2 c.w c.b r.1.1 0 .none
  let e ← evaluate c.w cache coeffs
  return (v + e, d)

/-- `view(i) += integral(i+1)` for `i < n`, MonotoneComponent.h 732–733, 805–807, 971–972. -/
def addIntegral (integral : List ℝ) (jac : List ℝ) (i : Nat) : Nat → Res (List ℝ)
  | 0 => .ok jac
  | n + 1 => do
    let j ← Res.idx jac i
    let v ← Res.idx integral (i + 1)
    let jac ← Res.setIdx jac i (j + v)
    addIntegral integral jac (i + 1) n

/-- `CoeffJacobian` for one point, MonotoneComponent.h 703–736: `evaluations(ptInd)` and the column of the Jacobian, `jac`
being its previous content. -/
def coeffJacobianPt (c : MonotoneComponent) (scratch : Cache ℝ) (coeffs pt jac : List ℝ) : Res (ℝ × List ℝ) := do
  let cache ← fillCache1 c.w c.b scratch pt .none
  let xd ← Res.idx pt (pt.length - 1)
  let r ← (c.quad (coeffs.length + 1)).run (c.integrand pt xd coeffs .parameters c.nugget).call (cache, [])
  let v ← Res.idx r.2 0
  let cache ← fillCache2 c.w c.b r.1.1 0 .none
  let e ← coeffDerivative c.w cache coeffs jac
  let jac ← addIntegral r.2 e.2 0 coeffs.length
  return (v + e.1, jac)

/-- `InputJacobian` for one point, MonotoneComponent.h 776–813. -/
def inputJacobianPt (c : MonotoneComponent) (scratch : Cache ℝ) (coeffs pt jac : List ℝ) : Res (ℝ × List ℝ) := do
  let cache ← fillCache1 c.w c.b scratch pt .input
  let xd ← Res.idx pt (pt.length - 1)
  let r ← (c.quad (c.w.dim + 1)).run (c.integrand pt xd coeffs .input c.nugget).call (cache, [])
  let v ← Res.idx r.2 0
  let cache ← fillCache2 c.w c.b r.1.1 0 .input
  let e ← inputDerivative c.w cache coeffs jac
  let jac ← addIntegral r.2 e.2 0 (c.w.dim - 1)
  let l ← Res.idx r.2 c.w.dim
  let jac ← Res.setIdx jac (c.w.dim - 1) l
  return (v + e.1, jac)

/-- `ContinuousMixedJacobian` for one point, MonotoneComponent.h 841–868. -/
def continuousMixedJacobianPt (c : MonotoneComponent) (scratch : Cache ℝ) (coeffs pt jac : List ℝ) : Res (List ℝ) := do
  let cache ← fillCache1 c.w c.b scratch pt .none
  let xd ← Res.idx pt (pt.length - 1)
  let cache ← fillCache2 c.w c.b cache xd .diagonal
  let r ← mixedCoeffDerivative c.w cache coeffs 1 jac
  return r.2.mapIdx fun i v => if i < coeffs.length then v * c.g.deriv r.1 else v

/-- `ContinuousMixedInputJacobian` for one point, MonotoneComponent.h 892–920. -/
def continuousMixedInputJacobianPt (c : MonotoneComponent) (scratch : Cache ℝ) (coeffs pt jac : List ℝ) :
    Res (List ℝ) := do
  let cache ← fillCache1 c.w c.b scratch pt .mixedInput
  let xd ← Res.idx pt (pt.length - 1)
  let cache ← fillCache2 c.w c.b cache xd .mixedInput
  let r ← mixedInputDerivative c.w cache coeffs jac
  return r.2.mapIdx fun i v => if i < pt.length then v * c.g.deriv r.1 else v

/-- `DiscreteMixedJacobian` for one point, MonotoneComponent.h 946–974; `work` is the initial content of `integrandWork`,
of length `numTerms`. -/
def discreteMixedJacobianPt (c : MonotoneComponent) (scratch : Cache ℝ) (work coeffs pt jac : List ℝ) :
    Res (List ℝ) := do
  let cache ← fillCache1 c.w c.b scratch pt .none
  let xd ← Res.idx pt (pt.length - 1)
  let r ← (c.quad (coeffs.length + 1)).run (c.integrand pt xd coeffs .mixed c.nugget).call (cache, work)
  addIntegral r.2 jac 0 coeffs.length

/-- The diagonal derivative used for the log-determinant, MonotoneComponent.h 108–114. -/
def diagDerivPt (c : MonotoneComponent) (scratch : Cache ℝ) (coeffs pt : List ℝ) : Res ℝ :=
  if c.useContDeriv then c.continuousDerivativePt scratch coeffs pt
  else do
    let r ← c.discreteDerivativePt scratch coeffs pt
    return r.2

/-- `LogDeterminantImpl` for one point, MonotoneComponent.h 105–125; `none` is `-infinity`. -/
noncomputable def logDeterminantPt (c : MonotoneComponent) (scratch : Cache ℝ) (coeffs pt : List ℝ) :
    Res (Option ℝ) := do
  let d ← c.diagDerivPt scratch coeffs pt
  return (by classical exact if d ≤ 0 then none else some (Real.log d))

/-- `isGradFunctionInputValid`, MonotoneComponent.h 127–134 (`outputDim = 1`). -/
def gradShapeOk (inputDim sensRows sensCols ptsRows ptsCols outRows outCols expectedRows : Nat) : Bool :=
  sensRows == 1 && sensCols == ptsCols && ptsRows == inputDim && outRows == expectedRows && outCols == ptsCols

/-- `GradientImpl` for one point after the shape check, MonotoneComponent.h 154–163. -/
def gradientPt (c : MonotoneComponent) (scratch : Cache ℝ) (coeffs pt : List ℝ) (sens : ℝ) (out : List ℝ) :
    Res (List ℝ) := do
  let r ← c.inputJacobianPt scratch coeffs pt out
  return r.2.mapIdx fun i v => if i < c.w.dim then v * sens else v

/-- `CoeffGradImpl` for one point after the shape check, MonotoneComponent.h 172–181. -/
def coeffGradPt (c : MonotoneComponent) (scratch : Cache ℝ) (coeffs pt : List ℝ) (sens : ℝ) (out : List ℝ) :
    Res (List ℝ) := do
  let numCoeffs ← c.w.multiSet.size
  let r ← c.coeffJacobianPt scratch coeffs pt out
  return r.2.mapIdx fun i v => if i < numCoeffs then v * sens else v

/-- `LogDeterminantCoeffGradImpl` for one point, MonotoneComponent.h 185–206. -/
noncomputable def logDeterminantCoeffGradPt (c : MonotoneComponent) (scratch : Cache ℝ) (work coeffs pt out : List ℝ) :
    Res (List ℝ) := do
  let numCoeffs ← c.w.multiSet.size
  let j ← if c.useContDeriv then c.continuousMixedJacobianPt scratch coeffs pt out
    else c.discreteMixedJacobianPt scratch work coeffs pt out
  let d ← c.diagDerivPt scratch coeffs pt
  return j.mapIdx fun i v => if i < numCoeffs then v * (1 / d) else v

/-- `LogDeterminantInputGradImpl` for one point, MonotoneComponent.h 208–232. -/
noncomputable def logDeterminantInputGradPt (c : MonotoneComponent) (scratch : Cache ℝ) (coeffs pt out : List ℝ) :
    Res (List ℝ) :=
  if c.useContDeriv then do
    let j ← c.continuousMixedInputJacobianPt scratch coeffs pt out
    let d ← c.continuousDerivativePt scratch coeffs pt
    return j.mapIdx fun i v => if i < c.w.dim then v * (1 / d) else v
  else .throw

end MonotoneComponent
end MParT
