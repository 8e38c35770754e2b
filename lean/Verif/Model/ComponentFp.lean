import Verif.Model.MonotoneComponent
/-!
# Model of components over an arbitrary arithmetic

Source: `MParT/MonotoneIntegrand.h`, `MParT/MonotoneComponent.h`.

`Model/MonotoneComponent.lean` computes with exact real numbers, so that the positive function is never infinite and the test `isinf(gf)`
in the integrand is left out. Here the numbers are an argument, about which nothing is assumed: they may round in any way, overflow and
include infinities and NaN. The test and the exception it raises are modelled. At the real numbers the functions are those of
`Model/MonotoneComponent.lean` (`C108_exact`).

Simplifications
* every function here is the body executed for one point; thread scratch memory is an argument with arbitrary contents;
* the constants `0.0` and `1.0` are the `0` and `1` of the arithmetic;
* the exception raised in a kernel is the outcome of the call (on a device, `ProcAgnosticError` aborts).
-/
namespace MParT.Fp
open Worker
open MonotoneIntegrand (fillFlag)

/-- The static members of a class used as `PosFuncType`. PositiveBijectors.h 12–56. -/
structure PosFunc (K : Type) where
  eval : K → K
  deriv : K → K
  deriv2 : K → K

/-- A quadrature on `[0,1]` as the integrand sees it, as `MParT.QProg`. MonotoneComponent.h 625, 724, 797, 968. -/
inductive Prog (K : Type)
  | done (res : List K)
  | call (t : K) (buf : List K) (k : List K → Prog K)
  | bad

namespace Prog
variable {K σ : Type}

/-- Run the program with an integrand that has side effects on a state (its cache) and may throw. MonotoneComponent.h 724. -/
def run (f : σ → K → List K → Res (σ × List K)) : Prog K → σ → Res (σ × List K)
  | done r, s => .ok (s, r)
  | call t buf k, s => do
    let r ← f s t buf
    run f (k r.2) r.1
  | bad, _ => .ub

/-- A fixed rule, as `MParT.QProg.ofRule`. Quadrature.h 297–308. -/
def ofRule [Add K] [Mul K] [Zero K] (fdim : Nat) : List (K × K) → List K → Prog K
  | [], acc => done acc
  | (t, w) :: r, acc =>
    call t (List.replicate fdim 0) fun o => ofRule fdim r (List.zipWith (fun a v => a + w * v) acc o)

end Prog

/-- `MonotoneIntegrand`, MonotoneIntegrand.h 52–109, 208–217. `isInf` is `std::isinf`. -/
structure Integrand (K : Type) where
  w : Worker
  b : Basis K
  g : PosFunc K
  isInf : K → Bool
  pt : List K
  xd : K
  coeffs : List K
  flag : DFlag
  nugget : K
  failOnNaN : Bool

namespace Integrand
variable {K : Type}

/-- The unmanaged view `gradSeg(&output[1], n)`, e.g. MonotoneIntegrand.h 141. -/
def seg (out : List K) (n : Nat) : Res (List K) :=
  if 1 + n ≤ out.length then .ok ((out.drop 1).take n) else .ub

/-- `output` after the view `gradSeg(&output[1], n)` was changed to `s`. MonotoneIntegrand.h 141, 159, 168. -/
def putSeg (out s : List K) (n : Nat) : List K := out.take 1 ++ s ++ out.drop (1 + n)

variable [Add K] [Mul K] [Zero K] [One K]

/-- `output[0] = xd*(gf + nugget)` and the test for infinity, MonotoneIntegrand.h 180–190; without `failOnNaN` a message is printed. -/
def putValue (m : Integrand K) (df : K) (out : List K) : Res (List K) := do
  let out ← Res.setIdx out 0 (m.xd * (m.g.eval df + m.nugget))
  if m.isInf (m.g.eval df) && m.failOnNaN then Res.throw else return out

/-- The derivative with respect to `x_d` in entry `ind`, MonotoneIntegrand.h 193–202. -/
def putDiag (m : Integrand K) (cache : Cache K) (t df : K) (ind : Nat) (out : List K) : Res (List K) := do
  let d2f ← diagonalDerivative m.w cache m.coeffs 2
  Res.setIdx out ind (d2f * (m.xd * t * m.g.deriv df) + (m.g.eval df + m.nugget))

/-- `operator()(t, output)`, MonotoneIntegrand.h 118–203. The state is the cache and `workspace_`. -/
def call (m : Integrand K) (s : Cache K × List K) (t : K) (out : List K) : Res ((Cache K × List K) × List K) := do
  let numTerms ← m.w.multiSet.size
  let dim := m.pt.length
  let cache ← fillCache2 m.w m.b s.1 (t * m.xd) (fillFlag m.flag)
  match m.flag with
  | .parameters => do
    let gs ← seg out numTerms
    let r ← mixedCoeffDerivative m.w cache m.coeffs 1 gs
    let out ← m.putValue r.1 (putSeg out (r.2.map (· * (m.xd * m.g.deriv r.1))) numTerms)
    return ((cache, s.2), out)
  | .mixed => do
    let df ← diagonalDerivative m.w cache m.coeffs 1
    let r2 ← mixedCoeffDerivative m.w cache m.coeffs 2 s.2
    let work := r2.2.mapIdx fun i v => if i < numTerms then v * (m.xd * t * m.g.deriv df) else v
    let gs ← seg out numTerms
    let r ← mixedCoeffDerivative m.w cache m.coeffs 1 gs
    let out ← m.putValue r.1 (putSeg out (List.zipWith (fun v u =>
      (m.xd * t * r2.1 * m.g.deriv2 r.1 + m.g.deriv df) * v + u) r.2 work) numTerms)
    return ((cache, work), out)
  | .input => do
    let gs ← if dim = 0 then Res.ub else seg out dim
    let r ← mixedInputDerivative m.w cache m.coeffs gs
    let out ← m.putValue r.1 (putSeg out (r.2.mapIdx fun i v =>
      if i < dim - 1 then v * (m.xd * m.g.deriv r.1) else v) dim)
    let out ← m.putDiag cache t r.1 dim out
    return ((cache, s.2), out)
  | .diagonal => do
    let df ← diagonalDerivative m.w cache m.coeffs 1
    let out ← m.putValue df out
    let out ← m.putDiag cache t df 1 out
    return ((cache, s.2), out)
  | _ => do
    let df ← diagonalDerivative m.w cache m.coeffs 1
    let out ← m.putValue df out
    return ((cache, s.2), out)

end Integrand

/-- Data members of `MonotoneComponent`, MonotoneComponent.h 63–84, 1059–1063; `quad n` is `quad_` after `SetDim(n)`. The functions of
`double` it uses: `isInf` is `std::isinf`, `nonpos x` is `x <= 0`, `log` is `std::log`, `negInf` is `-infinity`
(MonotoneComponent.h 119–123). -/
structure Component (K : Type) where
  w : Worker
  b : Basis K
  g : PosFunc K
  quad : Nat → Prog K
  useContDeriv : Bool
  nugget : K
  isInf : K → Bool
  nonpos : K → Bool
  log : K → K
  negInf : K

namespace Component
variable {K : Type} [Add K] [Mul K] [Zero K] [One K]

/-- The integrand object built in the kernels, e.g. MonotoneComponent.h 622; its `failOnNaN` is the default `true`
(MonotoneIntegrand.h 217). -/
def integrand (c : Component K) (pt : List K) (xd : K) (coeffs : List K) (flag : DFlag) (nugget : K) : Integrand K :=
  ⟨c.w, c.b, c.g, c.isInf, pt, xd, coeffs, flag, nugget, true⟩

/-- `EvaluateSingle`, MonotoneComponent.h 993–1018: new cache and value. -/
def evaluateSingle (c : Component K) (cache : Cache K) (pt : List K) (xd : K) (coeffs : List K) (nugget : K) :
    Res (Cache K × K) := do
  let r ← (c.quad 1).run (c.integrand pt xd coeffs .none nugget).call (cache, [])
  let v ← Res.idx r.2 0
  let cache ← fillCache2 c.w c.b r.1.1 0 .none
  let e ← evaluate c.w cache coeffs
  return (cache, v + e)

/-- `EvaluateImpl` for one point, MonotoneComponent.h 273–289. -/
def evaluatePt (c : Component K) (scratch : Cache K) (coeffs pt : List K) : Res K := do
  let cache ← fillCache1 c.w c.b scratch pt .none
  let xd ← Res.idx pt (c.w.dim - 1)
  let r ← c.evaluateSingle cache pt xd coeffs 0
  return r.2

/-- `ContinuousDerivative` for one point, MonotoneComponent.h 501–525. -/
def continuousDerivativePt (c : Component K) (scratch : Cache K) (coeffs pt : List K) : Res K := do
  let cache ← fillCache1 c.w c.b scratch pt .none
  let xd ← Res.idx pt (pt.length - 1)
  let cache ← fillCache2 c.w c.b cache xd .diagonal
  let df ← diagonalDerivative c.w cache coeffs 1
  return c.g.eval df

/-- `DiscreteDerivative` for one point, MonotoneComponent.h 605–633. -/
def discreteDerivativePt (c : Component K) (scratch : Cache K) (coeffs pt : List K) : Res (K × K) := do
  let cache ← fillCache1 c.w c.b scratch pt .none
  let xd ← Res.idx pt (pt.length - 1)
  let r ← (c.quad 2).run (c.integrand pt xd coeffs .diagonal c.nugget).call (cache, [])
  let v ← Res.idx r.2 0
  let d ← Res.idx r.2 1
  let cache ← fillCache2 c.w c.b r.1.1 0 .none
  let e ← evaluate c.w cache coeffs
  return (v + e, d)

/-- `view(i) += integral(i+1)` for `i < n`, MonotoneComponent.h 732–733, 805–807, 971–972. -/
def addIntegral (integral : List K) (jac : List K) (i : Nat) : Nat → Res (List K)
  | 0 => .ok jac
  | n + 1 => do
    let j ← Res.idx jac i
    let v ← Res.idx integral (i + 1)
    let jac ← Res.setIdx jac i (j + v)
    addIntegral integral jac (i + 1) n

/-- `CoeffJacobian` for one point, MonotoneComponent.h 703–736. -/
def coeffJacobianPt (c : Component K) (scratch : Cache K) (coeffs pt jac : List K) : Res (K × List K) := do
  let cache ← fillCache1 c.w c.b scratch pt .none
  let xd ← Res.idx pt (pt.length - 1)
  let r ← (c.quad (coeffs.length + 1)).run (c.integrand pt xd coeffs .parameters c.nugget).call (cache, [])
  let v ← Res.idx r.2 0
  let cache ← fillCache2 c.w c.b r.1.1 0 .none
  let e ← coeffDerivative c.w cache coeffs jac
  let jac ← addIntegral r.2 e.2 0 coeffs.length
  return (v + e.1, jac)

/-- `InputJacobian` for one point, MonotoneComponent.h 776–813. -/
def inputJacobianPt (c : Component K) (scratch : Cache K) (coeffs pt jac : List K) : Res (K × List K) := do
  let cache ← fillCache1 c.w c.b scratch pt .input
  let xd ← Res.idx pt (pt.length - 1)
  let r ← (c.quad (c.w.dim + 1)).run (c.integrand pt xd coeffs .input c.nugget).call (cache, [])
  let v ← Res.idx r.2 0
  let cache ← fillCache2 c.w c.b r.1.1 0 .input
  let e ← inputDerivative c.w cache coeffs jac
  let jac ← addIntegral r.2 e.2 0 (c.w.dim - 1)
  let l ← Res.idx r.2 c.w.dim
  let jac ← Res.setIdx jac (c.w.dim - 1) l
  return (v + e.1, jac)

/-- `DiscreteMixedJacobian` for one point, MonotoneComponent.h 946–974. -/
def discreteMixedJacobianPt (c : Component K) (scratch : Cache K) (work coeffs pt jac : List K) : Res (List K) := do
  let cache ← fillCache1 c.w c.b scratch pt .none
  let xd ← Res.idx pt (pt.length - 1)
  let r ← (c.quad (coeffs.length + 1)).run (c.integrand pt xd coeffs .mixed c.nugget).call (cache, work)
  addIntegral r.2 jac 0 coeffs.length

/-- The diagonal derivative used for the log-determinant, MonotoneComponent.h 108–114. -/
def diagDerivPt (c : Component K) (scratch : Cache K) (coeffs pt : List K) : Res K :=
  if c.useContDeriv then c.continuousDerivativePt scratch coeffs pt
  else do
    let r ← c.discreteDerivativePt scratch coeffs pt
    return r.2

/-- `LogDeterminantImpl` for one point, MonotoneComponent.h 105–125. -/
def logDeterminantPt (c : Component K) (scratch : Cache K) (coeffs pt : List K) : Res K := do
  let d ← c.diagDerivPt scratch coeffs pt
  return if c.nonpos d then c.negInf else c.log d

end Component
end MParT.Fp
