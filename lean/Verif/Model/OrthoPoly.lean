import Verif.Model.Res
import Mathlib.Algebra.Field.Defs
/-!
# Model of `OrthogonalPolynomial`, `HermiteFunction` and `LinearizedBasis`

Source: `MParT/OrthogonalPolynomial.h`, `MParT/HermiteFunction.h`, `MParT/LinearizedBasis.h`.

Simplifications
* `double` arithmetic is exact arithmetic in a field `K` (`ℝ` where `exp`, `sqrt` or `pow` occur);
* a pointer argument is a list: writing or reading outside it is `ub`.
-/
namespace MParT

/-- The `Mixer` template parameter: recurrence coefficients, first two polynomials, derivative of the
first, and normalisation (the members called by OrthogonalPolynomial.h 29–278). -/
structure Mixer (K : Type) where
  ak : Nat → K
  bk : Nat → K
  ck : Nat → K
  phi0 : K → K
  phi1 : K → K
  phi1Deriv : K → K
  normalization : Nat → K

/-- `OrthogonalPolynomial<Mixer>`: the mixer and `normalize_`, OrthogonalPolynomial.h 17–22, 290. -/
structure OrthoPoly (K : Type) extends Mixer K where
  normalize : Bool

namespace OrthoPoly
variable {K : Type} [Field K]

/-- `output[order] = (ak*x + bk)*output[order-1] - ck*output[order-2]` for `order..order+n-1`,
OrthogonalPolynomial.h 34–35. -/
def valLoop (p : OrthoPoly K) (x : K) (out : List K) (order : Nat) : Nat → Res (List K)
  | 0 => .ok out
  | n + 1 => do
    let v1 ← Res.idx out (order - 1)
    let v2 ← Res.idx out (order - 2)
    let out' ← Res.setIdx out order ((p.ak order * x + p.bk order) * v1 - p.ck order * v2)
    valLoop p x out' (order + 1) n

/-- `a[order] /= Normalization(order)` for `order..order+n-1`, OrthogonalPolynomial.h 38–40. -/
def normLoop (p : OrthoPoly K) (a : List K) (order : Nat) : Nat → Res (List K)
  | 0 => .ok a
  | n + 1 => do
    let v ← Res.idx a order
    let a' ← Res.setIdx a order (v / p.normalization order)
    normLoop p a' (order + 1) n

/-- The trailing `if(normalize_)` block on one array. OrthogonalPolynomial.h 37, 76, 110, 147. -/
def finish (p : OrthoPoly K) (a : List K) (maxOrder : Nat) : Res (List K) :=
  if p.normalize then normLoop p a 0 (maxOrder + 1) else .ok a

/-- Entries 0 and 1, OrthogonalPolynomial.h 29–32. -/
def init (a : List K) (maxOrder : Nat) (v0 v1 : K) : Res (List K) := do
  let a ← Res.setIdx a 0 v0
  if maxOrder > 0 then Res.setIdx a 1 v1 else .ok a

/-- `EvaluateAll`, OrthogonalPolynomial.h 25–42. -/
def evaluateAll (p : OrthoPoly K) (output : List K) (maxOrder : Nat) (x : K) : Res (List K) := do
  let o ← init output maxOrder (p.phi0 x) (p.phi1 x)
  let o ← valLoop p x o 2 (maxOrder - 1)
  finish p o maxOrder

/-- Loop of `EvaluateDerivatives(derivs, ..)`, OrthogonalPolynomial.h 65–74, with the scalars `oldVal`
and `currVal`. -/
def derivLoop (p : OrthoPoly K) (x : K) (oldVal currVal : K) (derivs : List K) (order : Nat) :
    Nat → Res (List K)
  | 0 => .ok derivs
  | n + 1 => do
    let oldOldVal := oldVal
    let oldVal := currVal
    let currVal := (p.ak order * x + p.bk order) * oldVal - p.ck order * oldOldVal
    let d1 ← Res.idx derivs (order - 1)
    let d2 ← Res.idx derivs (order - 2)
    let derivs' ← Res.setIdx derivs order
      (p.ak order * oldVal + (p.ak order * x + p.bk order) * d1 - p.ck order * d2)
    derivLoop p x oldVal currVal derivs' (order + 1) n

/-- `EvaluateDerivatives(double* derivs, ..)`, OrthogonalPolynomial.h 47–82. -/
def evaluateDerivs (p : OrthoPoly K) (derivs : List K) (maxDegree : Nat) (x : K) : Res (List K) := do
  let d ← init derivs maxDegree 0 (p.phi1Deriv x)
  let d ← derivLoop p x (p.phi0 x) (p.phi1 x) d 2 (maxDegree - 1)
  finish p d maxDegree

/-- Loop of `EvaluateDerivatives(vals, derivs, ..)`, OrthogonalPolynomial.h 102–108. -/
def valDerivLoop (p : OrthoPoly K) (x : K) (vals derivs : List K) (order : Nat) :
    Nat → Res (List K × List K)
  | 0 => .ok (vals, derivs)
  | n + 1 => do
    let v1 ← Res.idx vals (order - 1)
    let v2 ← Res.idx vals (order - 2)
    let vals' ← Res.setIdx vals order ((p.ak order * x + p.bk order) * v1 - p.ck order * v2)
    let w1 ← Res.idx vals' (order - 1)
    let d1 ← Res.idx derivs (order - 1)
    let d2 ← Res.idx derivs (order - 2)
    let derivs' ← Res.setIdx derivs order
      (p.ak order * w1 + (p.ak order * x + p.bk order) * d1 - p.ck order * d2)
    valDerivLoop p x vals' derivs' (order + 1) n

/-- `EvaluateDerivatives(double* vals, double* derivs, ..)`, OrthogonalPolynomial.h 87–118. -/
def evaluateDerivatives (p : OrthoPoly K) (vals derivs : List K) (maxOrder : Nat) (x : K) :
    Res (List K × List K) := do
  let v ← init vals maxOrder (p.phi0 x) (p.phi1 x)
  let d ← init derivs maxOrder 0 (p.phi1Deriv x)
  let r ← valDerivLoop p x v d 2 (maxOrder - 1)
  let v ← finish p r.1 maxOrder
  let d ← finish p r.2 maxOrder
  return (v, d)

/-- Loop of `EvaluateSecondDerivatives`, OrthogonalPolynomial.h 138–145. -/
def secondLoop (p : OrthoPoly K) (x : K) (vals derivs second : List K) (order : Nat) :
    Nat → Res (List K × List K × List K)
  | 0 => .ok (vals, derivs, second)
  | n + 1 => do
    let v1 ← Res.idx vals (order - 1)
    let v2 ← Res.idx vals (order - 2)
    let vals' ← Res.setIdx vals order ((p.ak order * x + p.bk order) * v1 - p.ck order * v2)
    let w1 ← Res.idx vals' (order - 1)
    let d1 ← Res.idx derivs (order - 1)
    let d2 ← Res.idx derivs (order - 2)
    let derivs' ← Res.setIdx derivs order
      (p.ak order * w1 + (p.ak order * x + p.bk order) * d1 - p.ck order * d2)
    let e1 ← Res.idx derivs' (order - 1)
    let s1 ← Res.idx second (order - 1)
    let s2 ← Res.idx second (order - 2)
    let second' ← Res.setIdx second order
      (p.ak order * e1 + p.ak order * e1 + (p.ak order * x + p.bk order) * s1 - p.ck order * s2)
    secondLoop p x vals' derivs' second' (order + 1) n

/-- `EvaluateSecondDerivatives`, OrthogonalPolynomial.h 120–156. -/
def evaluateSecondDerivatives (p : OrthoPoly K) (vals derivs second : List K) (maxOrder : Nat) (x : K) :
    Res (List K × List K × List K) := do
  let v ← init vals maxOrder (p.phi0 x) (p.phi1 x)
  let d ← init derivs maxOrder 0 (p.phi1Deriv x)
  let s ← init second maxOrder 0 0
  let r ← secondLoop p x v d s 2 (maxOrder - 1)
  let v ← finish p r.1 maxOrder
  let d ← finish p r.2.1 maxOrder
  let s ← finish p r.2.2 maxOrder
  return (v, d, s)

/-- Loop `for(int k=order-1; k>=0; k--)` of the Clenshaw algorithm, OrthogonalPolynomial.h 180–187: the
remaining values of `k` are `n-1, …, 0`; the state is `(yk2, yk1, yk)`. -/
def clenshaw (p : OrthoPoly K) (x : K) (yk2 yk1 yk : K) : Nat → K × K × K
  | 0 => (yk2, yk1, yk)
  | k + 1 =>
    let yk2 := yk1
    let yk1 := yk
    let alpha := p.ak (k + 1) * x + p.bk (k + 1)
    let beta := -p.ck (k + 2)
    clenshaw p x yk2 yk1 (alpha * yk1 + beta * yk2) k

/-- `Evaluate(order, x)`, OrthogonalPolynomial.h 160–192. -/
def evaluate (p : OrthoPoly K) (order : Nat) (x : K) : K :=
  let norm := if p.normalize then p.normalization order else 1
  if order = 0 then p.phi0 x / norm
  else if order = 1 then p.phi1 x / norm
  else
    let r := clenshaw p x 0 0 1 order
    let beta := -p.ck 2
    (r.2.1 * p.phi1 x + beta * p.phi0 x * r.1) / norm

/-- Loop of `Derivative`, OrthogonalPolynomial.h 211–224; state `lag1_val, next_val, lag1_deriv, next_deriv`. -/
def derivativeLoop (p : OrthoPoly K) (x : K) (lag1Val nextVal lag1Deriv nextDeriv : K) (i : Nat) : Nat → K
  | 0 => nextDeriv
  | n + 1 =>
    let lag2Val := lag1Val
    let lag1Val := nextVal
    let nextVal := (p.ak i * x + p.bk i) * lag1Val - p.ck i * lag2Val
    let lag2Deriv := lag1Deriv
    let lag1Deriv := nextDeriv
    let nextDeriv := p.ak i * lag1Val + (p.ak i * x + p.bk i) * lag1Deriv - p.ck i * lag2Deriv
    derivativeLoop p x lag1Val nextVal lag1Deriv nextDeriv (i + 1) n

/-- `Derivative(order, x)`, OrthogonalPolynomial.h 194–232. -/
def derivative (p : OrthoPoly K) (order : Nat) (x : K) : K :=
  if order = 0 then 0
  else if order = 1 then p.phi1Deriv x
  else
    let d := derivativeLoop p x (p.phi0 x) (p.phi1 x) 0 (p.phi1Deriv x) 2 (order - 1)
    if p.normalize then d / p.normalization order else d

/-- Loop of `SecondDerivative`, OrthogonalPolynomial.h 252–270. -/
def secondDerivativeLoop (p : OrthoPoly K) (x : K)
    (lag1Val nextVal lag1Deriv nextDeriv lag1Deriv2 nextDeriv2 : K) (i : Nat) : Nat → K
  | 0 => nextDeriv2
  | n + 1 =>
    let lag2Val := lag1Val
    let lag1Val := nextVal
    let nextVal := (p.ak i * x + p.bk i) * lag1Val - p.ck i * lag2Val
    let lag2Deriv := lag1Deriv
    let lag1Deriv := nextDeriv
    let nextDeriv := p.ak i * lag1Val + (p.ak i * x + p.bk i) * lag1Deriv - p.ck i * lag2Deriv
    let lag2Deriv2 := lag1Deriv2
    let lag1Deriv2 := nextDeriv2
    let nextDeriv2 := p.ak i * lag1Deriv + p.ak i * lag1Deriv + (p.ak i * x + p.bk i) * lag1Deriv2
      - p.ck i * lag2Deriv2
    secondDerivativeLoop p x lag1Val nextVal lag1Deriv nextDeriv lag1Deriv2 nextDeriv2 (i + 1) n

/-- `SecondDerivative(order, x)`, OrthogonalPolynomial.h 234–278. -/
def secondDerivative (p : OrthoPoly K) (order : Nat) (x : K) : K :=
  if order ≤ 1 then 0
  else
    let d := secondDerivativeLoop p x (p.phi0 x) (p.phi1 x) 0 (p.phi1Deriv x) 0 0 2 (order - 1)
    if p.normalize then d / p.normalization order else d

end OrthoPoly
end MParT
