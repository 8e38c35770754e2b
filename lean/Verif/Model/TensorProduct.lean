import Verif.Model.Maps
import Verif.Model.Expansion
/-!
# Model of `TensorProductFunction`

Source: `MParT/TensorProductFunction.h`.

Simplifications
* `double` arithmetic is exact;
* `subview(coeffs, pair(a, b))` is the tail of the coefficients from `a`: a range outside the coefficients is undefined
  behaviour, but its upper end does not stop a function that reads further (the views are not checked in a release build).
-/
namespace MParT
open Worker (Cache)

/-- The interface of the factors (that of `MultivariateExpansionWorker`): `InputSize`, `NumCoeffs`, `CacheSize`, `FillCache1`,
`FillCache2`, `Evaluate`, `DiagonalDerivative`, `CoeffDerivative` and `MixedDerivative`; caches and gradients are buffers. MultivariateExpansionWorker.h 118–421; used in TensorProductFunction.h 26–131. -/
structure PFun where
  inputSize : Nat
  numCoeffs : Nat
  cacheSize : Nat
  fillCache1 : (cache : Cache ℝ) → (pt : List ℝ) → (flag : DFlag) → Res (Cache ℝ)
  fillCache2 : (cache : Cache ℝ) → (pt : List ℝ) → (xd : ℝ) → (flag : DFlag) → Res (Cache ℝ)
  evaluate : (cache : Cache ℝ) → (coeffs : List ℝ) → Res ℝ
  diagonalDerivative : (cache : Cache ℝ) → (coeffs : List ℝ) → (order : Nat) → Res ℝ
  coeffDerivative : (cache : Cache ℝ) → (coeffs grad : List ℝ) → Res (ℝ × List ℝ)
  mixedDerivative : (cache : Cache ℝ) → (coeffs : List ℝ) → (order : Nat) → (grad : List ℝ) → Res (ℝ × List ℝ)

namespace TensorProduct

/-- `Kokkos::subview(coeffs, std::make_pair(a, b))`. TensorProductFunction.h 63, 66. -/
def subCoeffs (coeffs : List ℝ) (a b : Nat) : Res (List ℝ) :=
  if a ≤ b ∧ b ≤ coeffs.length then .ok (coeffs.drop a) else .ub

variable (f1 f2 : PFun)

/-- `FillCache1`, TensorProductFunction.h 32–43. With `_dim1 = 0` the index `_dim1 - 1` wraps around. The factors work
on their own parts of the cache. -/
def fillCache1 (cache : Cache ℝ) (pt : List ℝ) (flag : DFlag) : Res (Cache ℝ) := do
  let pt2 ← rows pt f1.inputSize f2.inputSize
  let c1 ← f1.fillCache1 (cache.take f1.cacheSize) pt flag
  let xd ← if f1.inputSize = 0 then .ub else Res.idx pt (f1.inputSize - 1)
  let c1 ← f1.fillCache2 c1 pt xd flag
  let c2 ← f2.fillCache1 (cache.drop f1.cacheSize) pt2 flag
  .ok (c1 ++ c2)

/-- `FillCache2`, TensorProductFunction.h 45–54. -/
def fillCache2 (cache : Cache ℝ) (pt : List ℝ) (xd : ℝ) (flag : DFlag) : Res (Cache ℝ) := do
  let pt2 ← rows pt f1.inputSize (pt.length - f1.inputSize)
  let c2 ← f2.fillCache2 (cache.drop f1.cacheSize) pt2 xd flag
  .ok (cache.take f1.cacheSize ++ c2)

/-- `Evaluate`, TensorProductFunction.h 57–70. The coefficients are split by the numbers of inputs. -/
def evaluate (cache : Cache ℝ) (coeffs : List ℝ) : Res ℝ := do
  let coeffs1 ← subCoeffs coeffs 0 f1.inputSize
  let a ← f1.evaluate (cache.take f1.cacheSize) coeffs1
  let coeffs2 ← subCoeffs coeffs f1.inputSize (f1.inputSize + f2.inputSize)
  let b ← f2.evaluate (cache.drop f1.cacheSize) coeffs2
  .ok (a * b)

/-- `DiagonalDerivative`, TensorProductFunction.h 73–87. -/
def diagonalDerivative (cache : Cache ℝ) (coeffs : List ℝ) (order : Nat) : Res ℝ := do
  let coeffs1 ← subCoeffs coeffs 0 f1.inputSize
  let a ← f1.evaluate (cache.take f1.cacheSize) coeffs1
  let coeffs2 ← subCoeffs coeffs f1.inputSize (f1.inputSize + f2.inputSize)
  let b ← f2.diagonalDerivative (cache.drop f1.cacheSize) coeffs2 order
  .ok (a * b)

/-- `grad.head(n)` and `grad.tail(n)`, with the assertions of Eigen. TensorProductFunction.h 98, 102. -/
def head (grad : List ℝ) (n : Nat) : Res (List ℝ) := if n ≤ grad.length then .ok (grad.take n) else .throw
@[inherit_doc head]
def tail (grad : List ℝ) (n : Nat) : Res (List ℝ) := if n ≤ grad.length then .ok (grad.drop (grad.length - n)) else .throw

/-- `CoeffDerivative`, TensorProductFunction.h 90–109. `gradHead` and `gradTail` are parts of `grad`. -/
def coeffDerivative (cache : Cache ℝ) (coeffs grad : List ℝ) : Res (ℝ × List ℝ) := do
  let coeffs1 ← subCoeffs coeffs 0 f1.inputSize
  let gradHead ← head grad f1.numCoeffs
  let (a, gradHead) ← f1.coeffDerivative (cache.take f1.cacheSize) coeffs1 gradHead
  let grad := putRows grad 0 f1.numCoeffs gradHead
  let coeffs2 ← subCoeffs coeffs f1.inputSize (f1.inputSize + f2.inputSize)
  let gradTail ← tail grad f2.numCoeffs
  let (b, gradTail) ← f2.coeffDerivative (cache.drop f1.cacheSize) coeffs2 gradTail
  let grad := putRows grad (grad.length - f2.numCoeffs) f2.numCoeffs gradTail
  let gradHead ← head grad f1.numCoeffs
  let grad := putRows grad 0 f1.numCoeffs (gradHead.map (· * b))
  let gradTail ← tail grad f2.numCoeffs
  let grad := putRows grad (grad.length - f2.numCoeffs) f2.numCoeffs (gradTail.map (· * a))
  .ok (a * b, grad)

/-- `MixedDerivative`, TensorProductFunction.h 111–131. -/
def mixedDerivative (cache : Cache ℝ) (coeffs : List ℝ) (order : Nat) (grad : List ℝ) : Res (ℝ × List ℝ) := do
  let coeffs1 ← subCoeffs coeffs 0 f1.inputSize
  let gradHead ← head grad f1.numCoeffs
  let (a, gradHead) ← f1.coeffDerivative (cache.take f1.cacheSize) coeffs1 gradHead
  let grad := putRows grad 0 f1.numCoeffs gradHead
  let coeffs2 ← subCoeffs coeffs f1.inputSize (f1.inputSize + f2.inputSize)
  let gradTail ← tail grad f2.numCoeffs
  let (b, gradTail) ← f2.mixedDerivative (cache.drop f1.cacheSize) coeffs2 order gradTail
  let grad := putRows grad (grad.length - f2.numCoeffs) f2.numCoeffs gradTail
  let gradHead ← head grad f1.numCoeffs
  let grad := putRows grad 0 f1.numCoeffs (gradHead.map (· * b))
  let gradTail ← tail grad f2.numCoeffs
  let grad := putRows grad (grad.length - f2.numCoeffs) f2.numCoeffs (gradTail.map (· * a))
  .ok (a * b, grad)

/-- `TensorProductFunction(f1, f2)`, TensorProductFunction.h 16–30. -/
def obj : PFun where
  inputSize := f1.inputSize + f2.inputSize
  numCoeffs := f1.numCoeffs + f2.numCoeffs
  cacheSize := f1.cacheSize + f2.cacheSize
  fillCache1 := fillCache1 f1 f2
  fillCache2 := fillCache2 f1 f2
  evaluate := evaluate f1 f2
  diagonalDerivative := diagonalDerivative f1 f2
  coeffDerivative := coeffDerivative f1 f2
  mixedDerivative := mixedDerivative f1 f2

end TensorProduct

/-- `MultivariateExpansionWorker` as a factor. Its function is called `MixedCoeffDerivative`, not `MixedDerivative`, so
`TensorProductFunction::MixedDerivative` cannot be instantiated with it; the other functions can. MultivariateExpansionWorker.h 118–421. -/
def Worker.pfun (w : Worker) (b : Basis ℝ) (numCoeffs : Nat) : PFun where
  inputSize := w.dim
  numCoeffs := numCoeffs
  cacheSize := w.cacheSize
  fillCache1 := w.fillCache1 b
  fillCache2 cache _ xd flag := w.fillCache2 b cache xd flag
  evaluate := w.evaluate
  diagonalDerivative := w.diagonalDerivative
  coeffDerivative := w.coeffDerivative
  mixedDerivative := w.mixedCoeffDerivative
end MParT
