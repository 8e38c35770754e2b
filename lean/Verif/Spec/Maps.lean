import Verif.Model.Maps
import Mathlib.Analysis.Calculus.Deriv.Basic
import Mathlib.Analysis.SpecialFunctions.Log.Basic
import Mathlib.LinearAlgebra.Matrix.Determinant.Basic
/-!
# Specification: what a map computes, its Jacobian, inverse and log-determinant

For a map object `m` with coefficients `c`, `fn m c` is the function that the public `Evaluate` computes (it allocates a
zeroed output), `logdet m c` its log-determinant. The properties below say what an implementation owes its callers.
-/
namespace MParT.Spec

/-- A vector of zeros, which is what the public functions pass as output. -/
def zeros (n : Nat) : List ℝ := List.replicate n 0

/-- The value of a call that returns normally. -/
def value {α : Type} (d : α) : Res α → α
  | .ok a => a
  | _ => d

/-- The function computed by `Evaluate`. -/
def fn (m : CMap) (c x : List ℝ) : List ℝ := value [] (m.eval c x (zeros m.outputDim))

/-- The number computed by `LogDeterminant` (0 when it is `-infinity` or the call fails). -/
def logdet (m : CMap) (c x : List ℝ) : ℝ := (value none (m.logDet c x (some 0))).getD 0

/-- The vectors computed by `Gradient`, `CoeffGrad`, `LogDeterminantInputGrad`, `LogDeterminantCoeffGrad`. -/
def grad (m : CMap) (c x s : List ℝ) : List ℝ := value [] (m.grad c x s (zeros m.inputDim))
@[inherit_doc grad]
def coeffGrad (m : CMap) (c x s : List ℝ) : List ℝ := value [] (m.coeffGrad c x s (zeros m.numCoeffs))
@[inherit_doc grad]
def ldInputGrad (m : CMap) (c x : List ℝ) : List ℝ := value [] (m.ldInputGrad c x (zeros m.inputDim))
@[inherit_doc grad]
def ldCoeffGrad (m : CMap) (c x : List ℝ) : List ℝ := value [] (m.ldCoeffGrad c x (zeros m.numCoeffs))

/-- Coefficients and input have the sizes the map expects. -/
def Fits (m : CMap) (c x : List ℝ) : Prop := c.length = m.numCoeffs ∧ x.length = m.inputDim

/-- `Evaluate` returns normally, with the same vector of the right length whatever the output buffer contained. -/
def Evaluates (m : CMap) : Prop :=
  ∀ c x, Fits m c x → (fn m c x).length = m.outputDim ∧
    ∀ out : List ℝ, out.length = m.outputDim → m.eval c x out = .ok (fn m c x)

/-- `LogDeterminant` returns normally with a finite number, whatever the output buffer contained. -/
def HasLogDet (m : CMap) : Prop :=
  ∀ c x, Fits m c x → ∀ o, m.logDet c x o = .ok (some (logdet m c x))

/-- Scalar product. -/
def dot (a b : List ℝ) : ℝ := (List.zipWith (· * ·) a b).sum

/-- `γ` is a path of vectors with `n` entries whose derivative at `t₀` is `v`. -/
def Path (n : Nat) (γ : ℝ → List ℝ) (v : List ℝ) (t₀ : ℝ) : Prop :=
  (∀ t, (γ t).length = n) ∧ v.length = n ∧ ∀ i, i < n → HasDerivAt (fun t => (γ t).getD i 0) (v.getD i 0) t₀

/-- `(gc, gx)` is the gradient at `(c, x)` of a scalar function of coefficients and input: along every differentiable path
through `(c, x)` the derivative is the scalar product with the direction. -/
def IsGradient (nc nx : Nat) (f : List ℝ → List ℝ → ℝ) (c x gc gx : List ℝ) : Prop :=
  gc.length = nc ∧ gx.length = nx ∧ ∀ γ δ vc vx t₀, Path nc γ vc t₀ → Path nx δ vx t₀ → γ t₀ = c → δ t₀ = x →
    HasDerivAt (fun t => f (γ t) (δ t)) (dot gc vc + dot gx vx) t₀

/-- `Gradient(x, s)` and `CoeffGrad(x, s)` return normally, whatever the output buffers contained, with the gradient of
`s · T` with respect to the inputs and to the coefficients. (`CoeffGrad` of a map without coefficients is not asked to
return normally; its gradient is then the empty vector.) -/
def Differentiates (m : CMap) : Prop :=
  ∀ c x s, Fits m c x → s.length = m.outputDim →
    (∀ out : List ℝ, out.length = m.inputDim → m.grad c x s out = .ok (grad m c x s)) ∧
    (m.numCoeffs ≠ 0 → ∀ out : List ℝ, out.length = m.numCoeffs → m.coeffGrad c x s out = .ok (coeffGrad m c x s)) ∧
    IsGradient m.numCoeffs m.inputDim (fun c x => dot s (fn m c x)) c x (coeffGrad m c x s) (grad m c x s)

/-- The same for `LogDeterminantInputGrad` and `LogDeterminantCoeffGrad`, which give the gradient of `LogDeterminant`. -/
def DifferentiatesLogDet (m : CMap) : Prop :=
  ∀ c x, Fits m c x →
    (∀ out : List ℝ, out.length = m.inputDim → m.ldInputGrad c x out = .ok (ldInputGrad m c x)) ∧
    (m.numCoeffs ≠ 0 → ∀ out : List ℝ, out.length = m.numCoeffs → m.ldCoeffGrad c x out = .ok (ldCoeffGrad m c x)) ∧
    IsGradient m.numCoeffs m.inputDim (logdet m) c x (ldCoeffGrad m c x) (ldInputGrad m c x)

/-- Both coefficient gradient functions of a layer return normally, also when the layer has no coefficients. -/
def CoeffGradReturns (m : CMap) : Prop :=
  (∀ c x s, Fits m c x → s.length = m.outputDim → ∀ out : List ℝ, out.length = m.numCoeffs →
    m.coeffGrad c x s out = .ok (coeffGrad m c x s)) ∧
  (∀ c x, Fits m c x → ∀ out : List ℝ, out.length = m.numCoeffs → m.ldCoeffGrad c x out = .ok (ldCoeffGrad m c x))

/-- Partial derivatives of the first `n` outputs of `F` with respect to the inputs `off, ..., off + n - 1`. -/
noncomputable def jac (F : List ℝ → List ℝ) (off n : Nat) (x : List ℝ) : Matrix (Fin n) (Fin n) ℝ :=
  Matrix.of fun i j => deriv (fun t => (F (x.set (off + j) t)).getD i 0) (x.getD (off + j) 0)

/-- The square part of the Jacobian: derivatives of the outputs with respect to the last `outputDim` inputs. -/
noncomputable def jacobian (m : CMap) (c x : List ℝ) : Matrix (Fin m.outputDim) (Fin m.outputDim) ℝ :=
  jac (fn m c) (m.inputDim - m.outputDim) m.outputDim x

/-- `LogDeterminant` is the logarithm of the modulus of a non-zero Jacobian determinant. -/
def LogDetIsJacobian (m : CMap) : Prop :=
  ∀ c x, Fits m c x → (jacobian m c x).det ≠ 0 ∧ logdet m c x = Real.log |(jacobian m c x).det|

/-- `Inverse(x1, r)`, where `x1` has `k` entries of which the first `inputDim - outputDim` are the leading inputs, returns
the one `y` with `T(x1, y) = r`. -/
def InvertsFrom (m : CMap) (k : Nat) : Prop :=
  ∀ c x1 r : List ℝ, c.length = m.numCoeffs → x1.length = k → r.length = m.outputDim →
    ∀ out : List ℝ, out.length = m.outputDim → ∃ y : List ℝ, m.inv c x1 r out = .ok y ∧ y.length = m.outputDim ∧
      fn m c (x1.take (m.inputDim - m.outputDim) ++ y) = r ∧
      ∀ y' : List ℝ, y'.length = m.outputDim → fn m c (x1.take (m.inputDim - m.outputDim) ++ y') = r → y' = y

/-- `Inverse(x1, r)` returns some `y` of which `P m c lead y r` holds, `lead` being the leading inputs. -/
def InvertsUpTo (P : CMap → (c lead y r : List ℝ) → Prop) (m : CMap) (k : Nat) : Prop :=
  ∀ c x1 r : List ℝ, c.length = m.numCoeffs → x1.length = k → r.length = m.outputDim →
    ∀ out : List ℝ, out.length = m.outputDim → ∃ y : List ℝ, m.inv c x1 r out = .ok y ∧ y.length = m.outputDim ∧
      P m c (x1.take (m.inputDim - m.outputDim)) y r

/-- `P` holds of every block of `y` and `r`, at the leading inputs followed by the blocks of `y` before it. -/
def blockwise (P : CMap → (c lead y r : List ℝ) → Prop) : List CMap → (c lead y r : List ℝ) → Prop
  | [], _, _, _, _ => True
  | m :: ms, c, lead, y, r => P m (c.take m.numCoeffs) lead (y.take m.outputDim) (r.take m.outputDim) ∧
      blockwise P ms (c.drop m.numCoeffs) (lead ++ y.take m.outputDim) (y.drop m.outputDim) (r.drop m.outputDim)

/-- The outputs of the maps one below the other: every map gets the leading inputs it asks for and the next coefficients. -/
def stacked : List CMap → (c x : List ℝ) → List ℝ
  | [], _, _ => []
  | m :: ms, c, x => fn m (c.take m.numCoeffs) (x.take m.inputDim) ++ stacked ms (c.drop m.numCoeffs) x

/-- The sum of the log-determinants of the maps, each at the leading inputs it asks for. -/
def stackedLogDet : List CMap → (c x : List ℝ) → ℝ
  | [], _, _ => 0
  | m :: ms, c, x => logdet m (c.take m.numCoeffs) (x.take m.inputDim) + stackedLogDet ms (c.drop m.numCoeffs) x

/-- The maps one after the other, the first one first. -/
def composed : List CMap → (c x : List ℝ) → List ℝ
  | [], _, x => x
  | m :: ms, c, x => composed ms (c.drop m.numCoeffs) (fn m (c.take m.numCoeffs) x)

/-- The sum of the log-determinants of the layers at the points they receive. -/
def composedLogDet : List CMap → (c x : List ℝ) → ℝ
  | [], _, _ => 0
  | m :: ms, c, x => logdet m (c.take m.numCoeffs) x
      + composedLogDet ms (c.drop m.numCoeffs) (fn m (c.take m.numCoeffs) x)

end MParT.Spec
