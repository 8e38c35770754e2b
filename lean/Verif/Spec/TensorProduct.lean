import Mathlib.Analysis.Calculus.IteratedDeriv.Lemmas
import Verif.Model.TensorProduct
import Verif.Spec.Maps
/-!
# Specification: parameterised functions with a cache

What it means that an object with the interface of `MultivariateExpansionWorker` computes the function `F(c, x)` and its
derivatives, and the product of two functions of separate inputs and separate coefficients.
-/
namespace MParT.Spec
open Worker (Cache)

/-- The order of the derivatives in the last input that `FillCache2` prepares. -/
def orderOf : DFlag → Nat
  | .none | .parameters | .mixed => 0
  | .diagonal | .input => 1
  | .diagonal2 | .mixedInput => 2

/-- `∂^k F/∂x_n^k` at `x`, the last of the `n` inputs. -/
noncomputable def lastDeriv (n : Nat) (F : List ℝ → List ℝ → ℝ) (k : Nat) (c x : List ℝ) : ℝ :=
  iteratedDeriv k (fun t => F c (x.take (n - 1) ++ [t])) (x.getD (n - 1) 0)

/-- `g` is the gradient of `f` at `c`. -/
def IsGradientAt (nc : Nat) (f : List ℝ → ℝ) (c g : List ℝ) : Prop :=
  g.length = nc ∧ ∀ γ v t₀, Path nc γ v t₀ → γ t₀ = c → HasDerivAt (fun t => f (γ t)) (dot g v) t₀

/-- The results of the four evaluation functions on the cache `cache` are those of `F` at the input `x`, with derivatives up
to order `r`, for any coefficients (only the first `NumCoeffs()` are used) and whatever the gradient buffer contained. -/
def EvaluatesAt (f : PFun) (F : List ℝ → List ℝ → ℝ) (cache : Cache ℝ) (x : List ℝ) (r : Nat) : Prop :=
  ∀ coeffs : List ℝ, f.numCoeffs ≤ coeffs.length →
    let c := coeffs.take f.numCoeffs
    f.evaluate cache coeffs = .ok (F c x) ∧
    (∀ k, 1 ≤ k → k ≤ r → f.diagonalDerivative cache coeffs k = .ok (lastDeriv f.inputSize F k c x)) ∧
    (∀ grad : List ℝ, grad.length = f.numCoeffs → ∃ g, f.coeffDerivative cache coeffs grad = .ok (F c x, g) ∧
      IsGradientAt f.numCoeffs (F · x) c g) ∧
    (∀ k, 1 ≤ k → k ≤ r → ∀ grad : List ℝ, grad.length = f.numCoeffs →
      ∃ g, f.mixedDerivative cache coeffs k grad = .ok (lastDeriv f.inputSize F k c x, g) ∧
        IsGradientAt f.numCoeffs (fun c => lastDeriv f.inputSize F k c x) c g)

/-- The object computes `F`: after `FillCache1` at any point on any buffer of `CacheSize()` entries and then any number of
calls of `FillCache2` with other last inputs, the evaluation functions give the values and derivatives of `F` at the last
point. The points given to the two functions may be different vectors with the same leading entries. -/
def Represents (f : PFun) (F : List ℝ → List ℝ → ℝ) : Prop :=
  0 < f.inputSize ∧ ∀ (cache : Cache ℝ) (pt : List ℝ) (flag1 : DFlag), cache.length = f.cacheSize →
    f.inputSize ≤ pt.length → flag1 ≠ .mixed → ∃ c₁, f.fillCache1 cache pt flag1 = .ok c₁ ∧
    ∀ pt' : List ℝ, f.inputSize ≤ pt'.length → pt'.take (f.inputSize - 1) = pt.take (f.inputSize - 1) →
    ∀ calls : List (ℝ × DFlag), (∀ h ∈ calls, h.2 ≠ .mixed) → ∃ c₂,
      calls.foldlM (fun c h => f.fillCache2 c pt' h.1 h.2) c₁ = Res.ok c₂ ∧
      ∀ xd flag2, flag2 ≠ .mixed → ∃ c₃, f.fillCache2 c₂ pt' xd flag2 = .ok c₃ ∧ c₃.length = f.cacheSize ∧
        EvaluatesAt f F c₃ (pt.take (f.inputSize - 1) ++ [xd]) (orderOf flag2)

/-- `F₁(x₁; c₁) F₂(x₂; c₂)` with `x₁, x₂` and `c₁, c₂` the consecutive blocks of the inputs and the coefficients. -/
def productOf (n₁ d₁ : Nat) (F₁ F₂ : List ℝ → List ℝ → ℝ) (c x : List ℝ) : ℝ :=
  F₁ (c.take n₁) (x.take d₁) * F₂ (c.drop n₁) (x.drop d₁)

end MParT.Spec
