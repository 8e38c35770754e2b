import Verif.Model.Distributions
import Verif.Spec.Maps
/-!
# Specification: densities

`logp d x` is the number the public `LogDensity` of a density object returns at `x`.
-/
namespace MParT.Spec

/-- The number computed by `LogDensity` (0 when it is not finite or the call fails). -/
def logp (d : Density) (x : List ℝ) : ℝ := (value none (d.logDensity x (some 0))).getD 0

/-- The vector computed by `LogDensityInputGrad`. -/
def gradp (d : Density) (x : List ℝ) : List ℝ := value [] (d.logDensityInputGrad x)

/-- `LogDensity` returns normally with a finite number, whatever the output buffer contained. -/
def HasDensity (d : Density) : Prop :=
  ∀ x : List ℝ, x.length = d.dim → ∀ o, d.logDensity x o = .ok (some (logp d x))

/-- `LogDensityInputGrad` returns normally with the gradient of `LogDensity`, whatever the output buffer contained. -/
def DifferentiatesDensity (d : Density) : Prop :=
  ∀ x : List ℝ, x.length = d.dim →
    (∀ out : List ℝ, out.length = d.dim → d.inputGrad x out = .ok (gradp d x)) ∧
    IsGradient 0 d.dim (fun _ x => logp d x) [] x [] (gradp d x)

/-- The logarithm of the density of `X` when `T(X)` has log-density `logp d`: the change of variables formula. -/
noncomputable def pulledBack (m : CMap) (d : Density) (c x : List ℝ) : ℝ :=
  logp d (fn m c x) + Real.log |(jacobian m c x).det|

/-- The logarithm of the density of `T(X)` at `T(x)`, when `X` has log-density `logp d`. -/
noncomputable def pushedForward (m : CMap) (d : Density) (c x : List ℝ) : ℝ :=
  logp d x - Real.log |(jacobian m c x).det|

/-- The function of a map on vectors of `n` numbers. -/
def onVec (m : CMap) (c : List ℝ) (n : Nat) (x : Fin n → ℝ) : Fin n → ℝ := colVec n (fn m c (List.ofFn x))

/-- Minus the average over the samples of the pulled back log-density. -/
noncomputable def klObjective (m : CMap) (d : Density) (data : List (List ℝ)) (c : List ℝ) : ℝ :=
  -((data.map (pulledBack m d c)).sum / data.length)

/-- Log-density of the multivariate normal distribution with mean `μ` and covariance matrix `Σ`. -/
noncomputable def normalLogDensity {n : Nat} (μ : Fin n → ℝ) (Sig : Matrix (Fin n) (Fin n) ℝ) (x : Fin n → ℝ) : ℝ :=
  -(1 / 2) * ∑ i, ∑ j, (x i - μ i) * Sig⁻¹ i j * (x j - μ j) - (1 / 2) * (n * Real.log (2 * Real.pi) + Real.log Sig.det)

/-- `L` is the Cholesky factor of `Σ`. -/
def IsCholesky {n : Nat} (L Sig : Matrix (Fin n) (Fin n) ℝ) : Prop :=
  (∀ i j, i < j → L i j = 0) ∧ (∀ i, 0 < L i i) ∧ L * L.transpose = Sig

end MParT.Spec
