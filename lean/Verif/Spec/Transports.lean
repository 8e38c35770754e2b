import Verif.Spec.Laws
import Verif.Model.DistributionObjects
import Mathlib.Probability.Distributions.Gaussian.Real
import Mathlib.MeasureTheory.Constructions.Pi
/-!
# Specification: distributions transported by maps
-/
namespace MParT.Spec
open MeasureTheory

/-- The step uses a map of `n` variables that keeps the contracts of the library: it evaluates, its gradients and its log-determinant are right, it is
inverted by `Inverse`, and it has as many coefficients as it needs. -/
structure Sound (n : Nat) (s : Distrib.Step) : Prop where
  inputDim : s.map.inputDim = n
  outputDim : s.map.outputDim = n
  coeffs : s.coeffs.length = s.map.numCoeffs
  evaluates : Evaluates s.map
  differentiates : Differentiates s.map
  hasLogDet : HasLogDet s.map
  logDetIsJacobian : LogDetIsJacobian s.map
  inverts : InvertsFrom s.map 0

/-- `N` independent vectors of `n` independent standard normal numbers. -/
noncomputable def normalDraws (n N : Nat) : Measure (Fin N → Fin n → ℝ) :=
  Measure.pi fun _ => Measure.pi fun _ => ProbabilityTheory.gaussianReal 0 1

/-- The columns of an array of samples as the library stores them. -/
def asColumns {n N : Nat} (z : Fin N → Fin n → ℝ) : List (List ℝ) := List.ofFn fun j => List.ofFn (z j)

/-- Every array of samples has the right shape: `N` columns of `n` numbers. -/
def Shaped (n N : Nat) (out : List (List ℝ)) : Prop := out.length = N ∧ ∀ o ∈ out, o.length = n

end MParT.Spec
