import Verif.Model.Train
import Verif.Spec.Distributions
/-!
# Specification: training a map and training its components
-/
namespace MParT.Spec

/-- The components of a triangular map, each with its part of the coefficients. -/
def blocks : List CMap → (c : List ℝ) → List (CMap × List ℝ)
  | [], _ => []
  | m :: ms, c => (m, c.take m.numCoeffs) :: blocks ms (c.drop m.numCoeffs)

/-- The rows of the data that are inputs of the map. -/
def inputRows (m : CMap) (data : List (List ℝ)) : List (List ℝ) := data.map (List.take m.inputDim)

/-- The density in the objective `CreateGaussianKLObjective(train, outputDim)` for a map. -/
noncomputable def referenceOf (m : CMap) : Density := Train.gaussianKLDensity m.inputDim m.outputDim

/-- The value of that objective on the rows of the data the map has as inputs. -/
noncomputable def trainingError (m : CMap) (data : List (List ℝ)) (c : List ℝ) : Res (Option ℝ) :=
  KL.objective m (referenceOf m) c (inputRows m data)

/-- The gradient of that objective, the reduction being scheduled in the way `split`. -/
noncomputable def trainingGradient (m : CMap) (data : List (List ℝ)) (c : List ℝ) (split : Parallel.Split) : Res (List ℝ) :=
  KL.trainCoeffGrad m (referenceOf m) c (inputRows m data) split

/-- No coefficients give a smaller value of the objective. -/
def Optimal (m : CMap) (data : List (List ℝ)) (c : List ℝ) : Prop :=
  ∃ v : ℝ, trainingError m data c = .ok (some v) ∧
    ∀ c' : List ℝ, c'.length = m.numCoeffs → ∃ v', trainingError m data c' = .ok (some v') ∧ v ≤ v'

end MParT.Spec
