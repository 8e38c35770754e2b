import Verif.Spec.Maps
import Verif.Model.Factory
/-!
# Specification: when a function determines its coefficients
-/
namespace MParT.Spec

/-- With either coefficients `Evaluate` does the same at every point. -/
def SameValues (T : CMap) (c c' : List ℝ) : Prop :=
  ∀ x out : List ℝ, x.length = T.inputDim → out.length = T.outputDim → T.eval c x out = T.eval c' x out

/-- With either coefficients `LogDeterminant` does the same at every point. -/
def SameLogDets (T : CMap) (c c' : List ℝ) : Prop :=
  ∀ (x : List ℝ) (out : Option ℝ), x.length = T.inputDim → T.logDet c x out = T.logDet c' x out

/-- Different coefficients give different values somewhere. -/
def Identifiable (T : CMap) : Prop :=
  ∀ c c' : List ℝ, c.length = T.numCoeffs → c'.length = T.numCoeffs → SameValues T c c' → c = c'

/-- Different coefficients give different values or different log-determinants somewhere. -/
def IdentifiableWithLogDet (T : CMap) : Prop :=
  ∀ c c' : List ℝ, c.length = T.numCoeffs → c'.length = T.numCoeffs → SameValues T c c' → SameLogDets T c c' → c = c'

/-- 0 lies within the bounds of the basis. -/
def ZeroWithin (o : MapOptions) : Prop := (∀ l ∈ o.basisLB, l ≤ 0) ∧ ∀ u ∈ o.basisUB, 0 ≤ u

end MParT.Spec
