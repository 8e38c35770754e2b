import Verif.Spec.Distributions
import Mathlib.MeasureTheory.Measure.WithDensity
import Mathlib.MeasureTheory.Constructions.BorelSpace.Basic
import Mathlib.MeasureTheory.Measure.Lebesgue.Basic
/-!
# Specification: laws of random vectors
-/
namespace MParT.Spec
open MeasureTheory

/-- The measure on vectors of `n` numbers with density `p`. -/
noncomputable def lawOf {n : Nat} (p : (Fin n → ℝ) → ℝ) : Measure (Fin n → ℝ) := volume.withDensity fun x => ENNReal.ofReal (p x)

/-- When `z` is random with density `p`, then `S z` is random with density `q`. -/
def CarriesLaw {n : Nat} (S : (Fin n → ℝ) → (Fin n → ℝ)) (p q : (Fin n → ℝ) → ℝ) : Prop :=
  Measurable S ∧ (lawOf p).map S = lawOf q

/-- The density that `LogDensity` gives at vectors of `n` numbers that follow given leading numbers. -/
noncomputable def densityOn (d : Density) (lead : List ℝ) (n : Nat) (x : Fin n → ℝ) : ℝ := Real.exp (logp d (lead ++ List.ofFn x))

end MParT.Spec
