import Verif.Spec.Laws
import Mathlib.Probability.Independence.Basic
import Mathlib.InformationTheory.KullbackLeibler.Basic
/-!
# Specification: samples of a law, entropy and divergence
-/
namespace MParT.Spec
open MeasureTheory ProbabilityTheory

/-- `X 0, X 1, …` are independent random vectors with law `μ`. -/
structure SamplesOf {Ω : Type} [MeasurableSpace Ω] (P : Measure Ω) {n : Nat} (μ : Measure (Fin n → ℝ)) (X : ℕ → Ω → Fin n → ℝ) : Prop where
  measurable : ∀ i, Measurable (X i)
  law : ∀ i, P.map (X i) = μ
  independent : iIndepFun X P

/-- The data set of the first `N` samples. -/
def firstSamples {Ω : Type} {n : Nat} (X : ℕ → Ω → Fin n → ℝ) (N : Nat) (ω : Ω) : List (List ℝ) :=
  (List.range N).map fun i => List.ofFn (X i ω)

/-- The differential entropy of a law: minus the mean of the logarithm of its density. -/
noncomputable def entropy {n : Nat} (μ : Measure (Fin n → ℝ)) : ℝ := -∫ x, Real.log (μ.rnDeriv volume x).toReal ∂μ

/-- The law has a density, and the logarithm of the density has a mean. -/
def HasEntropy {n : Nat} (μ : Measure (Fin n → ℝ)) : Prop :=
  μ ≪ volume ∧ Integrable (fun x => Real.log (μ.rnDeriv volume x).toReal) μ

end MParT.Spec
