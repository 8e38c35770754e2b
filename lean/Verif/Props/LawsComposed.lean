import Verif.Props.LawsMaps
import Verif.Props.Composed
/-!
# C100 for compositions
-/
namespace MParT
open Spec MeasureTheory

/-- C100 for compositions of any number of layers: if every layer keeps the contract, the samples that the pullback and the pushforward sampler of the composition make from
Gaussian draws have exactly the densities that the pullback and the pushforward density report, and these integrate to one. -/
theorem C100_composed {maps : List CMap} {checks : Int} {t : CMap} (ht : ComposedMap.new maps checks = .ok t) (hE : ∀ m ∈ maps, Evaluates m)
    (hG : ∀ m ∈ maps, Differentiates m) (hC : ∀ m ∈ maps, CoeffGradReturns m) (hL : ∀ m ∈ maps, HasLogDet m) (hJ : ∀ m ∈ maps, LogDetIsJacobian m)
    (hI : ∀ m ∈ maps, InvertsFrom m 0) {n : Nat} (hn : t.outputDim = n) {μ : Fin n → ℝ} {Sig : Matrix (Fin n) (Fin n) ℝ} {g : Gaussian}
    (hg : Constructed μ Sig g) {c : List ℝ} (hc : c.length = t.numCoeffs) : ∃ pull push, Pullback.new t g.density c = .ok pull ∧ Pushforward.new t g.density c = .ok push ∧
    ∃ S back forth : (Fin n → ℝ) → (Fin n → ℝ),
      (∀ z, g.sampleImpl [List.ofFn z] (Layout.left n 1) = .ok [List.ofFn (S z)] ∧
        Pullback.sample t n c (List.ofFn (S z)) (zeros n) = .ok (List.ofFn (back (S z))) ∧
        Pushforward.sample t n c (List.ofFn (S z)) (zeros n) = .ok (List.ofFn (forth (S z)))) ∧
      Measure.map (fun z => back (S z)) (Measure.pi fun _ => ProbabilityTheory.gaussianReal 0 1) = lawOf (densityOn pull [] n) ∧
      Measure.map (fun z => forth (S z)) (Measure.pi fun _ => ProbabilityTheory.gaussianReal 0 1) = lawOf (densityOn push [] n) ∧
      IsProbabilityMeasure (lawOf (densityOn pull [] n)) ∧ IsProbabilityMeasure (lawOf (densityOn push [] n)) := by
  have hsq : t.inputDim = t.outputDim := by
    obtain ⟨-, -, rfl⟩ := new_composed.mp ht
    rfl
  have hd : g.density.dim = n := (C53_density hg).1
  have h1 := (C45_evaluate ht hE).1
  have h2 := C45_gradient ht hE hG hC
  have h3 := (C45_logDet ht hE hL).1
  have h4 := C45_jacobian ht hE hG hL hJ
  have h5 := C45_inverse ht hE hI
  have q1 : Pullback.new t g.density c = .ok _ := pull_new.mpr ⟨hn.trans hd.symm, rfl⟩
  have q2 : Pushforward.new t g.density c = .ok _ := push_new.mpr ⟨(hsq.trans hn).trans hd.symm, hsq.symm, rfl⟩
  obtain ⟨S, T, a1, a2, a3⟩ := C100_gaussian_pullback hg hn (hsq.trans hn) q1 h1 h2 h3 h4 h5 hc
  obtain ⟨S', T', b1, b2, b3⟩ := C100_gaussian_pushforward hg hn q2 h1 h2 h3 h4 h5 hc
  have hS : S' = S := funext fun z => List.ofFn_injective (by
    have := (b1 z).1.symm.trans (a1 z).1
    simpa using this)
  subst hS
  exact ⟨_, _, q1, q2, S', T, T', fun z => ⟨(a1 z).1, (a1 z).2, (b1 z).2⟩, a2, b2, a3, b3⟩

/-- Non-vacuity: three layers `(x₁, x₂) ↦ (x₁, exp(a) x₂ + x₁²)` with coefficients 1, 2 and 3 over the standard normal distribution, checkpointed with two states. -/
example : ∃ pull push, Pullback.new (ComposedMap.obj exampleLayers 2) (Gaussian.ofDim 2).density [1, 2, 3] = .ok pull ∧
    Pushforward.new (ComposedMap.obj exampleLayers 2) (Gaussian.ofDim 2).density [1, 2, 3] = .ok push ∧
    IsProbabilityMeasure (lawOf (densityOn pull [] 2)) ∧ IsProbabilityMeasure (lawOf (densityOn push [] 2)) := by
  have hE := layers_all (C40_evaluate example_new example_evaluates).1
  have hI := layers_all (P := fun m => InvertsFrom m 0) (C41_inverse example_new example_evaluates example_inverts (k := 0) (by decide) (by decide))
  have hD := layers_all (C43_gradient example_new example_evaluates
    (example_all (C48_identity_gradient (le_refl 1)).1 toy_differentiates))
  have hH := layers_all (C42_sum example_new (example_all (C48_identity_logDet (le_refl 1)).1 toy_hasLogDet)).1
  have hJ := layers_all (C42_jacobian example_new example_evaluates
    (example_all (C48_identity_logDet (le_refl 1)).1 toy_hasLogDet)
    (example_all (C48_identity_logDet (le_refl 1)).2.2 toy_jacobian))
  obtain ⟨pull, push, h1, h2, -, -, -, -, -, -, h3⟩ := C100_composed layers_new hE hD (layers_all example_cg) hH hJ hI (n := 2) rfl (.dim 2) (c := [1, 2, 3])
    (by simp [ComposedMap.obj, ComposedMap.numCoeffs, exampleLayers, TriangularMap.obj, exampleComps, toy, IdentityMap.obj])
  exact ⟨pull, push, h1, h2, h3⟩

end MParT
