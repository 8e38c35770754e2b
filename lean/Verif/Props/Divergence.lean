import Verif.Props.Laws
import Verif.Props.Objective
import Verif.Spec.Divergence
import Mathlib.Probability.StrongLaw
import Mathlib.Probability.Independence.InfinitePi
/-!
# C102: the training objective estimates the Kullback–Leibler divergence
-/
namespace MParT
open Spec MeasureTheory ProbabilityTheory Filter Topology
variable {m : CMap} {d : Density}

/-- A function with a gradient everywhere is continuous. -/
theorem continuous_of_gradient {k n : Nat} {F : List ℝ → List ℝ → ℝ} {c : List ℝ} (hc : c.length = k)
    (h : ∀ x : Fin n → ℝ, ∃ gc gx, IsGradient k n F c (List.ofFn x) gc gx) : Continuous fun x : Fin n → ℝ => F c (List.ofFn x) := by
  refine continuous_iff_continuousAt.mpr fun x => ?_
  obtain ⟨gc, gx, h1, h2, h3⟩ := h x
  let L : (Fin n → ℝ) →L[ℝ] ℝ := LinearMap.toContinuousLinearMap
    { toFun := fun v => ∑ i : Fin n, gx.getD i 0 * v i
      map_add' := fun v w => by simp [mul_add, Finset.sum_add_distrib]
      map_smul' := fun a v => by simp only [Pi.smul_apply, smul_eq_mul, RingHom.id_apply, Finset.mul_sum]; congr 1; funext i; ring }
  have hF : HasFDerivAt (fun x : Fin n → ℝ => F c (List.ofFn x)) L x := by
    refine hasFDerivAt_of_paths fun δ v h0 hδ => ?_
    have hδ' := hasDerivAt_pi.mp hδ
    have hp1 : Path n (fun t => List.ofFn (δ t)) (List.ofFn v) 0 := by
      refine ⟨fun t => by simp, by simp, fun j hj => ?_⟩
      have e : (fun t => (List.ofFn (δ t)).getD j 0) = fun t => δ t ⟨j, hj⟩ := funext fun t => getD_ofFn (δ t) ⟨j, hj⟩
      rw [e]
      exact (hδ' ⟨j, hj⟩).congr_deriv (getD_ofFn v ⟨j, hj⟩).symm
    have hp2 := path_const c 0
    rw [hc] at hp2
    refine (h3 _ _ _ _ 0 hp2 hp1 rfl (by rw [h0])).congr_deriv ?_
    rw [dot_comm' h1 (by simp [zeros]), dot_zeros, zero_add, dot_eq_sum (n := n) h2 (by simp),
      ← Fin.sum_univ_eq_sum_range (fun k => gx.getD k 0 * (List.ofFn v).getD k 0)]
    exact Finset.sum_congr rfl fun i _ => by rw [getD_ofFn]
  exact hF.continuousAt

/-- The pulled back log-density is continuous. -/
theorem pulledBack_continuous {n : Nat} {c : List ℝ} (hi : m.inputDim = n) (hdim : m.outputDim = d.dim) (hE : Evaluates m) (hL : HasLogDet m)
    (hJ : LogDetIsJacobian m) (hDm : Differentiates m) (hDL : DifferentiatesLogDet m) (hDd : DifferentiatesDensity d)
    (hc : c.length = m.numCoeffs) : Continuous fun x : Fin n → ℝ => pulledBack m d c (List.ofFn x) := by
  refine continuous_of_gradient (F := pulledBack m d) hc fun x => ?_
  obtain ⟨gc, gx, -, -, h⟩ := C52_pullback_gradient hdim hE hL hJ hDm hDL hDd (x := List.ofFn x) ⟨hc, by simp [hi]⟩
  rw [hi] at h
  exact ⟨gc, gx, h⟩

theorem firstSamples_sum {Ω : Type} {n : Nat} (X : ℕ → Ω → Fin n → ℝ) (N : Nat) (ω : Ω) (f : List ℝ → ℝ) :
    ((firstSamples X N ω).map f).sum = ∑ i ∈ Finset.range N, f (List.ofFn (X i ω)) := by
  rw [firstSamples, List.map_map, Finset.sum_range]
  rw [← Finset.sum_range fun i => f (List.ofFn (X i ω))]
  induction N with
  | zero => rfl
  | succ k ih => rw [List.range_succ, List.map_append, List.sum_append, ih, Finset.sum_range_succ]; simp

section
variable {Ω : Type} [MeasurableSpace Ω] {P : Measure Ω} [IsProbabilityMeasure P] {n : Nat} {μ : Measure (Fin n → ℝ)} {X : ℕ → Ω → Fin n → ℝ}

theorem objective_samples {c : List ℝ} (hi : m.inputDim = n) (hdim : m.outputDim = d.dim) (hE : Evaluates m) (hL : HasLogDet m)
    (hJ : LogDetIsJacobian m) (hD : HasDensity d) (hc : c.length = m.numCoeffs) (N : Nat) (ω : Ω) :
    KL.objective m d c (firstSamples X (N + 1) ω) = .ok (some (klObjective m d (firstSamples X (N + 1) ω) c)) :=
  C54_value hdim hE hL hJ hD hc (by simp [firstSamples, hi]) (by simp [firstSamples])

/-- C102: the objective of `N + 1` independent samples converges, with probability one, to minus the mean of the log-density of the pullback. -/
theorem C102_limit {c : List ℝ} {p : Density} (hp : Pullback.new m d c = .ok p) (hi : m.inputDim = n) (hE : Evaluates m) (hL : HasLogDet m)
    (hJ : LogDetIsJacobian m) (hDm : Differentiates m) (hDL : DifferentiatesLogDet m) (hD : HasDensity d) (hDd : DifferentiatesDensity d)
    (hc : c.length = m.numCoeffs) (hX : SamplesOf P μ X) (hint : Integrable (fun x => logp p (List.ofFn x)) μ) :
    ∃ v : ℕ → Ω → ℝ, (∀ N ω, KL.objective m d c (firstSamples X (N + 1) ω) = .ok (some (v N ω))) ∧
      ∀ᵐ ω ∂P, Tendsto (fun N => v N ω) atTop (𝓝 (-∫ x, logp p (List.ofFn x) ∂μ)) := by
  obtain ⟨hdim, -⟩ := pull_new.mp hp
  have hval : ∀ x : Fin n → ℝ, logp p (List.ofFn x) = pulledBack m d c (List.ofFn x) := by
    intro x
    rw [logp, C52_pullback hp hE hL hJ hD ⟨hc, by simp [hi]⟩]
    rfl
  have hmeas := (pulledBack_continuous hi hdim hE hL hJ hDm hDL hDd hc).measurable
  simp only [hval] at hint ⊢
  refine ⟨fun N ω => klObjective m d (firstSamples X (N + 1) ω) c, fun N ω => objective_samples hi hdim hE hL hJ hD hc N ω, ?_⟩
  have hid : ∀ i, IdentDistrib (X i) (X 0) P P := fun i =>
    ⟨(hX.measurable i).aemeasurable, (hX.measurable 0).aemeasurable, (hX.law i).trans (hX.law 0).symm⟩
  have hslln := strong_law_ae_real (μ := P) (fun i ω => pulledBack m d c (List.ofFn (X i ω)))
    (by
      rw [← hX.law 0] at hint
      exact hint.comp_measurable (hX.measurable 0))
    (fun i j hij => (hX.independent.indepFun hij).comp hmeas hmeas) (fun i => (hid i).comp hmeas)
  have hmean : ∫ ω, pulledBack m d c (List.ofFn (X 0 ω)) ∂P = ∫ x, pulledBack m d c (List.ofFn x) ∂μ := by
    rw [← hX.law 0, integral_map (hX.measurable 0).aemeasurable hmeas.aestronglyMeasurable]
  filter_upwards [hslln] with ω hω
  have h1 := ((tendsto_add_atTop_iff_nat 1).mpr hω).neg
  rw [hmean] at h1
  refine h1.congr fun N => ?_
  rw [klObjective, firstSamples_sum]
  simp [firstSamples]

/-- C102: for any number of samples the objective is right on average. -/
theorem C102_unbiased {c : List ℝ} {p : Density} (hp : Pullback.new m d c = .ok p) (hi : m.inputDim = n) (hE : Evaluates m) (hL : HasLogDet m)
    (hJ : LogDetIsJacobian m) (hDm : Differentiates m) (hDL : DifferentiatesLogDet m) (hD : HasDensity d) (hDd : DifferentiatesDensity d)
    (hc : c.length = m.numCoeffs) (hX : SamplesOf P μ X) (hint : Integrable (fun x => logp p (List.ofFn x)) μ) (N : Nat) :
    ∃ v : Ω → ℝ, (∀ ω, KL.objective m d c (firstSamples X (N + 1) ω) = .ok (some (v ω))) ∧ Integrable v P ∧
      ∫ ω, v ω ∂P = -∫ x, logp p (List.ofFn x) ∂μ := by
  obtain ⟨hdim, -⟩ := pull_new.mp hp
  have hval : ∀ x : Fin n → ℝ, logp p (List.ofFn x) = pulledBack m d c (List.ofFn x) := by
    intro x
    rw [logp, C52_pullback hp hE hL hJ hD ⟨hc, by simp [hi]⟩]
    rfl
  have hmeas := (pulledBack_continuous hi hdim hE hL hJ hDm hDL hDd hc).measurable
  simp only [hval] at hint ⊢
  have hI : ∀ i, Integrable (fun ω => pulledBack m d c (List.ofFn (X i ω))) P := fun i => by
    rw [← hX.law i] at hint
    exact hint.comp_measurable (hX.measurable i)
  have hm : ∀ i, ∫ ω, pulledBack m d c (List.ofFn (X i ω)) ∂P = ∫ x, pulledBack m d c (List.ofFn x) ∂μ := fun i => by
    rw [← hX.law i, integral_map (hX.measurable i).aemeasurable hmeas.aestronglyMeasurable]
  have e : (fun ω => klObjective m d (firstSamples X (N + 1) ω) c)
      = fun ω => -((∑ i ∈ Finset.range (N + 1), pulledBack m d c (List.ofFn (X i ω))) / (N + 1 : ℝ)) := by
    funext ω
    rw [klObjective, firstSamples_sum]
    simp [firstSamples]
  refine ⟨fun ω => klObjective m d (firstSamples X (N + 1) ω) c, fun ω => objective_samples hi hdim hE hL hJ hD hc N ω, ?_, ?_⟩
  · rw [e]
    exact ((integrable_finset_sum _ fun i _ => hI i).div_const _).neg
  · rw [e, integral_neg, integral_div, integral_finset_sum _ fun i _ => hI i, Finset.sum_congr rfl fun i _ => hm i, Finset.sum_const,
      Finset.card_range, nsmul_eq_mul]
    have : ((N : ℝ) + 1) ≠ 0 := by positivity
    push_cast
    field_simp

end

/-- The mean of the log-density of a law with positive density is its divergence from `μ` plus the entropy of `μ`. -/
theorem divergence_core {n : Nat} {μ : Measure (Fin n → ℝ)} [IsProbabilityMeasure μ] {l : (Fin n → ℝ) → ℝ} (hl : Measurable l)
    [hq : IsProbabilityMeasure (lawOf fun x => Real.exp (l x))] (hent : HasEntropy μ) (hint : Integrable l μ) :
    InformationTheory.klDiv μ (lawOf fun x => Real.exp (l x)) ≠ ⊤ ∧
    -∫ x, l x ∂μ = (InformationTheory.klDiv μ (lawOf fun x => Real.exp (l x))).toReal + entropy μ := by
  obtain ⟨hac, hentI⟩ := hent
  have hfm : Measurable fun x => ENNReal.ofReal (Real.exp (l x)) := ENNReal.measurable_ofReal.comp (Real.measurable_exp.comp hl)
  have hne : ∀ x, ENNReal.ofReal (Real.exp (l x)) ≠ 0 := fun x => by
    rw [ne_eq, ENNReal.ofReal_eq_zero, not_le]; exact Real.exp_pos _
  have hac2 : μ ≪ lawOf fun x => Real.exp (l x) :=
    hac.trans (withDensity_absolutelyContinuous' hfm.aemeasurable (Filter.Eventually.of_forall hne))
  have hrn := Measure.rnDeriv_withDensity_right μ volume (f := fun x => ENNReal.ofReal (Real.exp (l x))) hfm.aemeasurable
    (Filter.Eventually.of_forall hne) (Filter.Eventually.of_forall fun x => ENNReal.ofReal_ne_top)
  have hllr : llr μ (lawOf fun x => Real.exp (l x)) =ᵐ[μ] fun x => Real.log (μ.rnDeriv volume x).toReal - l x := by
    filter_upwards [hac.ae_le hrn, Measure.rnDeriv_pos hac, hac.ae_le (Measure.rnDeriv_lt_top μ volume)] with x hx hpos htop
    have hr : 0 < (μ.rnDeriv volume x).toReal := ENNReal.toReal_pos hpos.ne' htop.ne
    change Real.log (μ.rnDeriv (volume.withDensity fun x => ENNReal.ofReal (Real.exp (l x))) x).toReal = _
    rw [hx, ENNReal.toReal_mul, ENNReal.toReal_inv, ENNReal.toReal_ofReal (Real.exp_pos _).le,
      Real.log_mul (inv_ne_zero (Real.exp_pos _).ne') hr.ne', Real.log_inv, Real.log_exp]
    ring
  have hI : Integrable (llr μ (lawOf fun x => Real.exp (l x))) μ := (integrable_congr hllr).mpr (hentI.sub hint)
  refine ⟨InformationTheory.klDiv_ne_top hac2 hI, ?_⟩
  rw [InformationTheory.toReal_klDiv_of_measure_eq hac2 (by rw [measure_univ, measure_univ]), integral_congr_ae hllr,
    integral_sub hentI hint, entropy]
  ring

/-- C102: for maps with as many outputs as inputs and a normalised reference density, the limit of the objective is the divergence of the law that the
pullback density gives from the law of the samples, up to a number that does not depend on the map. -/
theorem C102_divergence {n : Nat} {μ : Measure (Fin n → ℝ)} [IsProbabilityMeasure μ] {c : List ℝ} {p : Density} (hn : m.outputDim = n)
    (hi : m.inputDim = n) (hp : Pullback.new m d c = .ok p) (hE : Evaluates m) (hL : HasLogDet m) (hJ : LogDetIsJacobian m)
    (hDm : Differentiates m) (hDL : DifferentiatesLogDet m) (hI : InvertsFrom m 0) (hD : HasDensity d) (hDd : DifferentiatesDensity d)
    (hc : c.length = m.numCoeffs) (href : IsProbabilityMeasure (lawOf (densityOn d [] n))) (hent : HasEntropy μ)
    (hint : Integrable (fun x => logp p (List.ofFn x)) μ) :
    IsProbabilityMeasure (lawOf (densityOn p [] n)) ∧ InformationTheory.klDiv μ (lawOf (densityOn p [] n)) ≠ ⊤ ∧
    -∫ x, logp p (List.ofFn x) ∂μ = (InformationTheory.klDiv μ (lawOf (densityOn p [] n))).toReal + entropy μ := by
  obtain ⟨S, -, hS⟩ := C100_pullback hn hi hp hE hDm hL hJ hI hD hc
  have hq : IsProbabilityMeasure (lawOf (densityOn p [] n)) := hS.total
  obtain ⟨hdim, -⟩ := pull_new.mp hp
  have hval : ∀ x : Fin n → ℝ, logp p (List.ofFn x) = pulledBack m d c (List.ofFn x) := by
    intro x
    rw [logp, C52_pullback hp hE hL hJ hD ⟨hc, by simp [hi]⟩]
    rfl
  have hmeas : Measurable fun x : Fin n → ℝ => logp p (List.ofFn x) := by
    simp only [hval]
    exact (pulledBack_continuous hi hdim hE hL hJ hDm hDL hDd hc).measurable
  exact ⟨hq, divergence_core (hq := hq) hmeas hent hint⟩

/-- C102: the limit of the objective is never below the entropy of the data, and equal to it exactly if the samples that the pullback sampler makes of draws
from the reference have the law of the data. -/
theorem C102_minimum {n : Nat} {μ : Measure (Fin n → ℝ)} [IsProbabilityMeasure μ] {c : List ℝ} {p : Density} (hn : m.outputDim = n)
    (hi : m.inputDim = n) (hp : Pullback.new m d c = .ok p) (hE : Evaluates m) (hL : HasLogDet m) (hJ : LogDetIsJacobian m)
    (hDm : Differentiates m) (hDL : DifferentiatesLogDet m) (hI : InvertsFrom m 0) (hD : HasDensity d) (hDd : DifferentiatesDensity d)
    (hc : c.length = m.numCoeffs) (href : IsProbabilityMeasure (lawOf (densityOn d [] n))) (hent : HasEntropy μ)
    (hint : Integrable (fun x => logp p (List.ofFn x)) μ) :
    entropy μ ≤ -∫ x, logp p (List.ofFn x) ∂μ ∧
    ∃ S : (Fin n → ℝ) → (Fin n → ℝ),
      (∀ z (out : List ℝ), out.length = n → Pullback.sample m n c (List.ofFn z) out = .ok (List.ofFn (S z))) ∧
      (-∫ x, logp p (List.ofFn x) ∂μ = entropy μ ↔ (lawOf (densityOn d [] n)).map S = μ) := by
  obtain ⟨S, hS1, hS2⟩ := C100_pullback hn hi hp hE hDm hL hJ hI hD hc
  obtain ⟨hq, hfin, h⟩ := C102_divergence hn hi hp hE hL hJ hDm hDL hI hD hDd hc href hent hint
  refine ⟨by rw [h]; exact le_add_of_nonneg_left ENNReal.toReal_nonneg, S, hS1, ?_⟩
  rw [hS2.2, h, eq_comm (b := μ), ← InformationTheory.klDiv_eq_zero_iff]
  constructor
  · intro h0
    have : (InformationTheory.klDiv μ (lawOf (densityOn p [] n))).toReal = 0 := by linarith
    rcases (ENNReal.toReal_eq_zero_iff _).mp this with h' | h'
    · exact h'
    · exact absurd h' hfin
  · intro h0
    rw [h0]; simp

/-- C102: of two vectors of coefficients, the objective prefers the one with the smaller divergence, as soon as there are enough samples. -/
theorem C102_compare {Ω : Type} [MeasurableSpace Ω] {P : Measure Ω} [IsProbabilityMeasure P] {n : Nat} {μ : Measure (Fin n → ℝ)}
    [IsProbabilityMeasure μ] {X : ℕ → Ω → Fin n → ℝ} {c c' : List ℝ} {p p' : Density} (hn : m.outputDim = n)
    (hi : m.inputDim = n) (hp : Pullback.new m d c = .ok p) (hp' : Pullback.new m d c' = .ok p') (hE : Evaluates m) (hL : HasLogDet m)
    (hJ : LogDetIsJacobian m) (hDm : Differentiates m) (hDL : DifferentiatesLogDet m) (hI : InvertsFrom m 0) (hD : HasDensity d)
    (hDd : DifferentiatesDensity d) (hc : c.length = m.numCoeffs) (hc' : c'.length = m.numCoeffs)
    (href : IsProbabilityMeasure (lawOf (densityOn d [] n))) (hent : HasEntropy μ) (hX : SamplesOf P μ X)
    (hint : Integrable (fun x => logp p (List.ofFn x)) μ) (hint' : Integrable (fun x => logp p' (List.ofFn x)) μ)
    (hlt : InformationTheory.klDiv μ (lawOf (densityOn p [] n)) < InformationTheory.klDiv μ (lawOf (densityOn p' [] n))) :
    ∀ᵐ ω ∂P, ∃ N₀ : Nat, ∀ N, N₀ ≤ N → ∃ v v' : ℝ, KL.objective m d c (firstSamples X (N + 1) ω) = .ok (some v) ∧
      KL.objective m d c' (firstSamples X (N + 1) ω) = .ok (some v') ∧ v < v' := by
  obtain ⟨-, h1, h2⟩ := C102_divergence hn hi hp hE hL hJ hDm hDL hI hD hDd hc href hent hint
  obtain ⟨-, h1', h2'⟩ := C102_divergence hn hi hp' hE hL hJ hDm hDL hI hD hDd hc' href hent hint'
  obtain ⟨v, hv, hlim⟩ := C102_limit hp hi hE hL hJ hDm hDL hD hDd hc hX hint
  obtain ⟨v', hv', hlim'⟩ := C102_limit hp' hi hE hL hJ hDm hDL hD hDd hc' hX hint'
  have hlt' : -∫ x, logp p (List.ofFn x) ∂μ < -∫ x, logp p' (List.ofFn x) ∂μ := by
    rw [h2, h2']
    have := (ENNReal.toReal_lt_toReal h1 h1').mpr hlt
    linarith
  filter_upwards [hlim, hlim'] with ω hω hω'
  obtain ⟨N₀, hN⟩ := eventually_atTop.mp (hω.eventually_lt hω' hlt')
  exact ⟨N₀, fun N h => ⟨v N ω, v' N ω, hv N ω, hv' N ω, hN N h⟩⟩

/-! ## Non-vacuity: data that are uniform in a cube -/

/-- The uniform law on the unit cube. -/
noncomputable def cube (n : Nat) : Measure (Fin n → ℝ) := volume.restrict (Set.univ.pi fun _ => Set.Icc 0 1)

instance cube_prob (n : Nat) : IsProbabilityMeasure (cube n) := by
  refine ⟨?_⟩
  rw [cube, Measure.restrict_apply_univ, volume_pi, Measure.pi_pi]
  simp

theorem cube_entropy (n : Nat) : HasEntropy (cube n) ∧ entropy (cube n) = 0 := by
  have hm : MeasurableSet (Set.univ.pi fun _ : Fin n => Set.Icc (0 : ℝ) 1) := MeasurableSet.univ_pi fun _ => measurableSet_Icc
  have hac : cube n ≪ volume := Measure.restrict_le_self.absolutelyContinuous
  have h1 : (fun x => Real.log ((cube n).rnDeriv volume x).toReal) =ᵐ[cube n] fun _ => 0 := by
    filter_upwards [hac.ae_le (Measure.rnDeriv_restrict_self volume hm), ae_restrict_mem hm] with x hx hx'
    rw [cube, hx, Set.indicator_of_mem hx']
    simp
  refine ⟨⟨hac, (integrable_congr h1).mpr (integrable_zero _ _ _)⟩, ?_⟩
  rw [entropy, integral_congr_ae h1]
  simp

theorem cube_integrable {n : Nat} {f : (Fin n → ℝ) → ℝ} (hf : Continuous f) : Integrable f (cube n) :=
  hf.continuousOn.integrableOn_compact (isCompact_univ_pi fun _ => isCompact_Icc)

/-- Independent samples of a law exist. -/
theorem samples_exist {n : Nat} (μ : Measure (Fin n → ℝ)) [IsProbabilityMeasure μ] :
    SamplesOf (Measure.infinitePi fun _ : ℕ => μ) μ (fun i ω => ω i) :=
  ⟨fun i => measurable_pi_apply i, fun i => Measure.infinitePi_map_eval _ i, iIndepFun_infinitePi (X := fun _ x => x) fun _ => measurable_id⟩

/-- Non-vacuity: the map `exp(a) sinh(x)`, a standard normal reference and data that are uniform between 0 and 1. -/
example (a : ℝ) : ∃ p, Pullback.new bend std1 [a] = .ok p ∧
    (∃ v : ℕ → (ℕ → Fin 1 → ℝ) → ℝ, (∀ N ω, KL.objective bend std1 [a] (firstSamples (fun i ω => ω i) (N + 1) ω) = .ok (some (v N ω))) ∧
      ∀ᵐ ω ∂(Measure.infinitePi fun _ : ℕ => cube 1), Tendsto (fun N => v N ω) atTop
        (𝓝 (InformationTheory.klDiv (cube 1) (lawOf (densityOn p [] 1))).toReal)) := by
  have hd := C53_density (.dim 1)
  obtain ⟨p, hp⟩ := ((C52_dimensions (m := bend) (d := std1) [a]).1).2 rfl
  have hval : ∀ x : Fin 1 → ℝ, logp p (List.ofFn x) = pulledBack bend std1 [a] (List.ofFn x) := by
    intro x
    rw [logp, C52_pullback hp bend_evaluates bend_hasLogDet bend_jacobian hd.2.1 ⟨rfl, by simp [bend]⟩]
    rfl
  have hint : Integrable (fun x => logp p (List.ofFn x)) (cube 1) := by
    simp only [hval]
    exact cube_integrable (pulledBack_continuous rfl rfl bend_evaluates bend_hasLogDet bend_jacobian bend_differentiates
      bend_differentiatesLogDet hd.2.2.1 rfl)
  have href : IsProbabilityMeasure (lawOf (densityOn std1 [] 1)) := by
    obtain ⟨S, -, hS, -⟩ := C100_gaussian (.dim 1)
    have : IsProbabilityMeasure (lawOf (stdNormal (n := 1))) := by rw [stdNormal_law]; infer_instance
    exact hS.total
  obtain ⟨v, h1, h2⟩ := C102_limit (n := 1) hp rfl bend_evaluates bend_hasLogDet bend_jacobian bend_differentiates bend_differentiatesLogDet hd.2.1
    hd.2.2.1 rfl (samples_exist (cube 1)) hint
  obtain ⟨-, -, h3⟩ := C102_divergence (n := 1) rfl rfl hp bend_evaluates bend_hasLogDet bend_jacobian bend_differentiates bend_differentiatesLogDet
    bend_inverts hd.2.1 hd.2.2.1 rfl href (cube_entropy 1).1 hint
  rw [(cube_entropy 1).2, add_zero] at h3
  rw [h3] at h2
  exact ⟨p, hp, v, h1, h2⟩

end MParT
