import Verif.Props.Densities
import Verif.Lemmas.Frechet
import Verif.Lemmas.ChainRule
import Verif.Spec.Laws
/-!
# C100: samples have the law that the density gives
-/
namespace MParT
open Spec MeasureTheory

variable {m : CMap} {d : Density}

/-- The function of a map on the last `n` inputs. -/
def onTail (m : CMap) (c lead : List ℝ) (n : Nat) (y : Fin n → ℝ) : Fin n → ℝ := colVec n (fn m c (lead ++ List.ofFn y))

theorem colVec_append {n : Nat} (lead : List ℝ) (y : Fin n → ℝ) (j : Fin n) :
    (lead ++ List.ofFn y).getD (lead.length + j) 0 = y j := by
  rw [getD_append_right, getD_ofFn]

/-- A map that differentiates is differentiable in its last inputs, and the matrix of the derivative is the Jacobian. -/
theorem onTail_hasFDerivAt {n : Nat} {c lead : List ℝ} (hn : m.outputDim = n) (hc : c.length = m.numCoeffs)
    (hl : lead.length + n = m.inputDim) (hE : Evaluates m) (hG : Differentiates m) (y : Fin n → ℝ) :
    ∃ F' : (Fin n → ℝ) →L[ℝ] (Fin n → ℝ), HasFDerivAt (onTail m c lead n) F' y ∧
      F'.det = (jacobian m c (lead ++ List.ofFn y)).det := by
  subst hn
  have hf : ∀ y : Fin m.outputDim → ℝ, Fits m c (lead ++ List.ofFn y) := fun y => ⟨hc, by simp [hl]⟩
  have hoff : m.inputDim - m.outputDim = lead.length := by omega
  -- derivative of each output along paths
  have hpath : ∀ (i : Fin m.outputDim) (δ : ℝ → Fin m.outputDim → ℝ) (v : Fin m.outputDim → ℝ) (t₀ : ℝ), δ t₀ = y → HasDerivAt δ v t₀ →
      HasDerivAt (fun t => onTail m c lead m.outputDim (δ t) i)
        (∑ j : Fin m.outputDim, (grad m c (lead ++ List.ofFn y) (unit m.outputDim i)).getD (lead.length + j) 0 * v j) t₀ := by
    intro i δ v t₀ h0 hδ
    have hδ' := hasDerivAt_pi.mp hδ
    have hp1 : Path m.outputDim (fun t => List.ofFn (δ t)) (List.ofFn v) t₀ := by
      refine ⟨fun t => by simp, by simp, fun j hj => ?_⟩
      have h1 := hδ' ⟨j, hj⟩
      have e : (fun t => (List.ofFn (δ t)).getD j 0) = fun t => δ t ⟨j, hj⟩ := funext fun t => getD_ofFn (δ t) ⟨j, hj⟩
      rw [e]
      exact h1.congr_deriv (getD_ofFn v ⟨j, hj⟩).symm
    have hp2 := (path_const lead t₀).append hp1
    rw [hl] at hp2
    have hp3 := path_const c t₀
    rw [hc] at hp3
    obtain ⟨v', hv1, hv2⟩ := path_fn hE hG hp3 hp2 rfl (show lead ++ List.ofFn (δ t₀) = lead ++ List.ofFn y by rw [h0])
    have h1 := hv1.2.2 i i.isLt
    refine h1.congr_deriv ?_
    rw [← dot_unit i.isLt hv1.2.1, hv2 _ (by simp)]
    have hg := hG c (lead ++ List.ofFn y) (unit m.outputDim i) (hf y) (by simp)
    rw [dot_comm' hg.2.2.1 (by simp [zeros]), dot_zeros, zero_add, dot_comm' hg.2.2.2.1 (by simp [zeros, hl]),
      dot_split lead.length (by rw [hg.2.2.2.1]; omega) (by simp [zeros]), dot_zeros, zero_add,
      dot_eq_sum (n := m.outputDim) (by simp) (by rw [List.length_drop, hg.2.2.2.1]; omega), ← Fin.sum_univ_eq_sum_range
        (fun k => (List.ofFn v).getD k 0 * (List.drop lead.length (grad m c (lead ++ List.ofFn y) (unit m.outputDim i))).getD k 0)]
    refine Finset.sum_congr rfl fun j _ => ?_
    rw [getD_ofFn, getD_drop', mul_comm]
  let J : Matrix (Fin m.outputDim) (Fin m.outputDim) ℝ := Matrix.of fun i j =>
    (grad m c (lead ++ List.ofFn y) (unit m.outputDim i)).getD (lead.length + j) 0
  refine ⟨LinearMap.toContinuousLinearMap (Matrix.toLin' J), ?_, ?_⟩
  · rw [hasFDerivAt_pi']
    intro i
    refine hasFDerivAt_of_paths fun δ v h0 hδ => ?_
    have := hpath i δ v 0 h0 hδ
    simpa [J, Matrix.mulVec, dotProduct] using this
  · change LinearMap.det (Matrix.toLin' J) = _
    rw [LinearMap.det_toLin']
    congr 1
    ext i j
    rw [jacobian, jac, Matrix.of_apply, hoff, colVec_append]
    have hup : HasDerivAt (fun t => Function.update y j t) (Pi.single j 1) (y j) := by
      rw [hasDerivAt_pi]
      intro k
      by_cases hk : k = j
      · subst hk
        simp only [Function.update_self, Pi.single_eq_same]
        exact hasDerivAt_id _
      · simp only [Function.update_of_ne hk, Pi.single_eq_of_ne hk]
        exact hasDerivAt_const _ _
    have h := hpath i (fun t => Function.update y j t) (Pi.single j 1) (y j) (by simp) hup
    have e : (fun t => (fn m c ((lead ++ List.ofFn y).set (lead.length + j) t)).getD i 0)
        = fun t => onTail m c lead m.outputDim (Function.update y j t) i := by
      funext t
      rw [List.set_append_right _ _ (by omega), Nat.add_sub_cancel_left, ofFn_set]
      rfl
    rw [e, h.deriv]
    simp [J, Pi.single_apply]

/-- The law of `S z`, when `S` is the inverse of a differentiable function. -/
theorem carries_of {n : Nat} {F S : (Fin n → ℝ) → (Fin n → ℝ)} {F' : (Fin n → ℝ) → (Fin n → ℝ) →L[ℝ] (Fin n → ℝ)}
    (hF : ∀ x, HasFDerivAt F (F' x) x) (h1 : ∀ z, F (S z) = z) (h2 : ∀ x, S (F x) = x) {p q : (Fin n → ℝ) → ℝ}
    (hq : ∀ x, q x = |(F' x).det| * p (F x)) : CarriesLaw S p q ∧ CarriesLaw F q p := by
  have hinj : Function.Injective F := Function.LeftInverse.injective h2
  have hcont : Continuous F := continuous_iff_continuousAt.mpr fun x => (hF x).continuousAt
  have himg : ∀ A : Set (Fin n → ℝ), F '' A = S ⁻¹' A := fun A => congrFun (Set.image_eq_preimage_of_inverse h2 h1) A
  have hpre : ∀ A : Set (Fin n → ℝ), F ⁻¹' (S ⁻¹' A) = A := fun A => by ext x; simp [h2]
  have hS : Measurable S := by
    intro A hA
    rw [← himg]
    exact (hcont.measurableEmbedding hinj).measurableSet_image.mpr hA
  have hset : ∀ A : Set (Fin n → ℝ), MeasurableSet A → lawOf p (S ⁻¹' A) = lawOf q A := by
    intro A hA
    rw [lawOf, lawOf, withDensity_apply _ (hS hA), withDensity_apply _ hA, ← himg,
      lintegral_image_eq_lintegral_abs_det_fderiv_mul volume hA (fun x _ => (hF x).hasFDerivWithinAt) hinj.injOn]
    refine lintegral_congr fun x => ?_
    rw [hq, ENNReal.ofReal_mul (abs_nonneg _)]
  refine ⟨⟨hS, ?_⟩, hcont.measurable, ?_⟩
  · refine Measure.ext fun A hA => ?_
    rw [Measure.map_apply hS hA, hset A hA]
  · refine Measure.ext fun A hA => ?_
    rw [Measure.map_apply hcont.measurable hA, ← hset _ (hcont.measurable hA)]
    congr 1
    ext x; simp [h1]

theorem onTail_ofFn {n : Nat} {c lead : List ℝ} (hn : m.outputDim = n) (hc : c.length = m.numCoeffs)
    (hl : lead.length + n = m.inputDim) (hE : Evaluates m) (y : Fin n → ℝ) :
    List.ofFn (onTail m c lead n y) = fn m c (lead ++ List.ofFn y) := by
  have h := (hE c (lead ++ List.ofFn y) ⟨hc, by simp [hl]⟩).1
  refine List.ext_getElem (by simp [h, hn]) fun i h1 h2 => ?_
  simp only [List.getElem_ofFn, onTail, colVec]
  rw [List.getD_eq_getElem?_getD, List.getElem?_eq_getElem h2]; rfl

theorem ofFn_colVec {n : Nat} {y : List ℝ} (hy : y.length = n) : List.ofFn (colVec n y) = y := by
  refine List.ext_getElem (by simp [hy]) fun i h1 h2 => ?_
  simp only [List.getElem_ofFn, colVec]
  rw [List.getD_eq_getElem?_getD, List.getElem?_eq_getElem h2]; rfl

/-- C100: whenever the map is one-to-one and onto in its last inputs, its preimages of draws from the reference have the
conditional density. -/
theorem C100_preimage {n : Nat} {c lead : List ℝ} {p : Density} (hn : m.outputDim = n) (hlead : lead.length + n = m.inputDim)
    (hp : Pullback.new m d c = .ok p) (hE : Evaluates m) (hG : Differentiates m) (hL : HasLogDet m)
    (hJ : LogDetIsJacobian m) (hD : HasDensity d) (hc : c.length = m.numCoeffs)
    (hb : ∀ r : List ℝ, r.length = n → ∃ y : List ℝ, y.length = n ∧ fn m c (lead ++ y) = r ∧
      ∀ y' : List ℝ, y'.length = n → fn m c (lead ++ y') = r → y' = y) :
    ∃ S : (Fin n → ℝ) → (Fin n → ℝ), (∀ z, fn m c (lead ++ List.ofFn (S z)) = List.ofFn z) ∧
      CarriesLaw S (densityOn d [] n) (densityOn p lead n) := by
  have hsamp : ∀ z : Fin n → ℝ, ∃ y : Fin n → ℝ, fn m c (lead ++ List.ofFn y) = List.ofFn z ∧
      onTail m c lead n y = z ∧ ∀ y', onTail m c lead n y' = z → y' = y := by
    intro z
    obtain ⟨y, hyl, hyz, hyu⟩ := hb (List.ofFn z) (by simp)
    refine ⟨colVec n y, ?_, ?_, fun y' h => ?_⟩
    · rw [ofFn_colVec hyl, hyz]
    · rw [onTail, ofFn_colVec hyl, hyz, vec_ofFn]
    · have h3 := hyu (List.ofFn y') (by simp) (by rw [← onTail_ofFn hn hc hlead hE, h])
      rw [← h3, vec_ofFn]
  choose S hS1 hS2 hS3 using hsamp
  choose F' hF1 hF2 using fun y => onTail_hasFDerivAt hn hc hlead hE hG y
  refine ⟨S, hS1, (carries_of hF1 hS2 (fun x => (hS3 _ x rfl).symm) fun y => ?_).1⟩
  have hf : Fits m c (lead ++ List.ofFn y) := ⟨hc, by simp; omega⟩
  have hv := C52_pullback hp hE hL hJ hD hf (some 0)
  rw [densityOn, densityOn, logp, hv, hF2, List.nil_append, onTail_ofFn hn hc hlead hE]
  change Real.exp (pulledBack _ _ _ _) = _
  rw [pulledBack, Real.exp_add, Real.exp_log (abs_pos.mpr (hJ c _ hf).1), mul_comm]

/-- C100: conditional samples have the conditional density. For fixed leading inputs and draws `z` with the density of the
reference, `Inverse(x1, z)` has the density that the pullback density gives at the leading inputs followed by the sample. -/
theorem C100_conditional {n k : Nat} {c x1 : List ℝ} {p : Density} (hn : m.outputDim = n) (hi : n ≤ m.inputDim)
    (hk : m.inputDim - n ≤ k) (hp : Pullback.new m d c = .ok p) (hE : Evaluates m) (hG : Differentiates m) (hL : HasLogDet m)
    (hJ : LogDetIsJacobian m) (hI : InvertsFrom m k) (hD : HasDensity d) (hc : c.length = m.numCoeffs) (hx1 : x1.length = k) :
    ∃ S : (Fin n → ℝ) → (Fin n → ℝ),
      (∀ z (out : List ℝ), out.length = n → m.inv c x1 (List.ofFn z) out = .ok (List.ofFn (S z))) ∧
      CarriesLaw S (densityOn d [] n) (densityOn p (x1.take (m.inputDim - n)) n) := by
  subst hn
  obtain ⟨S, h1, h2⟩ := C100_preimage rfl (lead := x1.take (m.inputDim - m.outputDim)) (by simp; omega) hp hE hG hL hJ hD hc
    (fun r hr => by
      obtain ⟨y, -, h⟩ := hI c x1 r hc hx1 hr (zeros m.outputDim) (by simp)
      exact ⟨y, h⟩)
  refine ⟨S, fun z out ho => ?_, h2⟩
  obtain ⟨y, hy, -, -, hu⟩ := hI c x1 (List.ofFn z) hc hx1 (by simp) out ho
  rw [hy, hu (List.ofFn (S z)) (by simp) (h1 z)]

/-- C100: the samples of a pullback sampler have the pullback density. -/
theorem C100_pullback {n : Nat} {c : List ℝ} {p : Density} (hn : m.outputDim = n) (hi : m.inputDim = n)
    (hp : Pullback.new m d c = .ok p) (hE : Evaluates m) (hG : Differentiates m) (hL : HasLogDet m) (hJ : LogDetIsJacobian m)
    (hI : InvertsFrom m 0) (hD : HasDensity d) (hc : c.length = m.numCoeffs) :
    ∃ S : (Fin n → ℝ) → (Fin n → ℝ),
      (∀ z (out : List ℝ), out.length = n → Pullback.sample m n c (List.ofFn z) out = .ok (List.ofFn (S z))) ∧
      CarriesLaw S (densityOn d [] n) (densityOn p [] n) := by
  obtain ⟨S, h1, h2⟩ := C100_conditional (k := 0) (x1 := []) hn hi.ge (by omega) hp hE hG hL hJ hI hD hc rfl
  refine ⟨S, fun z out ho => ?_, by simpa using h2⟩
  rw [Pullback.sample, if_neg (by simp [hn]), if_neg (by simp [hi, hn]), h1 z out ho]

/-- C100: the samples of a pushforward sampler have the pushforward density. -/
theorem C100_pushforward {n : Nat} {c : List ℝ} {p : Density} (hn : m.outputDim = n) (hp : Pushforward.new m d c = .ok p)
    (hE : Evaluates m) (hG : Differentiates m) (hL : HasLogDet m) (hJ : LogDetIsJacobian m)
    (hI : InvertsFrom m 0) (hD : HasDensity d) (hc : c.length = m.numCoeffs) :
    ∃ S : (Fin n → ℝ) → (Fin n → ℝ),
      (∀ z (out : List ℝ), out.length = n → Pushforward.sample m n c (List.ofFn z) out = .ok (List.ofFn (S z))) ∧
      CarriesLaw S (densityOn d [] n) (densityOn p [] n) := by
  obtain ⟨hd, hsq, -⟩ := push_new.mp hp
  have hi : m.inputDim = n := hsq.symm.trans hn
  refine ⟨onTail m c [] n, fun z out ho => ?_, ?_⟩
  · rw [Pushforward.sample, if_neg (by simp [hn]), if_neg (by simp [hsq]), onTail_ofFn hn hc (by simp [hi]) hE]
    exact (hE c _ ⟨hc, by simp [hi]⟩).2 out (by rw [ho, hn])
  · choose F' hF1 hF2 using fun y => onTail_hasFDerivAt (lead := []) hn hc (by simp [hi]) hE hG y
    have hinv : ∀ z : Fin n → ℝ, ∃ y : Fin n → ℝ, onTail m c [] n y = z ∧ (∀ y', onTail m c [] n y' = z → y' = y) ∧
        logp p (List.ofFn z) = pushedForward m d c (List.ofFn y) := by
      intro z
      obtain ⟨y, hyl, hyz, hyu, hv⟩ := C52_pushforward (r := List.ofFn z) hp hL hJ hI hD hc (by simp [hn])
      rw [hi] at hyl hyu
      refine ⟨colVec n y, ?_, fun y' h => ?_, ?_⟩
      · rw [onTail, ofFn_colVec hyl, List.nil_append, hyz, vec_ofFn]
      · have h3 := hyu (List.ofFn y') (by simp) (by
          have := onTail_ofFn (lead := []) hn hc (by simp [hi]) hE y'
          rw [List.nil_append] at this
          rw [← this, h])
        rw [← h3, vec_ofFn]
      · rw [logp, hv (some 0), ofFn_colVec hyl]; rfl
    choose S hS1 hS2 hS3 using hinv
    refine (carries_of hF1 hS1 (fun x => (hS2 _ x rfl).symm) fun y => ?_).2
    have hf : Fits m c (List.ofFn y) := ⟨hc, by simp [hi]⟩
    have hSy : S (onTail m c [] n y) = y := (hS2 _ y rfl).symm
    rw [densityOn, densityOn, List.nil_append, List.nil_append, hS3, hSy, pushedForward, Real.exp_sub, hF2, List.nil_append,
      Real.exp_log (abs_pos.mpr (hJ c _ hf).1)]
    rw [mul_div_cancel₀ _ (abs_ne_zero.mpr (hJ c _ hf).1)]

/-- C100: these densities integrate to one when the density of the reference does. -/
theorem _root_.MParT.Spec.CarriesLaw.total {n : Nat} {S : (Fin n → ℝ) → (Fin n → ℝ)} {p q : (Fin n → ℝ) → ℝ} (h : CarriesLaw S p q)
    [hp : IsProbabilityMeasure (lawOf p)] : IsProbabilityMeasure (lawOf q) := by
  rw [← h.2]
  exact Measure.isProbabilityMeasure_map h.1.aemeasurable

/-! ## The Gaussian -/

/-- The density of the draws is that of independent standard normal numbers. -/
theorem stdNormal_law (n : Nat) : lawOf (stdNormal (n := n)) = Measure.pi fun _ => ProbabilityTheory.gaussianReal 0 1 := by
  refine Eq.symm (Measure.pi_eq fun s hs => ?_)
  have hA : MeasurableSet (Set.univ.pi s) := MeasurableSet.univ_pi hs
  have hint : ∀ i, Integrable ((s i).indicator (ProbabilityTheory.gaussianPDFReal 0 1)) := fun i =>
    (ProbabilityTheory.integrable_gaussianPDFReal 0 1).indicator (hs i)
  have hnn : ∀ (i : Fin n) (x : ℝ), 0 ≤ (s i).indicator (ProbabilityTheory.gaussianPDFReal 0 1) x := fun i x =>
    Set.indicator_nonneg (fun y _ => ProbabilityTheory.gaussianPDFReal_nonneg 0 1 y) x
  have e : ∀ z : Fin n → ℝ, (Set.univ.pi s).indicator (fun z => ENNReal.ofReal (stdNormal z)) z
      = ENNReal.ofReal (∏ i, (s i).indicator (ProbabilityTheory.gaussianPDFReal 0 1) (z i)) := by
    intro z
    by_cases h : z ∈ Set.univ.pi s
    · rw [Set.indicator_of_mem h, stdNormal]
      congr 1
      exact Finset.prod_congr rfl fun i _ => (Set.indicator_of_mem (h i trivial) _).symm
    · rw [Set.indicator_of_notMem h]
      obtain ⟨i, hi⟩ : ∃ i, z i ∉ s i := by
        simpa [Set.mem_pi] using h
      rw [Finset.prod_eq_zero (Finset.mem_univ i) (Set.indicator_of_notMem hi _), ENNReal.ofReal_zero]
  have e2 : ∀ i, ProbabilityTheory.gaussianReal 0 1 (s i)
      = ENNReal.ofReal (∫ x, (s i).indicator (ProbabilityTheory.gaussianPDFReal 0 1) x) := by
    intro i
    rw [ProbabilityTheory.gaussianReal_of_var_ne_zero 0 one_ne_zero, withDensity_apply _ (hs i),
      ofReal_integral_eq_lintegral_ofReal (hint i) (Filter.Eventually.of_forall (hnn i)), ← lintegral_indicator (hs i)]
    refine lintegral_congr fun x => ?_
    by_cases h : x ∈ s i
    · rw [Set.indicator_of_mem h, Set.indicator_of_mem h]; rfl
    · rw [Set.indicator_of_notMem h, Set.indicator_of_notMem h, ENNReal.ofReal_zero]
  have hprod : Integrable (fun z : Fin n → ℝ => ∏ i, (s i).indicator (ProbabilityTheory.gaussianPDFReal 0 1) (z i)) :=
    Integrable.fintype_prod hint
  rw [lawOf, withDensity_apply _ hA, ← lintegral_indicator hA, lintegral_congr e,
    ← ofReal_integral_eq_lintegral_ofReal hprod
      (Filter.Eventually.of_forall fun z => Finset.prod_nonneg fun i _ => hnn i (z i)),
    integral_fintype_prod_volume_eq_prod (𝕜 := ℝ) (ι := Fin n) (E := fun _ => ℝ),
    ENNReal.ofReal_prod_of_nonneg fun i _ => integral_nonneg (hnn i)]
  exact Finset.prod_congr rfl fun i _ => (e2 i).symm

instance stdNormal_total (n : Nat) : IsProbabilityMeasure (lawOf (stdNormal (n := n))) := by
  rw [stdNormal_law]; infer_instance

/-- C100: the samples of a Gaussian have the density that its `LogDensity` gives, when the draws are independent standard normal
numbers. The output is the column-major one that suits the class. -/
theorem C100_gaussian {n : Nat} {μ : Fin n → ℝ} {Sig : Matrix (Fin n) (Fin n) ℝ} {g : Gaussian} (hg : Constructed μ Sig g) :
    ∃ S : (Fin n → ℝ) → (Fin n → ℝ),
      (∀ z : List (Fin n → ℝ), g.sampleImpl (z.map List.ofFn) (Layout.left n z.length) = .ok (z.map fun z => List.ofFn (S z))) ∧
      CarriesLaw S stdNormal (densityOn g.density [] n) ∧
      Measure.map S (Measure.pi fun _ => ProbabilityTheory.gaussianReal 0 1) = lawOf (densityOn g.density [] n) := by
  obtain ⟨L, hL, hS⟩ := C53_sample_partial hg
  have hu : IsUnit L.det := by rw [isUnit_iff_ne_zero]; exact hL.det_pos.ne'
  have hlaw : CarriesLaw (fun z i => μ i + L.mulVec z i) stdNormal (densityOn g.density [] n) := by
    let F' : (Fin n → ℝ) →L[ℝ] (Fin n → ℝ) := LinearMap.toContinuousLinearMap (Matrix.toLin' L)
    have hF : ∀ z, HasFDerivAt (fun z i => μ i + L.mulVec z i) F' z := fun z => (F'.hasFDerivAt (x := z)).const_add μ
    refine (carries_of (S := fun x => L⁻¹.mulVec fun i => x i - μ i) hF (fun x => ?_) (fun z => ?_) fun z => ?_).2
    · funext i
      rw [Matrix.mulVec_mulVec, Matrix.mul_nonsing_inv _ hu, Matrix.one_mulVec]
      ring
    · have e : (fun i => μ i + L.mulVec z i - μ i) = L.mulVec z := by funext i; ring
      simp only [e]
      rw [Matrix.mulVec_mulVec, Matrix.nonsing_inv_mul _ hu, Matrix.one_mulVec]
    · have hdet : F'.det = L.det := by
        change LinearMap.det (Matrix.toLin' L) = _
        exact LinearMap.det_toLin' L
      rw [hdet, densityOn, List.nil_append, (C53_density hg).2.2.2 _ (by simp), vec_ofFn, normal_at hL]
  refine ⟨_, fun z => ?_, hlaw, ?_⟩
  · rw [hS _ _ (by simp) (.inl (by simp)), List.map_map]
    congr 1
    refine List.map_congr_left fun x _ => ?_
    simp [vec_ofFn]
  · rw [← stdNormal_law]; exact hlaw.2

/-- One step after another. -/
theorem _root_.MParT.Spec.CarriesLaw.comp {n : Nat} {S T : (Fin n → ℝ) → (Fin n → ℝ)} {p q r : (Fin n → ℝ) → ℝ} (h1 : CarriesLaw S p q)
    (h2 : CarriesLaw T q r) : CarriesLaw (fun z => T (S z)) p r := by
  refine ⟨h2.1.comp h1.1, ?_⟩
  rw [← h2.2, ← h1.2, Measure.map_map h2.1 h1.1]
  rfl

/-- C100: end to end. Independent standard normal numbers, turned into a sample of a Gaussian and handed to a pullback sampler,
have the density that the pullback density over that Gaussian gives, which integrates to one. -/
theorem C100_gaussian_pullback {n : Nat} {μ : Fin n → ℝ} {Sig : Matrix (Fin n) (Fin n) ℝ} {g : Gaussian} (hg : Constructed μ Sig g)
    {c : List ℝ} {p : Density} (hn : m.outputDim = n) (hi : m.inputDim = n) (hp : Pullback.new m g.density c = .ok p)
    (hE : Evaluates m) (hG : Differentiates m) (hL : HasLogDet m) (hJ : LogDetIsJacobian m) (hI : InvertsFrom m 0)
    (hc : c.length = m.numCoeffs) :
    ∃ S T : (Fin n → ℝ) → (Fin n → ℝ),
      (∀ z, g.sampleImpl [List.ofFn z] (Layout.left n 1) = .ok [List.ofFn (S z)] ∧
        Pullback.sample m n c (List.ofFn (S z)) (zeros n) = .ok (List.ofFn (T (S z)))) ∧
      Measure.map (fun z => T (S z)) (Measure.pi fun _ => ProbabilityTheory.gaussianReal 0 1) = lawOf (densityOn p [] n) ∧
      IsProbabilityMeasure (lawOf (densityOn p [] n)) := by
  obtain ⟨S, hS1, hS2, -⟩ := C100_gaussian hg
  obtain ⟨T, hT1, hT2⟩ := C100_pullback hn hi hp hE hG hL hJ hI (C53_density hg).2.1 hc
  have h := hS2.comp hT2
  refine ⟨S, T, fun z => ⟨hS1 [z], hT1 _ _ (by simp)⟩, ?_, h.total⟩
  rw [← stdNormal_law]; exact h.2

/-- C100: the same for a pushforward sampler and density. -/
theorem C100_gaussian_pushforward {n : Nat} {μ : Fin n → ℝ} {Sig : Matrix (Fin n) (Fin n) ℝ} {g : Gaussian} (hg : Constructed μ Sig g)
    {c : List ℝ} {p : Density} (hn : m.outputDim = n) (hp : Pushforward.new m g.density c = .ok p)
    (hE : Evaluates m) (hG : Differentiates m) (hL : HasLogDet m) (hJ : LogDetIsJacobian m) (hI : InvertsFrom m 0)
    (hc : c.length = m.numCoeffs) :
    ∃ S T : (Fin n → ℝ) → (Fin n → ℝ),
      (∀ z, g.sampleImpl [List.ofFn z] (Layout.left n 1) = .ok [List.ofFn (S z)] ∧
        Pushforward.sample m n c (List.ofFn (S z)) (zeros n) = .ok (List.ofFn (T (S z)))) ∧
      Measure.map (fun z => T (S z)) (Measure.pi fun _ => ProbabilityTheory.gaussianReal 0 1) = lawOf (densityOn p [] n) ∧
      IsProbabilityMeasure (lawOf (densityOn p [] n)) := by
  obtain ⟨S, hS1, hS2, -⟩ := C100_gaussian hg
  obtain ⟨T, hT1, hT2⟩ := C100_pushforward hn hp hE hG hL hJ hI (C53_density hg).2.1 hc
  have h := hS2.comp hT2
  refine ⟨S, T, fun z => ⟨hS1 [z], hT1 _ _ (by simp)⟩, ?_, h.total⟩
  rw [← stdNormal_law]; exact h.2

/-- C100: end to end for conditional samples: for every value of the leading inputs, `Inverse` of standard normal draws has the
conditional density, which integrates to one over the last inputs. -/
theorem C100_gaussian_conditional {n k : Nat} {μ : Fin n → ℝ} {Sig : Matrix (Fin n) (Fin n) ℝ} {g : Gaussian} (hg : Constructed μ Sig g)
    {c x1 : List ℝ} {p : Density} (hn : m.outputDim = n) (hi : n ≤ m.inputDim) (hk : m.inputDim - n ≤ k)
    (hp : Pullback.new m g.density c = .ok p) (hE : Evaluates m) (hG : Differentiates m) (hL : HasLogDet m)
    (hJ : LogDetIsJacobian m) (hI : InvertsFrom m k) (hc : c.length = m.numCoeffs) (hx1 : x1.length = k) :
    ∃ S T : (Fin n → ℝ) → (Fin n → ℝ),
      (∀ z, g.sampleImpl [List.ofFn z] (Layout.left n 1) = .ok [List.ofFn (S z)] ∧
        m.inv c x1 (List.ofFn (S z)) (zeros n) = .ok (List.ofFn (T (S z)))) ∧
      Measure.map (fun z => T (S z)) (Measure.pi fun _ => ProbabilityTheory.gaussianReal 0 1)
        = lawOf (densityOn p (x1.take (m.inputDim - n)) n) ∧
      IsProbabilityMeasure (lawOf (densityOn p (x1.take (m.inputDim - n)) n)) := by
  obtain ⟨S, hS1, hS2, -⟩ := C100_gaussian hg
  obtain ⟨T, hT1, hT2⟩ := C100_conditional hn hi hk hp hE hG hL hJ hI (C53_density hg).2.1 hc hx1
  have h := hS2.comp hT2
  refine ⟨S, T, fun z => ⟨hS1 [z], hT1 _ _ (by simp)⟩, ?_, h.total⟩
  rw [← stdNormal_law]; exact h.2

/-! ## Non-vacuity -/

/-- Non-vacuity of the theorems for square maps: `T(a; x) = exp(a) sinh(x)` with `a = 3`. -/
example : (∃ p, Pullback.new bend (Gaussian.ofDim 1).density [3] = .ok p ∧ IsProbabilityMeasure (lawOf (densityOn p [] 1))) ∧
    ∃ p, Pushforward.new bend (Gaussian.ofDim 1).density [3] = .ok p ∧ IsProbabilityMeasure (lawOf (densityOn p [] 1)) := by
  constructor
  · obtain ⟨S, T, -, -, h⟩ := C100_gaussian_pullback (.dim 1) (c := [3]) rfl rfl (pull_new.mpr ⟨rfl, rfl⟩) bend_evaluates
      bend_differentiates bend_hasLogDet bend_jacobian bend_inverts rfl
    exact ⟨_, pull_new.mpr ⟨rfl, rfl⟩, h⟩
  · obtain ⟨S, T, -, -, h⟩ := C100_gaussian_pushforward (.dim 1) (c := [3]) rfl (push_new.mpr ⟨rfl, rfl, rfl⟩) bend_evaluates
      bend_differentiates bend_hasLogDet bend_jacobian bend_inverts rfl
    exact ⟨_, push_new.mpr ⟨rfl, rfl, rfl⟩, h⟩

/-- Non-vacuity of the conditional theorems: `T(a; x₁, x₂) = exp(a) x₂ + x₁²` at `x₁ = 5`, `a = 3`. -/
example : ∃ p, Pullback.new toy (Gaussian.ofDim 1).density [3] = .ok p ∧ IsProbabilityMeasure (lawOf (densityOn p [5] 1)) := by
  obtain ⟨S, T, -, -, h⟩ := C100_gaussian_conditional (.dim 1) (m := toy) (c := [3]) (x1 := [5]) (k := 1) rfl (by decide) (by decide)
    (pull_new.mpr ⟨rfl, rfl⟩) toy_evaluates toy_differentiates toy_hasLogDet toy_jacobian (toy_inverts le_rfl) rfl rfl
  exact ⟨_, pull_new.mpr ⟨rfl, rfl⟩, h⟩

end MParT
