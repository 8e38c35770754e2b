import Verif.Props.Universal
import Mathlib.Probability.CDF
/-!
# C118, C119: densities pulled back by maps of high enough order reach every distribution with continuous positive conditional densities
-/
namespace MParT
open Finset Spec MapFactory MeasureTheory Filter Topology

/-- **C118, densities.** For a reference with continuous log-density, every box and `γ` there are an order and an accuracy of the quadrature on the
target from which on there are coefficients with which the log-density that the pullback returns is within `γ` of the target's in the box. -/
theorem C118_density_partial {k n : ℕ} (h0 : 0 < n) (h2 : k + n < 2 ^ 32) {s s' : (i : Fin n) → (Fin (k + i + 1) → ℝ) → ℝ}
    (hs : ∀ i, IncreasingLast (s i) (s' i)) {d : Density} (hd : HasDensity d) (hdim : d.dim = n)
    (hcont : Continuous fun y : Fin n → ℝ => logp d (List.ofFn y)) (r : ℝ) {γ : ℝ} (hγ : 0 < γ) :
    ∃ ε₀ > 0, ∃ N, ∀ p ≥ N, ∀ o : MapOptions, Reaches o r → GoodQuad o → o.contDeriv = true → ∃ c, ∀ mem work, ∃ T P,
      createTriangular (k + n) n p o mem work = .ok (T, zeros T.numCoeffs) ∧ Pullback.new T d c = .ok P ∧
      ∀ x : List ℝ, x.length = k + n → (∀ v ∈ x, |v| ≤ r) → (∀ i : Fin n, PolyNear (quadDegree o + 1) (targetIntegrand (s' i) (coords x)) ε₀) →
        ∀ out, ∃ v, P.logDensity x out = .ok (some v) ∧ |v - (logp d (List.ofFn (targetImage s x)) + targetLogDet s' x)| ≤ γ := by
  have hK : IsCompact (Set.pi Set.univ fun _ : Fin (k + n) => Set.Icc (-r) r) := isCompact_univ_pi fun _ => isCompact_Icc
  have hG : Continuous fun (w : Fin (k + n) → ℝ) (i : Fin n) => s i fun j => w ⟨j, by have := i.2; have := j.2; omega⟩ :=
    continuous_pi fun i => (hs i).continuous.comp (continuous_pi fun j => continuous_apply _)
  obtain ⟨δ, hδ, hnear⟩ := near_values hK hG hcont (show 0 < γ / 2 by linarith)
  obtain ⟨N, h⟩ := C118_universal_partial h0 h2 hs r (lt_min (show 0 < δ / 2 by linarith) (show 0 < γ / 2 by linarith))
  refine ⟨δ / 2, by linarith, N, fun p hp o ho hQ hcd => ?_⟩
  obtain ⟨c, h⟩ := h p hp o ho hQ hcd
  refine ⟨c, fun mem work => ?_⟩
  obtain ⟨T, t1, t2⟩ := h mem work
  obtain ⟨b, mesh, -, -, h63⟩ := C63_triangular_partial (inputDim := k + n) (outputDim := n) h0 (by omega) h2 (reaches_good ho p) hQ
  obtain ⟨T', comps, s1, s2, s3, -, -, -, -, s7, -, s9, -⟩ := h63 mem work
  obtain ⟨rfl, -⟩ := Prod.mk.inj (Res.ok.inj (t1.symm.trans s1))
  refine ⟨T, _, t1, pull_new.2 ⟨s3.trans hdim.symm, rfl⟩, fun x hx hr hq out => ?_⟩
  have hf : Fits T c x := ⟨t2.size, by rw [hx, s2]⟩
  refine ⟨_, pull_logDensity s7 (s9 hcd).1 hd (s3.trans hdim.symm) hf out, ?_⟩
  obtain ⟨l, l1, l2⟩ := t2.logDet x hx hr out
  rw [(s9 hcd).1 c x hf] at l1
  have hl := Option.some.inj (Res.ok.inj l1)
  have hlen : (fn T c x).length = n := (s7 c x hf).1.trans s3
  have hvf : fn T c x = List.ofFn fun i : Fin n => (fn T c x).getD i 0 :=
    List.ext_getElem (by simp [hlen]) fun i h1 h2 => by simp [List.getElem?_eq_getElem h1]
  have h1 : |logp d (fn T c x) - logp d (List.ofFn (targetImage s x))| ≤ γ / 2 := by
    rw [hvf]
    refine hnear (fun j => coords x j) (fun j _ => ?_) _ ((dist_pi_le_iff hδ.le).2 fun i => ?_)
    · have hj : (j : ℕ) < x.length := by have := j.2; omega
      show x.getD j 0 ∈ Set.Icc (-r) r
      rw [List.getD_eq_getElem?_getD, List.getElem?_eq_getElem hj]
      exact abs_le.1 (hr _ (List.getElem_mem hj))
    · rw [Real.dist_eq]
      refine (t2.value x hx hr i _ (hq i)).trans ?_
      have := min_le_left (δ / 2) (γ / 2)
      linarith
  rw [hl, add_sub_add_comm]
  have := l2.trans (min_le_right _ _)
  exact (abs_add_le _ _).trans (by linarith)

/-- **C118, trained maps.** Coefficients at which the training objective is, up to `η`, as small as with any others fit the data at least as well as the target
does, up to `η + γ`. -/
theorem C118_trained_partial {k n : ℕ} (h0 : 0 < n) (h2 : k + n < 2 ^ 32)
    {s s' : (i : Fin n) → (Fin (k + i + 1) → ℝ) → ℝ} (hs : ∀ i, IncreasingLast (s i) (s' i)) {d : Density} (hd : HasDensity d) (hdim : d.dim = n)
    (hcont : Continuous fun y : Fin n → ℝ => logp d (List.ofFn y)) (r : ℝ) {γ : ℝ} (hγ : 0 < γ) :
    ∃ ε₀ > 0, ∃ N, ∀ p ≥ N, ∀ o : MapOptions, Reaches o r → GoodQuad o → o.contDeriv = true → ∀ mem work, ∃ T, createTriangular (k + n) n p o mem work = .ok (T, zeros T.numCoeffs) ∧
      ∀ data : List (List ℝ), data ≠ [] → (∀ x ∈ data, x.length = k + n ∧ (∀ v ∈ x, |v| ≤ r) ∧
        ∀ i : Fin n, PolyNear (quadDegree o + 1) (targetIntegrand (s' i) (coords x)) ε₀) →
        ∀ (c : List ℝ) (v η : ℝ), KL.objective T d c data = .ok (some v) →
          (∀ c' v', c'.length = T.numCoeffs → KL.objective T d c' data = .ok (some v') → v ≤ v' + η) → v ≤ targetObjective s s' d data + γ + η := by
  obtain ⟨ε₀, e0, N, h⟩ := C118_objective_partial h0 h2 hs hd hdim hcont r hγ
  refine ⟨ε₀, e0, N, fun p hp o ho hQ hcd mem work => ?_⟩
  obtain ⟨c', h⟩ := h p hp o ho hQ hcd
  obtain ⟨T, t1, t2, t3⟩ := h mem work
  refine ⟨T, t1, fun data hne hdata c v η hv hopt => ?_⟩
  obtain ⟨v', v1, v2⟩ := t3 data hne hdata
  have := hopt c' v' t2 v1
  have := (abs_le.1 v2).2
  linarith

/-! ### Conditional distributions -/

/-- `F i` is the distribution function of coordinate `k + i` given the preceding ones and `π i` the density: continuous in all of them together, the
density positive. -/
structure Spec.Conditionals {k n : ℕ} (F π : (i : Fin n) → (Fin (k + i + 1) → ℝ) → ℝ) : Prop where
  continuous : ∀ i, Continuous (F i)
  dens_continuous : ∀ i, Continuous (π i)
  dens_pos : ∀ i x, 0 < π i x
  slope : ∀ i x t, HasDerivAt (fun t => F i (Function.update x (Fin.last _) t)) (π i (Function.update x (Fin.last _) t)) t
  range : ∀ i x, 0 < F i x ∧ F i x < 1

/-- Logarithm of the density of the last `n` coordinates given the first `k`. -/
noncomputable def Spec.conditionalLogDensity {k n : ℕ} (π : (i : Fin n) → (Fin (k + i + 1) → ℝ) → ℝ) (x : List ℝ) : ℝ :=
  ∑ i, Real.log (π i (first _ (coords x)))

noncomputable def bell (x : ℝ) : ℝ := ProbabilityTheory.gaussianPDFReal 0 1 x

theorem bell_eq (x : ℝ) : bell x = (√(2 * Real.pi))⁻¹ * Real.exp (-x ^ 2 / 2) := by
  simp [bell, ProbabilityTheory.gaussianPDFReal]

theorem bell_pos (x : ℝ) : 0 < bell x := ProbabilityTheory.gaussianPDFReal_pos 0 1 x one_ne_zero

theorem bell_cont : Continuous bell := by
  have : bell = fun x => (√(2 * Real.pi))⁻¹ * Real.exp (-x ^ 2 / 2) := funext bell_eq
  rw [this]
  fun_prop

theorem log_bell (x : ℝ) : Real.log (bell x) = -x ^ 2 / 2 - 1 / 2 * Real.log (2 * Real.pi) := by
  have := Real.pi_pos
  rw [bell_eq, Real.log_mul (by positivity) (Real.exp_pos _).ne', Real.log_exp, Real.log_inv, Real.log_sqrt (by positivity)]
  ring

noncomputable def normalCdf (x : ℝ) : ℝ := ∫ t in Set.Iic x, bell t

theorem normalCdf_slope (x : ℝ) : HasDerivAt normalCdf (bell x) x := by
  have hi : Integrable bell := ProbabilityTheory.integrable_gaussianPDFReal 0 1
  have h : normalCdf = fun x => normalCdf 0 + ∫ t in (0 : ℝ)..x, bell t := by
    funext x
    have := intervalIntegral.integral_Iic_sub_Iic (f := bell) (μ := volume) (a := 0) (b := x) hi.integrableOn hi.integrableOn
    rw [← this, normalCdf, normalCdf]
    ring
  rw [h]
  exact (intervalIntegral.integral_hasDerivAt_right (bell_cont.intervalIntegrable _ _) (bell_cont.stronglyMeasurableAtFilter _ _) bell_cont.continuousAt).const_add _

theorem normalCdf_eq (x : ℝ) : normalCdf x = ProbabilityTheory.cdf (ProbabilityTheory.gaussianReal 0 1) x := by
  rw [ProbabilityTheory.cdf_eq_real, measureReal_def, ProbabilityTheory.gaussianReal_apply_eq_integral 0 one_ne_zero, ENNReal.toReal_ofReal]
  · rfl
  · exact integral_nonneg fun t => (bell_pos t).le

theorem normalCdf_surj {y : ℝ} (h0 : 0 < y) (h1 : y < 1) : ∃ x, normalCdf x = y := by
  have ht := ProbabilityTheory.tendsto_cdf_atTop (ProbabilityTheory.gaussianReal 0 1)
  have hb := ProbabilityTheory.tendsto_cdf_atBot (ProbabilityTheory.gaussianReal 0 1)
  obtain ⟨u, hu⟩ := (ht.eventually (lt_mem_nhds h1)).exists
  obtain ⟨l, hl⟩ := (hb.eventually (gt_mem_nhds h0)).exists
  rw [← normalCdf_eq] at hu hl
  have hc : Continuous normalCdf := Differentiable.continuous fun x => (normalCdf_slope x).differentiableAt
  exact mem_range_of_exists_le_of_exists_ge hc ⟨l, hl.le⟩ ⟨u, hu.le⟩

theorem normalCdf_inj : Function.Injective normalCdf :=
  (strictMono_of_deriv_pos fun x => by rw [(normalCdf_slope x).deriv]; exact bell_pos x).injective

/-- The quantiles of the standard normal distribution. -/
noncomputable def Spec.normalQuantile : ℝ → ℝ := Function.invFun normalCdf

theorem quantile_cdf (x : ℝ) : normalQuantile (normalCdf x) = x := Function.leftInverse_invFun normalCdf_inj x

theorem quantile_slope {y : ℝ} (h0 : 0 < y) (h1 : y < 1) : HasDerivAt normalQuantile (bell (normalQuantile y))⁻¹ y := by
  obtain ⟨x, rfl⟩ := normalCdf_surj h0 h1
  have hst : HasStrictDerivAt normalCdf (bell x) x :=
    hasStrictDerivAt_of_hasDerivAt_of_continuousAt (Eventually.of_forall normalCdf_slope) bell_cont.continuousAt
  rw [quantile_cdf]
  exact (hst.to_local_left_inverse (bell_pos x).ne' (Eventually.of_forall quantile_cdf)).hasDerivAt

/-- The increasing triangular transformation that carries a distribution to the standard normal one. -/
noncomputable def Spec.rearrangement {k n : ℕ} (F : (i : Fin n) → (Fin (k + i + 1) → ℝ) → ℝ) (i : Fin n) (x : Fin (k + i + 1) → ℝ) : ℝ := normalQuantile (F i x)

/-- The derivative of each component in its last input. -/
noncomputable def Spec.rearrangementSlope {k n : ℕ} (F π : (i : Fin n) → (Fin (k + i + 1) → ℝ) → ℝ) (i : Fin n) (x : Fin (k + i + 1) → ℝ) : ℝ :=
  π i x / bell (normalQuantile (F i x))

theorem rearranges {k n : ℕ} {F π : (i : Fin n) → (Fin (k + i + 1) → ℝ) → ℝ} (h : Conditionals F π) :
    (∀ i, IncreasingLast (rearrangement F i) (rearrangementSlope F π i)) ∧
    ∀ x, logp (Gaussian.ofDim n).density (List.ofFn (targetImage (rearrangement F) x)) + targetLogDet (rearrangementSlope F π) x = conditionalLogDensity π x := by
  have hqc : ∀ i, Continuous fun x => normalQuantile (F i x) := fun i => continuous_iff_continuousAt.2 fun x =>
    (quantile_slope (h.range i x).1 (h.range i x).2).continuousAt.comp (f := F i) (h.continuous i).continuousAt
  refine ⟨fun i => ⟨hqc i, (h.dens_continuous i).div (bell_cont.comp (hqc i)) fun x => (bell_pos _).ne',
    fun x => div_pos (h.dens_pos i x) (bell_pos _), fun x t => ?_⟩, fun x => ?_⟩
  · refine ((quantile_slope (h.range i _).1 (h.range i _).2).comp t (h.slope i x t)).congr_deriv ?_
    rw [mul_comm, ← div_eq_mul_inv]
    rfl
  · rw [std_logp n (by simp), targetLogDet, conditionalLogDensity]
    simp only [rearrangementSlope, rearrangement, Real.log_div (h.dens_pos _ _).ne' (bell_pos _).ne', log_bell, sum_sub_distrib, targetImage, List.map_ofFn, List.sum_ofFn,
      Function.comp, sum_const, card_univ, Fintype.card_fin, nsmul_eq_mul]
    rw [← sum_div, sum_neg_distrib]
    ring

theorem std_continuous (n : ℕ) : Continuous fun y : Fin n → ℝ => logp (Gaussian.ofDim n).density (List.ofFn y) := by
  have : (fun y : Fin n → ℝ => logp (Gaussian.ofDim n).density (List.ofFn y)) = _ := funext fun y => std_logp n (x := List.ofFn y) (by simp)
  rw [this]
  simp only [List.map_ofFn, List.sum_ofFn, Function.comp]
  fun_prop

/-- **C119.** Given continuous positive conditional densities, a box and `γ`, there are an order and an accuracy of the quadrature, on the transformation that carries
the distribution to the standard normal one, from which on the map that `CreateTriangular` builds has coefficients with which the log-density that the pullback
of the standard normal density returns is within `γ` of the given one in the box. -/
theorem C119_density_partial {k n : ℕ} (h0 : 0 < n) (h2 : k + n < 2 ^ 32) {F π : (i : Fin n) → (Fin (k + i + 1) → ℝ) → ℝ} (h : Conditionals F π) (r : ℝ) {γ : ℝ}
    (hγ : 0 < γ) :
    ∃ ε₀ > 0, ∃ N, ∀ p ≥ N, ∀ o : MapOptions, Reaches o r → GoodQuad o → o.contDeriv = true → ∃ c, ∀ mem work, ∃ T P,
      createTriangular (k + n) n p o mem work = .ok (T, zeros T.numCoeffs) ∧ Pullback.new T (Gaussian.ofDim n).density c = .ok P ∧
      ∀ x : List ℝ, x.length = k + n → (∀ v ∈ x, |v| ≤ r) →
        (∀ i : Fin n, PolyNear (quadDegree o + 1) (targetIntegrand (rearrangementSlope F π i) (coords x)) ε₀) →
        ∀ out, ∃ v, P.logDensity x out = .ok (some v) ∧ |v - conditionalLogDensity π x| ≤ γ := by
  obtain ⟨hs, he⟩ := rearranges h
  obtain ⟨ε₀, e0, N, hN⟩ := C118_density_partial h0 h2 hs (d := (Gaussian.ofDim n).density) (C53_density (.dim n)).2.1 rfl (std_continuous n) r hγ
  simp only [he] at hN
  exact ⟨ε₀, e0, N, hN⟩

/-- **C119, trained maps.** Coefficients at which the training objective is, up to `η`, as small as with any others fit the data at least as well as every distribution
of this kind that the quadrature resolves, up to `η + γ`. -/
theorem C119_trained_partial {k n : ℕ} (h0 : 0 < n) (h2 : k + n < 2 ^ 32) {F π : (i : Fin n) → (Fin (k + i + 1) → ℝ) → ℝ} (h : Conditionals F π) (r : ℝ) {γ : ℝ}
    (hγ : 0 < γ) :
    ∃ ε₀ > 0, ∃ N, ∀ p ≥ N, ∀ o : MapOptions, Reaches o r → GoodQuad o → o.contDeriv = true → ∀ mem work, ∃ T, createTriangular (k + n) n p o mem work = .ok (T, zeros T.numCoeffs) ∧
      ∀ data : List (List ℝ), data ≠ [] → (∀ x ∈ data, x.length = k + n ∧ (∀ v ∈ x, |v| ≤ r) ∧
        ∀ i : Fin n, PolyNear (quadDegree o + 1) (targetIntegrand (rearrangementSlope F π i) (coords x)) ε₀) →
        ∀ (c : List ℝ) (v η : ℝ), KL.objective T (Gaussian.ofDim n).density c data = .ok (some v) →
          (∀ c' v', c'.length = T.numCoeffs → KL.objective T (Gaussian.ofDim n).density c' data = .ok (some v') → v ≤ v' + η) →
          v ≤ -(data.map (conditionalLogDensity π)).sum / data.length + γ + η := by
  obtain ⟨hs, he⟩ := rearranges h
  obtain ⟨ε₀, e0, N, hN⟩ := C118_trained_partial h0 h2 hs (d := (Gaussian.ofDim n).density) (C53_density (.dim n)).2.1 rfl (std_continuous n) r hγ
  simp only [targetObjective, he] at hN
  exact ⟨ε₀, e0, N, hN⟩

/-! ### Total variation -/

theorem law_le {n : ℕ} {f g : (Fin n → ℝ) → ℝ} {a : ℝ} (ha : 0 ≤ a) {B : Set (Fin n → ℝ)} (hB : MeasurableSet B) (h : ∀ y ∈ B, f y ≤ a * g y) :
    lawOf f B ≤ ENNReal.ofReal a * lawOf g B := by
  rw [lawOf, lawOf, withDensity_apply _ hB, withDensity_apply _ hB, ← lintegral_const_mul' _ _ ENNReal.ofReal_ne_top]
  refine setLIntegral_mono' hB fun y hy => ?_
  rw [← ENNReal.ofReal_mul ha]
  exact ENNReal.ofReal_le_ofReal (h y hy)

/-- Two densities that are close in a box that carries all but `τ` of the mass of one of them have laws that are close on every set. -/
theorem laws_near {n : ℕ} {f g : (Fin n → ℝ) → ℝ} (hf : lawOf f Set.univ ≤ 1) (hg : lawOf g Set.univ = 1) {ε : ℝ} (hε : 0 < ε)
    {K : Set (Fin n → ℝ)} (hK : MeasurableSet K) (hKm : (lawOf g).real Kᶜ ≤ ε / 3) (h1 : ∀ y ∈ K, f y ≤ (1 + ε / 3) * g y) (h2 : ∀ y ∈ K, g y ≤ (1 + ε / 3) * f y)
    {B : Set (Fin n → ℝ)} (hB : MeasurableSet B) : |(lawOf f).real B - (lawOf g).real B| ≤ ε := by
  have i1 : IsFiniteMeasure (lawOf f) := ⟨hf.trans_lt ENNReal.one_lt_top⟩
  have i2 : IsProbabilityMeasure (lawOf g) := ⟨hg⟩
  have hf' : (lawOf f).real Set.univ ≤ 1 := ENNReal.toReal_mono ENNReal.one_ne_top hf
  have le : ∀ {f g : (Fin n → ℝ) → ℝ}, IsFiniteMeasure (lawOf g) → (∀ y ∈ K, f y ≤ (1 + ε / 3) * g y) → ∀ {A}, MeasurableSet A →
      (lawOf f).real (A ∩ K) ≤ (1 + ε / 3) * (lawOf g).real (A ∩ K) := by
    intro f g _ h A hA
    have ha : 0 ≤ 1 + ε / 3 := by positivity
    have := ENNReal.toReal_mono (ENNReal.mul_ne_top ENNReal.ofReal_ne_top (measure_ne_top _ _)) (law_le ha (hA.inter hK) fun y hy => h y hy.2)
    rwa [ENNReal.toReal_mul, ENNReal.toReal_ofReal ha] at this
  have s1 := measureReal_inter_add_sdiff (μ := lawOf f) (s := B) hK
  have s2 := measureReal_inter_add_sdiff (μ := lawOf g) (s := B) hK
  have s3 := measureReal_inter_add_sdiff (μ := lawOf f) (s := Set.univ) hK
  have s4 := measureReal_inter_add_sdiff (μ := lawOf g) (s := Set.univ) hK
  rw [probReal_univ] at s4
  have e1 : Set.univ \ K = Kᶜ := (Set.compl_eq_univ_sdiff K).symm
  rw [e1] at s3 s4
  have m1 : (lawOf f).real (B \ K) ≤ (lawOf f).real Kᶜ := measureReal_mono fun y hy => hy.2
  have m2 : (lawOf g).real (B \ K) ≤ (lawOf g).real Kᶜ := measureReal_mono fun y hy => hy.2
  have p1 : 0 ≤ (lawOf f).real (B \ K) := measureReal_nonneg
  have p2 : 0 ≤ (lawOf g).real (B \ K) := measureReal_nonneg
  have q1 : (lawOf g).real (B ∩ K) ≤ 1 := measureReal_le_one
  have q2 : (lawOf f).real (B ∩ K) ≤ 1 := (measureReal_mono (Set.subset_univ _)).trans hf'
  have q3 : (lawOf f).real (Set.univ ∩ K) ≤ 1 := (measureReal_mono (Set.subset_univ _)).trans hf'
  have l1 := le i1 h2 hB
  have l2 := le inferInstance h1 hB
  have l3 := le i1 h2 MeasurableSet.univ
  rw [abs_le]
  constructor <;> nlinarith

theorem exists_cube {n : ℕ} (μ : Measure (Fin n → ℝ)) [IsProbabilityMeasure μ] {τ : ℝ} (hτ : 0 < τ) : ∃ R, μ.real (Set.Icc (fun _ => -R) fun _ => R)ᶜ ≤ τ := by
  have hm : Monotone fun m : ℕ => Set.Icc (fun _ : Fin n => -(m : ℝ)) fun _ => (m : ℝ) := fun a b hab =>
    Set.Icc_subset_Icc (fun _ => neg_le_neg (Nat.cast_le.2 hab)) fun _ => Nat.cast_le.2 hab
  have hu : ⋃ m : ℕ, Set.Icc (fun _ : Fin n => -(m : ℝ)) (fun _ => (m : ℝ)) = Set.univ := by
    refine Set.eq_univ_of_forall fun y => Set.mem_iUnion.2 ?_
    obtain ⟨m, hm⟩ := exists_nat_ge ‖y‖
    exact ⟨m, fun i => (abs_le.1 ((norm_le_pi_norm y i).trans hm)).1, fun i => (abs_le.1 ((norm_le_pi_norm y i).trans hm)).2⟩
  have ht := tendsto_measure_iUnion_atTop (μ := μ) hm
  rw [hu, measure_univ] at ht
  have ht' := (ENNReal.tendsto_toReal ENNReal.one_ne_top).comp ht
  obtain ⟨m, hm⟩ := (ht'.eventually (lt_mem_nhds (show (1 : ENNReal).toReal - τ < (1 : ENNReal).toReal by linarith))).exists
  refine ⟨m, ?_⟩
  rw [probReal_compl_eq_one_sub measurableSet_Icc]
  rw [ENNReal.toReal_one] at hm
  have hm : 1 - τ < μ.real (Set.Icc (fun _ : Fin n => -(m : ℝ)) fun _ => (m : ℝ)) := hm
  linarith

theorem std_prob (n : ℕ) : IsProbabilityMeasure (lawOf (densityOn (Gaussian.ofDim n).density [] n)) := by
  obtain ⟨S, -, hS, -⟩ := C100_gaussian (.dim n)
  rw [← hS.2]
  exact Measure.isProbabilityMeasure_map hS.1.aemeasurable

/-- **C119, laws.** Given the leading inputs, the law whose density is the exact likelihood of the map gives every set the mass the target gives it, up to `ε`, when the order is
high enough and the expansions reach far enough. The bound is the same for all sets. -/
theorem C119_law_partial {k n : ℕ} (h0 : 0 < n) (h2 : k + n < 2 ^ 32) {F π : (i : Fin n) → (Fin (k + i + 1) → ℝ) → ℝ} (h : Conditionals F π) {lead : List ℝ}
    (hlead : lead.length = k) (hone : lawOf (fun y : Fin n → ℝ => Real.exp (conditionalLogDensity π (lead ++ List.ofFn y))) Set.univ = 1) {ε : ℝ} (hε : 0 < ε) :
    ∃ r N, ∀ p ≥ N, ∀ o : MapOptions, Reaches o r → GoodQuad o → o.contDeriv = true → ∃ b, ∃ (ts : Fin n → List (List ℕ)) (cs : Fin n → List ℝ), ∀ mem work, ∃ T split,
      createTriangular (k + n) n p o mem work = .ok (T, zeros T.numCoeffs) ∧ Trains o b k ts split T ∧ (List.ofFn cs).flatten.length = T.numCoeffs ∧
      split (List.ofFn cs).flatten = cs ∧ ∀ B : Set (Fin n → ℝ), MeasurableSet B →
        |(lawOf fun y => Real.exp (logp (Gaussian.ofDim n).density (List.ofFn (exactImage b.eff (positive o.posFuncType) k ts cs (lead ++ List.ofFn y)))
            + exactLogDet b.eff (positive o.posFuncType) k ts cs (lead ++ List.ofFn y))).real B
          - (lawOf fun y => Real.exp (conditionalLogDensity π (lead ++ List.ofFn y))).real B| ≤ ε := by
  obtain ⟨hs, he⟩ := rearranges h
  have hprob : IsProbabilityMeasure (lawOf fun y : Fin n → ℝ => Real.exp (conditionalLogDensity π (lead ++ List.ofFn y))) := ⟨hone⟩
  obtain ⟨R, hR⟩ := exists_cube (lawOf fun y : Fin n → ℝ => Real.exp (conditionalLogDensity π (lead ++ List.ofFn y))) (show 0 < ε / 3 by linarith)
  obtain ⟨r, hr1, hr2⟩ : ∃ r, R ≤ r ∧ ∀ v ∈ lead, |v| ≤ r := by
    refine ⟨max R (lead.map abs).sum, le_max_left _ _, fun v hv => le_max_of_le_right ?_⟩
    exact List.single_le_sum (fun w hw => by obtain ⟨u, -, rfl⟩ := List.mem_map.1 hw; exact abs_nonneg u) _ (List.mem_map_of_mem hv)
  have hγ : 0 < Real.log (1 + ε / 3) := Real.log_pos (by linarith)
  have hK : IsCompact (Set.pi Set.univ fun _ : Fin (k + n) => Set.Icc (-r) r) := isCompact_univ_pi fun _ => isCompact_Icc
  have hG : Continuous fun (w : Fin (k + n) → ℝ) (i : Fin n) => rearrangement F i fun j => w ⟨j, by have := i.2; have := j.2; omega⟩ :=
    continuous_pi fun i => (hs i).continuous.comp (continuous_pi fun j => continuous_apply _)
  obtain ⟨δ, hδ, hnear⟩ := near_values hK hG (std_continuous n) (show 0 < Real.log (1 + ε / 3) / 2 by linarith)
  obtain ⟨N, hN⟩ := imitate h0 h2 hs r (lt_min hδ (show 0 < Real.log (1 + ε / 3) / 2 by linarith))
  refine ⟨r, N, fun p hp o ho hQ hcd => ?_⟩
  obtain ⟨b, ts, cs, hN⟩ := hN p hp o ho hQ hcd
  refine ⟨b, ts, cs, fun mem work => ?_⟩
  obtain ⟨T, split, t1, t2, t3, t4, t5⟩ := hN mem work
  refine ⟨T, split, t1, t2, t3.size, t4, fun B hB => ?_⟩
  have key : ∀ y ∈ Set.Icc (fun _ : Fin n => -R) (fun _ => R),
      |(logp (Gaussian.ofDim n).density (List.ofFn (exactImage b.eff (positive o.posFuncType) k ts cs (lead ++ List.ofFn y)))
        + exactLogDet b.eff (positive o.posFuncType) k ts cs (lead ++ List.ofFn y)) - conditionalLogDensity π (lead ++ List.ofFn y)| ≤ Real.log (1 + ε / 3) := by
    intro y hy
    have hx : (lead ++ List.ofFn y).length = k + n := by simp [hlead]
    have hbox : ∀ v ∈ lead ++ List.ofFn y, |v| ≤ r := by
      intro v hv
      rcases List.mem_append.1 hv with hv | hv
      · exact hr2 v hv
      · obtain ⟨i, rfl⟩ := (List.mem_ofFn' y v).1 hv
        exact (abs_le.2 ⟨hy.1 i, hy.2 i⟩).trans hr1
    obtain ⟨u1, u2⟩ := t5 _ hx hbox
    have u3 : |logp (Gaussian.ofDim n).density (List.ofFn (exactImage b.eff (positive o.posFuncType) k ts cs (lead ++ List.ofFn y)))
        - logp (Gaussian.ofDim n).density (List.ofFn (targetImage (rearrangement F) (lead ++ List.ofFn y)))| ≤ Real.log (1 + ε / 3) / 2 := by
      refine hnear (fun j => coords (lead ++ List.ofFn y) j) (fun j _ => ?_) _ ((dist_pi_le_iff hδ.le).2 fun i => ?_)
      · have hj : (j : ℕ) < (lead ++ List.ofFn y).length := by have := j.2; omega
        show (lead ++ List.ofFn y).getD j 0 ∈ Set.Icc (-r) r
        rw [List.getD_eq_getElem?_getD, List.getElem?_eq_getElem hj]
        exact abs_le.1 (hbox _ (List.getElem_mem hj))
      · rw [Real.dist_eq]
        exact (u1 i).trans (min_le_left _ _)
    rw [← he, add_sub_add_comm]
    have := u2.trans (min_le_right _ _)
    exact (abs_add_le _ _).trans (by linarith)
  have hexp : ∀ {u v : ℝ}, u - v ≤ Real.log (1 + ε / 3) → Real.exp u ≤ (1 + ε / 3) * Real.exp v := by
    intro u v huv
    rw [← Real.exp_log (show 0 < 1 + ε / 3 by linarith), ← Real.exp_add]
    exact Real.exp_le_exp.2 (by linarith)
  refine laws_near ?_ hone hε measurableSet_Icc hR (fun y hy => hexp (abs_le.1 (key y hy)).2) (fun y hy => hexp ?_) hB
  · have := (t2.likelihood (Gaussian.ofDim n).density _ lead t3.size hlead).2.2 Set.univ MeasurableSet.univ
    rw [t4] at this
    rw [this]
    have := std_prob n
    exact prob_le_one
  · have := (abs_le.1 (key y hy)).1
    linarith

/-- The second input is normal with variance 1 and mean the square of the first. -/
theorem curved : Conditionals (k := 1) (n := 1) (fun _ x => normalCdf (x (Fin.last _) - x 0 ^ 2)) (fun _ x => bell (x (Fin.last _) - x 0 ^ 2)) := by
  have hc : Continuous normalCdf := Differentiable.continuous fun x => (normalCdf_slope x).differentiableAt
  have hmono : StrictMono normalCdf := strictMono_of_deriv_pos fun x => by rw [(normalCdf_slope x).deriv]; exact bell_pos x
  refine ⟨fun i => hc.comp (by fun_prop), fun i => bell_cont.comp (by fun_prop), fun i x => bell_pos _, fun i x t => ?_, fun i x => ⟨?_, ?_⟩⟩
  · have h0 : (0 : Fin (1 + (i : ℕ) + 1)) ≠ Fin.last _ := by
      intro h
      have := congrArg Fin.val h
      simp at this
    simp only [Function.update_self, Function.update_of_ne h0]
    exact ((normalCdf_slope _).comp t ((hasDerivAt_id t).sub_const _)).congr_deriv (by simp)
  · refine lt_of_le_of_lt ?_ (hmono (sub_one_lt _))
    rw [normalCdf_eq]
    exact ProbabilityTheory.cdf_nonneg _ _
  · refine lt_of_lt_of_le (hmono (lt_add_one _)) ?_
    rw [normalCdf_eq]
    exact ProbabilityTheory.cdf_le_one _ _

theorem curved_one (a : ℝ) : lawOf (fun y : Fin 1 → ℝ => Real.exp (conditionalLogDensity (k := 1) (n := 1) (fun _ x => bell (x (Fin.last _) - x 0 ^ 2)) ([a] ++ List.ofFn y))) Set.univ = 1 := by
  have h : ∀ y : Fin 1 → ℝ, Real.exp (conditionalLogDensity (k := 1) (n := 1) (fun _ x => bell (x (Fin.last _) - x 0 ^ 2)) ([a] ++ List.ofFn y)) = bell (y 0 - a ^ 2) := by
    intro y
    simp [conditionalLogDensity, first, coords, Real.exp_log (bell_pos _)]
  simp only [h]
  rw [lawOf, withDensity_apply _ MeasurableSet.univ, Measure.restrict_univ]
  have hmp := volume_preserving_funUnique (Fin 1) ℝ
  have hm : Measurable fun t : ℝ => ENNReal.ofReal (bell (t - a ^ 2)) := (bell_cont.comp (continuous_id.sub continuous_const)).measurable.ennreal_ofReal
  have := hmp.lintegral_comp hm
  refine this.trans ?_
  rw [lintegral_sub_right_eq_self (fun t => ENNReal.ofReal (bell t)) (a ^ 2)]
  exact ProbabilityTheory.lintegral_gaussianPDFReal_eq_one 0 one_ne_zero

/-- The log-density of the pullback is within `10⁻⁶` of that of the curved distribution on the box of radius 10, from some order on: five points resolve it. -/
example : ∃ N, ∀ p ≥ N, ∃ c, ∀ mem work, ∃ T P, createTriangular 2 1 p bendOptions mem work = .ok (T, zeros T.numCoeffs) ∧
    Pullback.new T (Gaussian.ofDim 1).density c = .ok P ∧ ∀ x y : ℝ, |x| ≤ 10 → |y| ≤ 10 → ∀ out, ∃ v, P.logDensity [x, y] out = .ok (some v) ∧
      |v - Real.log (bell (y - x ^ 2))| ≤ 1e-6 := by
  obtain ⟨ε₀, e0, N, h⟩ := C119_density_partial (by decide) (by decide) curved 10 (show (0 : ℝ) < 1e-6 by norm_num)
  refine ⟨N, fun p hp => ?_⟩
  obtain ⟨c, h⟩ := h p hp bendOptions (bend_options _).1 (bend_options 0).2 rfl
  refine ⟨c, fun mem work => ?_⟩
  obtain ⟨T, P, t1, t2, t3⟩ := h mem work
  refine ⟨T, P, t1, t2, fun x y hx hy out => ?_⟩
  obtain ⟨v, v1, v2⟩ := t3 [x, y] rfl (by simpa using ⟨hx, hy⟩) (fun i => ⟨Polynomial.C (coords [x, y] (1 + i)), by rw [Polynomial.natDegree_C]; show _ < 5; omega, fun t _ _ => by
    simp [targetIntegrand, rearrangementSlope, quantile_cdf, div_self (bell_pos _).ne']
    linarith⟩) out
  refine ⟨v, v1, ?_⟩
  simpa [conditionalLogDensity, first, coords] using v2

/-- Trained maps fit every data set in the box of radius 10 as well as the curved distribution does, up to `10⁻⁶` and what training leaves. -/
example : ∃ N, ∀ p ≥ N, ∀ mem work, ∃ T, createTriangular 2 1 p bendOptions mem work = .ok (T, zeros T.numCoeffs) ∧
    ∀ data : List (ℝ × ℝ), data ≠ [] → (∀ x ∈ data, |x.1| ≤ 10 ∧ |x.2| ≤ 10) → ∀ (c : List ℝ) (v η : ℝ),
      KL.objective T (Gaussian.ofDim 1).density c (data.map fun x => [x.1, x.2]) = .ok (some v) →
      (∀ c' v', c'.length = T.numCoeffs → KL.objective T (Gaussian.ofDim 1).density c' (data.map fun x => [x.1, x.2]) = .ok (some v') → v ≤ v' + η) →
      v ≤ -(data.map fun x => Real.log (bell (x.2 - x.1 ^ 2))).sum / data.length + 1e-6 + η := by
  obtain ⟨ε₀, e0, N, h⟩ := C119_trained_partial (by decide) (by decide) curved 10 (show (0 : ℝ) < 1e-6 by norm_num)
  refine ⟨N, fun p hp mem work => ?_⟩
  obtain ⟨T, t1, t2⟩ := h p hp bendOptions (bend_options _).1 (bend_options 0).2 rfl mem work
  refine ⟨T, t1, fun data hne hdata c v η hv hopt => ?_⟩
  have := t2 (data.map fun x => [x.1, x.2]) (by simpa using hne) (fun z hz => ?_) c v η hv hopt
  · simpa [Function.comp_def, conditionalLogDensity, first, coords] using this
  · obtain ⟨x, hx, rfl⟩ := List.mem_map.1 hz
    refine ⟨rfl, by simpa using hdata x hx, fun i => ⟨Polynomial.C (coords [x.1, x.2] (1 + i)), by rw [Polynomial.natDegree_C]; show _ < 5; omega, fun t _ _ => ?_⟩⟩
    simp [targetIntegrand, rearrangementSlope, quantile_cdf, div_self (bell_pos _).ne']
    linarith

/-- Given that the first input is 3, the law of the exact map gets as close to the normal law with mean 9 as desired. -/
example {ε : ℝ} (hε : 0 < ε) : ∃ N, ∀ p ≥ N, ∃ b, ∃ (ts : Fin 1 → List (List ℕ)) (cs : Fin 1 → List ℝ), ∀ mem work, ∃ T split,
    createTriangular 2 1 p bendOptions mem work = .ok (T, zeros T.numCoeffs) ∧ Trains bendOptions b 1 ts split T ∧ split (List.ofFn cs).flatten = cs ∧
    ∀ B : Set (Fin 1 → ℝ), MeasurableSet B →
      |(lawOf fun y => Real.exp (logp (Gaussian.ofDim 1).density (List.ofFn (exactImage b.eff (positive bendOptions.posFuncType) 1 ts cs ([3] ++ List.ofFn y)))
          + exactLogDet b.eff (positive bendOptions.posFuncType) 1 ts cs ([3] ++ List.ofFn y))).real B
        - (lawOf fun y => bell (y 0 - 9)).real B| ≤ ε := by
  obtain ⟨r, N, h⟩ := C119_law_partial (by decide) (by decide) curved (lead := [3]) rfl (curved_one 3) hε
  refine ⟨N, fun p hp => ?_⟩
  obtain ⟨b, ts, cs, h⟩ := h p hp bendOptions (bend_options r).1 (bend_options r).2 rfl
  refine ⟨b, ts, cs, fun mem work => ?_⟩
  obtain ⟨T, split, t1, t2, -, t4, t5⟩ := h mem work
  refine ⟨T, split, t1, t2, t4, fun B hB => ?_⟩
  have he : (fun y : Fin 1 → ℝ => bell (y 0 - 9))
      = fun y => Real.exp (conditionalLogDensity (k := 1) (n := 1) (fun _ x => bell (x (Fin.last _) - x 0 ^ 2)) ([3] ++ List.ofFn y)) := by
    funext y
    simp [conditionalLogDensity, first, coords, Real.exp_log (bell_pos _)]
    norm_num
  rw [he]
  exact t5 B hB

end MParT
