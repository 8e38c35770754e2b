import Verif.Props.TriangularSamples
/-!
# C115: pushforward densities and samplers of triangular maps built by the factory, against the exact triangular map

A pushforward sampler evaluates the map on draws of the reference, with a quadrature error. A pushforward density inverts the map, with quadrature and search errors, and evaluates the reference
and the determinant at the result. Here: both describe the image of the reference under the exact map, and each other, up to explicit errors.
-/
namespace MParT
open Spec Finset MapFactory Worker MonotoneComponent MeasureTheory

/-- The exact triangular map of a square map. -/
noncomputable abbrev Spec.exactSquare (o : MapOptions) (b : Basis ℝ) {n : Nat} (ts : Fin n → List (List Nat)) (cs : Fin n → List ℝ) : (Fin n → ℝ) → Fin n → ℝ :=
  exactTriangular b.eff (positive o.posFuncType) [] ts cs

/-- The logarithm of the density, at the image of `x`, of the image of a reference `d` under the exact map. -/
noncomputable def Spec.exactPush (o : MapOptions) (b : Basis ℝ) {n : Nat} (ts : Fin n → List (List Nat)) (cs : Fin n → List ℝ) (d : Density) (x : Fin n → ℝ) : ℝ :=
  logp d (List.ofFn x) - Real.log (fderiv ℝ (exactSquare o b ts cs) x).det

/-- The draws `z` of the reference for which the pushforward sampler returns a point of `B`. -/
def Spec.pushedInto (T : CMap) (c out : List ℝ) {n : Nat} (B : Set (Fin n → ℝ)) : Set (Fin n → ℝ) :=
  {z | ∃ v, Pushforward.sample T n c (List.ofFn z) out = .ok (List.ofFn v) ∧ v ∈ B}

section
variable {o : MapOptions} {b : Basis ℝ} {n : Nat} {ts : Fin n → List (List Nat)} {cs : Fin n → List ℝ} {T : CMap} {c : List ℝ}
  {W m L ε ρ r : ℝ}

/-- `LogDeterminant` is that of the exact map. -/
theorem approx_logDet (h : Approximates o b [] ts cs T c) (hcd : o.contDeriv = true) (hout : T.outputDim = n) (y : Fin n → ℝ) :
    0 < (fderiv ℝ (exactSquare o b ts cs) y).det ∧ T.logDet c (List.ofFn y) (some 0) = .ok (some (Real.log (fderiv ℝ (exactSquare o b ts cs) y).det)) := by
  obtain ⟨P, hP⟩ := ((C52_dimensions (m := T) (d := (Gaussian.ofDim n).density) c).1).2 hout
  have hd := (C53_density (.dim n)).2.1
  obtain ⟨h0, h1⟩ := h.density hcd _ P hd hP y (some 0)
  refine ⟨h0, ?_⟩
  obtain ⟨-, rfl⟩ := pull_new.mp hP
  obtain ⟨v, e1, h1⟩ := Res.bind_eq_ok.1 h1
  rw [List.nil_append, hout, ← List.nil_append (List.ofFn y), h.evaluates y _ (by simp)] at e1
  obtain rfl := Res.ok.inj e1
  rw [hd _ (h.outputs y), Res.bind_ok] at h1
  obtain ⟨l, e2, h1⟩ := Res.bind_eq_ok.1 h1
  have h1 := Res.ok.inj h1
  rw [List.nil_append] at e2
  rw [e2]
  cases l with
  | none => simp [addLD] at h1
  | some l => simpa [addLD] using h1

/-- **C115.** The pushforward density at the exact image of a resolved point `x`: `LogDensity` returns the exact expression, at a point within `r` of `x`. -/
theorem C115_density (h : Approximates o b [] ts cs T c) (hS : SolvesNear o b 0 ts T) (hsl : Slices ts cs c) (hnug : o.nugget = 0) (hcd : o.contDeriv = true)
    (hout : T.outputDim = n) (hr : Room n W m L ε ρ r) {d Q : Density} (hd : HasDensity d) (hdim : d.dim = n) (hQ : Pushforward.new T d c = .ok Q)
    {x : Fin n → ℝ} (hx : Resolved o b [] ts cs W m L ε ρ x) :
    ∃ v : Fin n → ℝ, (∀ i, |v i - x i| ≤ r) ∧ ∀ out, Q.logDensity (List.ofFn (exactSquare o b ts cs x)) out = .ok (some (exactPush o b ts cs d v)) := by
  obtain ⟨v, hv, hvx⟩ := C114_draw (lead := []) hS hsl hnug hr hx (out := List.replicate n 0) (by simp)
  refine ⟨v, hvx, fun out => ?_⟩
  obtain ⟨-, -, rfl⟩ := push_new.mp hQ
  simp only [Pushforward.logDensity, hout]
  rw [hv, Res.bind_ok, hd _ (by simp [hdim]), Res.bind_ok, (approx_logDet h hcd hout v).2, Res.bind_ok]
  rfl

/-- The mass of the image of a set. -/
theorem image_mass (h : Approximates o b [] ts cs T c) (hcd : o.contDeriv = true) (hout : T.outputDim = n) {X : Set (Fin n → ℝ)} (hX : MeasurableSet X) (q : (Fin n → ℝ) → ℝ) :
    lawOf (fun y => (fderiv ℝ (exactSquare o b ts cs) y).det * q (exactSquare o b ts cs y)) X = lawOf q (exactSquare o b ts cs '' X) := by
  have hd := h.differentiable
  have hi := h.injective
  rw [lawOf, lawOf, withDensity_apply _ hX, withDensity_apply _ ((hd.continuous.measurableEmbedding hi).measurableSet_image.2 hX),
    lintegral_image_eq_lintegral_abs_det_fderiv_mul volume hX (fun y _ => (hd y).hasFDerivAt.hasFDerivWithinAt) hi.injOn]
  refine lintegral_congr fun y => ?_
  have h0 := (approx_logDet h hcd hout y).1
  rw [abs_of_pos h0, ENNReal.ofReal_mul h0.le]

/-- **C115.** Values and masses: on a measurable set `G` of resolved points where the exact log-density of the image changes by at most `δ` between points within `r`, the log-density is
within `δ` of that of the image of the reference under the exact map, and the mass given to an exact image is the mass of the reference up to the factor `exp(± δ)`. -/
theorem C115_mass (h : Approximates o b [] ts cs T c) (hS : SolvesNear o b 0 ts T) (hsl : Slices ts cs c) (hnug : o.nugget = 0) (hcd : o.contDeriv = true)
    (hout : T.outputDim = n) (hr : Room n W m L ε ρ r) {d Q : Density} (hd : HasDensity d) (hdim : d.dim = n) (hQ : Pushforward.new T d c = .ok Q)
    {G : Set (Fin n → ℝ)} (hG : ∀ y ∈ G, Resolved o b [] ts cs W m L ε ρ y) {δ : ℝ}
    (hδ : ∀ y ∈ G, ∀ v : Fin n → ℝ, (∀ i, |v i - y i| ≤ r) → |exactPush o b ts cs d v - exactPush o b ts cs d y| ≤ δ) :
    (∀ y ∈ G, |logp Q (List.ofFn (exactSquare o b ts cs y)) - exactPush o b ts cs d y| ≤ δ) ∧ ∀ X ⊆ G, MeasurableSet X →
      lawOf (densityOn d [] n) X ≤ ENNReal.ofReal (Real.exp δ) * lawOf (densityOn Q [] n) (exactSquare o b ts cs '' X) ∧
      lawOf (densityOn Q [] n) (exactSquare o b ts cs '' X) ≤ ENNReal.ofReal (Real.exp δ) * lawOf (densityOn d [] n) X := by
  have hval : ∀ y ∈ G, |logp Q (List.ofFn (exactSquare o b ts cs y)) - exactPush o b ts cs d y| ≤ δ := fun y hy => by
    obtain ⟨v, hv, e⟩ := C115_density h hS hsl hnug hcd hout hr hd hdim hQ (hG y hy)
    have : logp Q (List.ofFn (exactSquare o b ts cs y)) = exactPush o b ts cs d v := by rw [logp, e]; rfl
    rw [this]
    exact hδ y hy v hv
  refine ⟨hval, fun X hXG hX => ?_⟩
  rw [← image_mass h hcd hout hX]
  have hpt : ∀ y, (fderiv ℝ (exactSquare o b ts cs) y).det * densityOn Q [] n (exactSquare o b ts cs y)
      = Real.exp (logp Q (List.ofFn (exactSquare o b ts cs y)) + Real.log (fderiv ℝ (exactSquare o b ts cs) y).det) := fun y => by
    rw [Real.exp_add, Real.exp_log (approx_logDet h hcd hout y).1, mul_comm]; rfl
  constructor
  · refine lawOf_le hX (Real.exp_pos δ).le fun y hy => ?_
    have h1 := abs_le.1 (hval y (hXG hy))
    simp only [hpt, exactPush] at h1 ⊢
    rw [densityOn, List.nil_append, ← Real.exp_add]
    exact Real.exp_le_exp.2 (by linarith [h1.1])
  · refine lawOf_le hX (Real.exp_pos δ).le fun y hy => ?_
    have h1 := abs_le.1 (hval y (hXG hy))
    simp only [hpt, exactPush] at h1 ⊢
    rw [densityOn, List.nil_append, ← Real.exp_add]
    exact Real.exp_le_exp.2 (by linarith [h1.2])

/-- **C115.** The law of the samples and the pushforward density: for draws of the reference, the chance of a sample in `B` is at most `exp δ` times the mass the pushforward density gives to
the exact images of points of `G` within `ε` of `B`, plus the mass of the reference outside of `G`, and at least `exp(-δ)` times the mass it gives to the exact images farther
than `ε` from the complement of `B`. -/
theorem C115_law (h : Approximates o b [] ts cs T c) (hS : SolvesNear o b 0 ts T) (hsl : Slices ts cs c) (hnug : o.nugget = 0) (hcd : o.contDeriv = true)
    (hin : T.inputDim = n) (hout : T.outputDim = n) (hr : Room n W m L ε ρ r) {d Q : Density} (hd : HasDensity d) (hdim : d.dim = n) (hQ : Pushforward.new T d c = .ok Q)
    {G : Set (Fin n → ℝ)} (hGm : MeasurableSet G) (hG : ∀ y ∈ G, Resolved o b [] ts cs W m L ε ρ y) {δ : ℝ}
    (hδ : ∀ y ∈ G, ∀ v : Fin n → ℝ, (∀ i, |v i - y i| ≤ r) → |exactPush o b ts cs d v - exactPush o b ts cs d y| ≤ δ)
    {out : List ℝ} (ho : out.length = n) (B : Set (Fin n → ℝ)) :
    lawOf (densityOn d [] n) (pushedInto T c out B)
        ≤ ENNReal.ofReal (Real.exp δ) * lawOf (densityOn Q [] n) (exactSquare o b ts cs '' G ∩ Metric.cthickening ε B) + lawOf (densityOn d [] n) Gᶜ ∧
      ENNReal.ofReal (Real.exp (-δ)) * lawOf (densityOn Q [] n) (exactSquare o b ts cs '' G \ Metric.cthickening ε Bᶜ)
        ≤ lawOf (densityOn d [] n) (pushedInto T c out B) := by
  set E := exactSquare o b ts cs with hE
  obtain ⟨-, hmass⟩ := C115_mass h hS hsl hnug hcd hout hr hd hdim hQ hG hδ
  have hEc : Continuous E := h.differentiable.continuous
  have hsample : ∀ y : Fin n → ℝ, ∃ v : Fin n → ℝ, Pushforward.sample T n c (List.ofFn y) out = .ok (List.ofFn v) ∧
      (y ∈ G → dist (E y) v ≤ ε) := fun y => by
    refine ⟨fun i => (fn T c (List.ofFn y)).getD i 0, ?_, fun hy => ?_⟩
    · rw [Pushforward.sample, if_neg (by simp [hout]), if_neg (by simp [hin, hout])]
      have := h.evaluates y out ho
      rw [List.nil_append] at this
      rw [this]
      have hl := h.outputs y
      rw [List.nil_append] at hl
      congr 1
      exact List.ext_getElem (by simp [hl]) fun i h1 h2 => by simp [List.getElem?_eq_getElem h1]
    · rw [dist_pi_le_iff hr.nonneg]
      intro i
      have hW0 : 0 ≤ W := by
        have h1 := (abs_nonneg _).trans ((hG y hy).size i)
        have h2 := hr.room
        have h3 := div_nonneg hr.lipschitz hr.slope.le
        have h4 := div_nonneg hr.nonneg hr.slope.le
        have h5 : (0 : ℝ) ≤ max (1e-6 / 2) (1e-6 / m) := le_max_of_le_left (by norm_num)
        have : 0 ≤ r := by rw [hr.radius]; positivity
        linarith
      have hv := (hG y hy).well.value i _ ⟨fun _ _ => rfl, fun j _ => by simpa using hW0⟩
      rw [hnug] at hv
      rw [dist_comm, Real.dist_eq]
      simpa using h.values y i ε hv
  constructor
  · have hsub : pushedInto T c out B ⊆ G ∩ E ⁻¹' Metric.cthickening ε B ∪ Gᶜ := by
      rintro z ⟨v, hv, hvB⟩
      by_cases hz : z ∈ G
      · obtain ⟨v', hv', hd'⟩ := hsample z
        obtain rfl := List.ofFn_injective (Res.ok.inj (hv.symm.trans hv'))
        exact .inl ⟨hz, Metric.mem_cthickening_of_dist_le (E z) v ε B hvB (hd' hz)⟩
      · exact .inr hz
    refine (measure_mono hsub).trans ((measure_union_le _ _).trans (add_le_add_left ?_ _))
    have := (hmass (G ∩ E ⁻¹' Metric.cthickening ε B) Set.inter_subset_left (hGm.inter (hEc.measurable Metric.isClosed_cthickening.measurableSet))).1
    rwa [Set.image_inter_preimage] at this
  · have hsub : G \ E ⁻¹' Metric.cthickening ε Bᶜ ⊆ pushedInto T c out B := by
      rintro z ⟨hzG, hzB⟩
      obtain ⟨v, hv, hd'⟩ := hsample z
      refine ⟨v, hv, ?_⟩
      by_contra hvB
      exact hzB (Metric.mem_cthickening_of_dist_le (E z) v ε Bᶜ hvB (hd' hzG))
    refine le_trans ?_ (measure_mono hsub)
    have h2 := (hmass (G \ E ⁻¹' Metric.cthickening ε Bᶜ) Set.sdiff_subset (hGm.diff (hEc.measurable Metric.isClosed_cthickening.measurableSet))).2
    have himg : E '' (G \ E ⁻¹' Metric.cthickening ε Bᶜ) = E '' G \ Metric.cthickening ε Bᶜ := by
      rw [Set.sdiff_eq, ← Set.preimage_compl, Set.image_inter_preimage, ← Set.sdiff_eq]
    rw [himg] at h2
    calc _ ≤ ENNReal.ofReal (Real.exp (-δ)) * (ENNReal.ofReal (Real.exp δ) * lawOf (densityOn d [] n) (G \ E ⁻¹' Metric.cthickening ε Bᶜ)) := by gcongr
      _ = _ := by rw [← mul_assoc, ← ENNReal.ofReal_mul (Real.exp_pos _).le, ← Real.exp_add]; simp

/-- **C115.** Over the standard normal distribution, for every square map built by the factory: with `κ` the change of the exact log-determinant between points within `r`,
`δ = n r (ρ + r/2) + κ`. -/
theorem C115_gaussian {p : Nat} (h0 : 0 < n) (h2 : n < 2 ^ 32) (hB : GoodBasis o p) (hQ : GoodQuad o) (hnug : o.nugget = 0) (hcd : o.contDeriv = true) :
    ∃ (b : Basis ℝ) (ts : Fin n → List (List Nat)), IsBasisOf o (fun n => n ≤ p) b ∧ (∀ i : Fin n, IsTotalOrder (i + 1) p (ts i)) ∧
      ∀ mem work, ∃ T, createTriangular n n p o mem work = .ok (T, zeros T.numCoeffs) ∧ ∀ c : List ℝ, c.length = T.numCoeffs →
      ∃ cs Q, Slices ts cs c ∧ Pushforward.new T (Gaussian.ofDim n).density c = .ok Q ∧
      ∀ (W m L ε ρ r κ : ℝ) (G B : Set (Fin n → ℝ)) (out : List ℝ), out.length = n → Room n W m L ε ρ r → MeasurableSet G →
        (∀ y ∈ G, Resolved o b [] ts cs W m L ε ρ y ∧ ∀ v : Fin n → ℝ, (∀ i, |v i - y i| ≤ r) →
          |Real.log (fderiv ℝ (exactSquare o b ts cs) v).det - Real.log (fderiv ℝ (exactSquare o b ts cs) y).det| ≤ κ) →
        (∀ y ∈ G, |logp Q (List.ofFn (exactSquare o b ts cs y)) - exactPush o b ts cs (Gaussian.ofDim n).density y| ≤ n * (r * (ρ + r / 2)) + κ) ∧
        (Measure.pi fun _ : Fin n => ProbabilityTheory.gaussianReal 0 1) (pushedInto T c out B)
            ≤ ENNReal.ofReal (Real.exp (n * (r * (ρ + r / 2)) + κ)) * lawOf (densityOn Q [] n) (exactSquare o b ts cs '' G ∩ Metric.cthickening ε B)
              + (Measure.pi fun _ : Fin n => ProbabilityTheory.gaussianReal 0 1) Gᶜ ∧
          ENNReal.ofReal (Real.exp (-(n * (r * (ρ + r / 2)) + κ))) * lawOf (densityOn Q [] n) (exactSquare o b ts cs '' G \ Metric.cthickening ε Bᶜ)
            ≤ (Measure.pi fun _ : Fin n => ProbabilityTheory.gaussianReal 0 1) (pushedInto T c out B) := by
  obtain ⟨b, ts, hb, hts, h⟩ := C113_inverse h0 le_rfl h2 hB hQ
  refine ⟨b, ts, hb, fun i => by simpa using hts i, fun mem work => ?_⟩
  obtain ⟨T, t1, hA, hS⟩ := h mem work
  have hdims : T.inputDim = n ∧ T.outputDim = n := by
    obtain ⟨b', mesh', -, -, h63⟩ := C63_triangular_partial h0 le_rfl h2 hB hQ
    obtain ⟨T', comps, s1, s2, s3, s4, -⟩ := h63 mem work
    obtain ⟨rfl, -⟩ := Prod.mk.inj (Res.ok.inj (t1.symm.trans s1))
    exact ⟨s2, s3⟩
  refine ⟨T, t1, fun c hc => ?_⟩
  obtain ⟨cs, hsl, hap⟩ := hA c hc
  have hd := C53_density (.dim n)
  have hQn : Pushforward.new T (Gaussian.ofDim n).density c = .ok _ := push_new.mpr ⟨hdims.1.trans hd.1.symm, by rw [hdims.1, hdims.2], rfl⟩
  refine ⟨cs, _, hsl, hQn, fun W m L ε ρ r κ G B out ho hr hGm hG => ?_⟩
  rw [Nat.sub_self] at hS
  have hpi := (std_draws n).2
  rw [← hpi]
  have hδ : ∀ y ∈ G, ∀ v : Fin n → ℝ, (∀ i, |v i - y i| ≤ r) →
      |exactPush o b ts cs (Gaussian.ofDim n).density v - exactPush o b ts cs (Gaussian.ofDim n).density y| ≤ n * (r * (ρ + r / 2)) + κ := fun y hy v hv => by
    have hk := abs_le.1 ((hG y hy).2 v hv)
    have hlp : |logp (Gaussian.ofDim n).density (List.ofFn v) - logp (Gaussian.ofDim n).density (List.ofFn y)| ≤ n * (r * (ρ + r / 2)) := by
      rw [std_logp n (by simp), std_logp n (by simp), List.map_ofFn, List.map_ofFn, List.sum_ofFn, List.sum_ofFn]
      simp only [Function.comp]
      rw [sub_sub_sub_cancel_right, ← mul_sub, ← Finset.sum_sub_distrib, abs_mul]
      calc _ ≤ |-(1 / 2 : ℝ)| * ∑ i : Fin n, (2 * (r * (ρ + r / 2))) := by
            refine mul_le_mul_of_nonneg_left ((Finset.abs_sum_le_sum_abs _ _).trans (Finset.sum_le_sum fun i _ => ?_)) (abs_nonneg _)
            have h1 := hv i
            have h2 := (hG y hy).1.size i
            rw [show v i ^ 2 - y i ^ 2 = (v i - y i) * (2 * y i + (v i - y i)) by ring, abs_mul, show 2 * (r * (ρ + r / 2)) = r * (2 * ρ + r) by ring]
            refine mul_le_mul h1 ((abs_add_le _ _).trans ?_) (abs_nonneg _) ((abs_nonneg _).trans h1)
            rw [abs_mul, abs_two]
            linarith
        _ = _ := by rw [abs_neg, abs_of_pos (by norm_num : (0 : ℝ) < 1 / 2)]; simp; ring
    have hlp := abs_le.1 hlp
    simp only [exactPush]
    exact abs_le.2 ⟨by linarith [hlp.1, hk.2], by linarith [hlp.2, hk.1]⟩
  have hap := hap [] (by simp)
  exact ⟨(C115_mass hap hS hsl hnug hcd hdims.2 hr hd.2.1 hd.1 hQn (fun y hy => (hG y hy).1) hδ).1,
    C115_law hap hS hsl hnug hcd hdims.1 hdims.2 hr hd.2.1 hd.1 hQn hGm (fun y hy => (hG y hy).1) hδ ho B⟩

end
/-! ### Non-vacuity -/

/-- Non-vacuity: the map `(1 + x₁, x₂ exp(x₁/10))` built by the factory, over the standard normal distribution. At the image of every point of the square `[-2, 2]²` the pushforward
density is within `3e-3` of the logarithm of the density of the image, which is that of the reference at the point, minus `x₁/10`. -/
example (mem : Nat → Option ℝ) (work : List ℝ) : ∃ T Q, createTriangular 2 2 2 productOptions mem work = .ok (T, zeros T.numCoeffs) ∧
    Pushforward.new T (Gaussian.ofDim 2).density [1, 0, 0, 0, 0, 0, 0, 1 / 10, 0] = .ok Q ∧ ∀ y : Fin 2 → ℝ, |y 0| ≤ 2 → |y 1| ≤ 2 →
      |logp Q [1 + y 0, y 1 * Real.exp (y 0 / 10)] - (-(1 / 2) * (y 0 ^ 2 + y 1 ^ 2) - Real.log (2 * Real.pi) - y 0 / 10)| ≤ 3e-3 := by
  have hgb : GoodBasis productOptions 2 := ⟨fun l hl => by simp [productOptions] at hl, fun h => by simp [Bounded, productOptions] at h,
    fun h => by simp [Bounded, productOptions] at h, fun _ h => by simp [productOptions] at h⟩
  have hgq : GoodQuad productOptions := ⟨by simp [productOptions], by simp [productOptions], by simp [productOptions]⟩
  obtain ⟨b, ts, hb, hts, h⟩ := C115_gaussian (n := 2) (by decide) (by decide) hgb hgq rfl rfl
  obtain ⟨T, t1, h⟩ := h mem work
  have hts0 : ts 0 = [[0], [1], [2]] := by
    refine totalOrder_unique (hts 0) ⟨by decide, fun v => ?_⟩
    have := MISet.mem_toEnum 1 2 v
    rwa [show MISet.toEnum 1 2 = [[0], [1], [2]] by decide] at this
  have hts1 : ts 1 = [[0, 0], [0, 1], [0, 2], [1, 0], [1, 1], [2, 0]] := by
    refine totalOrder_unique (hts 1) ⟨by decide, fun v => ?_⟩
    have := MISet.mem_toEnum 2 2 v
    rwa [show MISet.toEnum 2 2 = [[0, 0], [0, 1], [0, 2], [1, 0], [1, 1], [2, 0]] by decide] at this
  have hsl : Slices ts ![[1, 0, 0], [0, 0, 0, 0, 1 / 10, 0]] [1, 0, 0, 0, 0, 0, 0, 1 / 10, 0] := by
    refine ⟨by simp [List.ofFn_succ], fun i => ?_⟩
    fin_cases i
    · simp [hts0]
    · simp [hts1]
  have hnc : ([1, 0, 0, 0, 0, 0, 0, 1 / 10, 0] : List ℝ).length = T.numCoeffs := by
    obtain ⟨T', comps, -, -, s1, -, -, s4, -⟩ := triangular_of_selected (selected le_rfl hgb hgq).choose_spec.choose_spec.choose_spec (inputDim := 2) (outputDim := 2)
      (by decide) (by decide) (by decide) mem work
    obtain ⟨rfl, -⟩ := Prod.mk.inj (Res.ok.inj (t1.symm.trans s1))
    rw [s4]; decide
  obtain ⟨cs, Q, hcs, hQ, h⟩ := h _ hnc
  obtain rfl := slices_unique hcs hsl
  refine ⟨T, Q, t1, hQ, fun y hy0 hy1 => ?_⟩
  have e0 : ∀ y : Fin 2 → ℝ, coords ([] ++ List.ofFn y) 0 = y 0 := fun y => by simpa using coords_back (lead := []) y 0
  have e1 : ∀ y : Fin 2 → ℝ, coords ([] ++ List.ofFn y) 1 = y 1 := fun y => by simpa using coords_back (lead := []) y 1
  have hE := fun y : Fin 2 → ℝ => product_exact (o := productOptions) rfl rfl rfl rfl rfl hb (coords ([] ++ List.ofFn y))
  have hps : ∀ i, ∀ t ∈ ts i, ∀ m ∈ t, m ≤ 2 := fun i t ht m hm => by
    have := ((hts i).2 t).1 ht
    exact (List.single_le_sum (by simp) m hm).trans this.2
  have hdet : ∀ y : Fin 2 → ℝ, Real.log (fderiv ℝ (exactSquare productOptions b ts ![[1, 0, 0], [0, 0, 0, 0, 1 / 10, 0]]) y).det = y 0 / 10 := fun y => by
    rw [exact_det (fun m hm => isBasis_contDiff hb hgb.bounds m hm) hps _ (positive_contDiff productOptions.posFuncType 1), Fin.prod_univ_two]
    have a := (hE y).1.1
    have a' := (hE y).2.1
    rw [e0] at a'
    simp only [hts0, hts1, List.length_nil, Matrix.cons_val_zero, Matrix.cons_val_one, Matrix.cons_val_fin_one, Fin.val_zero, Fin.val_one, Nat.zero_add, Nat.reduceAdd]
    rw [a, a']
    simp [positive, productOptions]
  have himg : List.ofFn (exactSquare productOptions b ts ![[1, 0, 0], [0, 0, 0, 0, 1 / 10, 0]] y) = [1 + y 0, y 1 * Real.exp (y 0 / 10)] := by
    have a := (hE y).1.2.2
    have a' := (hE y).2.2.2
    rw [e0] at a a'
    rw [e1] at a'
    have e : List.ofFn y = [y 0, y 1] := by simp [List.ofFn_succ]
    rw [e] at a a'
    simp only [List.ofFn_succ, List.ofFn_zero, exactSquare, exactTriangular, hts0, hts1, List.length_nil, Matrix.cons_val_zero, Matrix.cons_val_one, Matrix.cons_val_fin_one,
      Fin.val_zero, Fin.val_one, Nat.zero_add, Nat.reduceAdd, Fin.succ_zero_eq_one, a, a']
  set r : ℝ := (max (1e-6 / 2) (1e-6 / (3 / 10)) + 0 / (3 / 10)) * (1 + 4 / (3 / 10)) ^ 2 with hrdef
  have hr : r ≤ 7e-4 := by rw [hrdef, max_eq_right (by norm_num)]; norm_num
  have hr0 : 0 ≤ r := by rw [hrdef, max_eq_right (by norm_num)]; norm_num
  have key := (h 10 (3 / 10) 4 0 2 r (r / 10) {y | |y 0| ≤ 2 ∧ |y 1| ≤ 2} ∅ (zeros 2) (by simp [zeros])
    ⟨by norm_num, by norm_num, by norm_num, le_rfl, by norm_num, rfl, by linarith, by linarith⟩
    (by
      have h0 : Measurable fun y : Fin 2 → ℝ => |y 0| := (measurable_pi_apply 0).abs
      have h1 : Measurable fun y : Fin 2 → ℝ => |y 1| := (measurable_pi_apply 1).abs
      exact (measurableSet_le h0 measurable_const).inter (measurableSet_le h1 measurable_const))
    (by
      rintro y ⟨hy0, hy1⟩
      refine ⟨⟨product_well hb hts0 hts1 (by rwa [e0]) (by rwa [e1]), fun i => by fin_cases i <;> assumption⟩, fun v hv => ?_⟩
      rw [hdet, hdet, ← sub_div, abs_div, abs_of_pos (by norm_num : (0 : ℝ) < 10)]
      exact div_le_div_of_nonneg_right (hv 0) (by norm_num))).1 y ⟨hy0, hy1⟩
  have hlp : logp (Gaussian.ofDim 2).density (List.ofFn y) = -(1 / 2) * (y 0 ^ 2 + y 1 ^ 2) - Real.log (2 * Real.pi) := by
    rw [std_logp 2 (by simp)]
    simp [List.ofFn_succ]
  rw [himg, exactPush, hdet, hlp] at key
  refine key.trans ?_
  push_cast
  nlinarith

end MParT
