import Verif.Props.TriangularInverse
/-!
# C114: samples drawn through the inverse of a triangular map built by the factory, against the pulled-back density

A pullback sampler (`PullbackSampler`), or a user drawing conditional samples, calls `Inverse` on draws of the reference; a pulled-back density evaluates the same map. Both
are computed with quadrature, and the sampler also with a root search. Here: every draw in the image of a set of well-conditioned points is within an explicit distance
of the point the exact map sends to it, and the law of the samples is the pulled-back density up to moving mass by that distance, a factor, and the mass outside of the set.
-/
namespace MParT
open Spec Finset MapFactory Worker MonotoneComponent MeasureTheory

/-- The assumptions on a point `y` (the last inputs) given the leading inputs: around it, the map is well conditioned, and its coordinates are at most `ρ` in size. -/
structure Spec.Resolved (o : MapOptions) (b : Basis ℝ) {n : Nat} (lead : List ℝ) (ts : Fin n → List (List Nat)) (cs : Fin n → List ℝ) (W m L ε ρ : ℝ)
    (y : Fin n → ℝ) : Prop where
  well : WellConditioned o b lead.length ts cs (coords (lead ++ List.ofFn y)) W m L ε
  size : ∀ i, |y i| ≤ ρ

/-- The constants leave room for the root search; `r` bounds the distance between a sample and the exact one. -/
structure Spec.Room (n : Nat) (W m L ε ρ r : ℝ) : Prop where
  slope : 0 < m
  lipschitz : 0 ≤ L
  floor : 1e-12 ≤ m - ε / 5
  nonneg : 0 ≤ ε
  small : ε ≤ m
  radius : r = (max (1e-6 / 2) (1e-6 / m) + ε / m) * (1 + L / m) ^ n
  room : 3 * r + 2 * ρ + 5 ≤ W
  far : ρ + r ≤ 2 ^ 128 - 3

/-- The draws `z` of the reference for which `Inverse`, given the leading inputs, returns a point of `B`. -/
def Spec.drawsInto (T : CMap) (c lead out : List ℝ) {n : Nat} (B : Set (Fin n → ℝ)) : Set (Fin n → ℝ) :=
  {z | ∃ v, T.inv c lead (List.ofFn z) out = .ok (List.ofFn v) ∧ v ∈ B}

section
variable {o : MapOptions} {b : Basis ℝ} {n : Nat} {lead : List ℝ} {ts : Fin n → List (List Nat)} {cs : Fin n → List ℝ} {T : CMap} {c : List ℝ}
  {W m L ε ρ r : ℝ}

theorem coords_front {lead : List ℝ} (v : List ℝ) {d : Nat} (hd : d < lead.length) : coords (lead ++ v) d = coords lead d := by
  simp [coords, List.getD_eq_getElem?_getD, List.getElem?_append_left hd]

theorem coords_back {lead : List ℝ} (y : Fin n → ℝ) (i : Fin n) : coords (lead ++ List.ofFn y) (lead.length + i) = y i := by
  simp [coords, List.getD_eq_getElem?_getD]

/-- **C114.** A draw: when the reference gives the image of `y` under the exact map, `Inverse` returns a point within `r` of `y`, in every coordinate. -/
theorem C114_draw (hS : SolvesNear o b lead.length ts T) (hsl : Slices ts cs c) (hnug : o.nugget = 0) (hr : Room n W m L ε ρ r)
    {y : Fin n → ℝ} (hy : Resolved o b lead ts cs W m L ε ρ y) {out : List ℝ} (ho : out.length = n) :
    ∃ v : Fin n → ℝ, T.inv c lead (List.ofFn (exactTriangular b.eff (positive o.posFuncType) lead ts cs y)) out = .ok (List.ofFn v) ∧ ∀ i, |v i - y i| ≤ r := by
  have hq : 1 ≤ 1 + L / m := by have := div_nonneg hr.lipschitz hr.slope.le; linarith
  have hτ0 : 0 ≤ max (1e-6 / 2) (1e-6 / m) + ε / m := by
    have := div_nonneg hr.nonneg hr.slope.le
    have : (0 : ℝ) ≤ max (1e-6 / 2) (1e-6 / m) := le_max_of_le_left (by norm_num)
    linarith
  obtain ⟨v, v1, v2, v3⟩ := hS c cs lead (List.ofFn (exactTriangular b.eff (positive o.posFuncType) lead ts cs y)) (coords (lead ++ List.ofFn y)) W m L ε 0 ρ
    (max (1e-6 / 2) (1e-6 / m) + ε / m) hsl le_rfl (Nat.le_add_right _ _) (by simp) (fun d hd => (coords_front _ hd).symm)
    (fun i => by
      rw [coords_back, show coords lead (lead.length + i) = 0 by simp [coords, List.getD_eq_getElem?_getD], zero_sub, abs_neg]; exact hy.size i)
    (fun i => by
      rw [hnug, List.getD_eq_getElem?_getD, List.getElem?_ofFn, dif_pos i.2]
      simp [exactTriangular])
    hy.well hr.slope hr.lipschitz hr.floor hr.nonneg hr.small (by rw [add_zero]) (by rw [← hr.radius]; exact hr.room) (by rw [← hr.radius]; exact hr.far) out ho
  refine ⟨fun i => v.getD i 0, ?_, fun i => ?_⟩
  · rw [v1]
    congr 1
    exact List.ext_getElem (by simp [v2]) fun i h1 h2 => by simp [List.getElem?_eq_getElem h1]
  · have := v3 i
    rw [coords_back] at this
    refine this.trans ?_
    rw [hr.radius]
    exact mul_le_mul_of_nonneg_left (pow_le_pow_right₀ hq i.2.le) hτ0

/-- **C114.** The law of the samples and the pulled-back density: with a reference of total mass one, on a measurable set `G` of resolved points where the log-density of
the reference changes by at most `δ` between the computed and the exact image, the chance of a sample in `B` is at most `exp δ` times the mass the pulled-back density
gives to the points within `r` of `B`, plus the mass it leaves outside of `G`, and at least `exp(-δ)` times the mass it gives to the points farther than `r` from
the complement of `B`. -/
theorem C114_law (h : Approximates o b lead ts cs T c) (hS : SolvesNear o b lead.length ts T) (hsl : Slices ts cs c) (hnug : o.nugget = 0) (hcd : o.contDeriv = true)
    (hr : Room n W m L ε ρ r) {d P : Density} (hd : HasDensity d) (hP : Pullback.new T d c = .ok P) [IsProbabilityMeasure (lawOf (densityOn d [] n))]
    {G : Set (Fin n → ℝ)} (hGm : MeasurableSet G) (hG : ∀ y ∈ G, Resolved o b lead ts cs W m L ε ρ y) {δ : ℝ}
    (hδ : ∀ y ∈ G, |logp d (fn T c (lead ++ List.ofFn y)) - logp d (List.ofFn (exactTriangular b.eff (positive o.posFuncType) lead ts cs y))| ≤ δ)
    {out : List ℝ} (ho : out.length = n) (B : Set (Fin n → ℝ)) :
    lawOf (densityOn d [] n) (drawsInto T c lead out B) ≤ ENNReal.ofReal (Real.exp δ) * lawOf (densityOn P lead n) (G ∩ Metric.cthickening r B)
        + (1 - ENNReal.ofReal (Real.exp (-δ)) * lawOf (densityOn P lead n) G) ∧
      ENNReal.ofReal (Real.exp (-δ)) * lawOf (densityOn P lead n) (G \ Metric.cthickening r Bᶜ) ≤ lawOf (densityOn d [] n) (drawsInto T c lead out B) := by
  set E := exactTriangular b.eff (positive o.posFuncType) lead ts cs with hE
  set ν := lawOf (densityOn d [] n) with hν
  have hcancel : ∀ x : ENNReal, ENNReal.ofReal (Real.exp δ) * (ENNReal.ofReal (Real.exp (-δ)) * x) = x := fun x => by
    rw [← mul_assoc, ← ENNReal.ofReal_mul (Real.exp_pos _).le, ← Real.exp_add]; simp
  have hcancel' : ∀ x : ENNReal, ENNReal.ofReal (Real.exp (-δ)) * (ENNReal.ofReal (Real.exp δ) * x) = x := fun x => by
    rw [← mul_assoc, ← ENNReal.ofReal_mul (Real.exp_pos _).le, ← Real.exp_add]; simp
  have hmass := fun (X : Set (Fin n → ℝ)) (hX : MeasurableSet X) (hXG : X ⊆ G) => h.mass hcd d P hd hP X δ hX fun y hy => hδ y (hXG hy)
  have hclose : ∀ {y v : Fin n → ℝ}, (∀ i, |v i - y i| ≤ r) → 0 ≤ r → dist y v ≤ r := fun hv h0 => by
    rw [dist_pi_le_iff h0]; intro i; rw [dist_comm, Real.dist_eq]; exact hv i
  have hr0 : 0 ≤ r := by
    rw [hr.radius]
    have := div_nonneg hr.lipschitz hr.slope.le
    have := div_nonneg hr.nonneg hr.slope.le
    have : (0 : ℝ) ≤ max (1e-6 / 2) (1e-6 / m) := le_max_of_le_left (by norm_num)
    positivity
  have hEm : MeasurableSet (E '' G) := hGm.image_of_continuousOn_injOn h.differentiable.continuous.continuousOn h.injective.injOn
  constructor
  · have hsub : drawsInto T c lead out B ⊆ E '' (G ∩ Metric.cthickening r B) ∪ (E '' G)ᶜ := by
      rintro z ⟨v, hv, hvB⟩
      by_cases hz : z ∈ E '' G
      · obtain ⟨y, hyG, rfl⟩ := hz
        obtain ⟨v', hv', hvy⟩ := C114_draw hS hsl hnug hr (hG y hyG) ho
        obtain rfl := List.ofFn_injective (Res.ok.inj (hv.symm.trans hv'))
        exact .inl ⟨y, ⟨hyG, Metric.mem_cthickening_of_dist_le y v r B hvB (hclose hvy hr0)⟩, rfl⟩
      · exact .inr hz
    refine (measure_mono hsub).trans ((measure_union_le _ _).trans (add_le_add ?_ ?_))
    · rw [← hcancel (ν (E '' _))]
      exact mul_le_mul_of_nonneg_left (hmass _ (hGm.inter Metric.isClosed_cthickening.measurableSet) Set.inter_subset_left).1 bot_le
    · rw [prob_compl_eq_one_sub hEm]
      refine tsub_le_tsub_left ?_ 1
      rw [← hcancel' (ν (E '' G))]
      exact mul_le_mul_of_nonneg_left (hmass G hGm le_rfl).2 bot_le
  · have hsub : E '' (G \ Metric.cthickening r Bᶜ) ⊆ drawsInto T c lead out B := by
      rintro z ⟨y, ⟨hyG, hyB⟩, rfl⟩
      obtain ⟨v, hv, hvy⟩ := C114_draw hS hsl hnug hr (hG y hyG) ho
      refine ⟨v, hv, ?_⟩
      by_contra hvB
      exact hyB (Metric.mem_cthickening_of_dist_le y v r Bᶜ hvB (hclose hvy hr0))
    refine le_trans ?_ (measure_mono hsub)
    rw [← hcancel' (ν (E '' _))]
    exact mul_le_mul_of_nonneg_left (hmass _ (hGm.diff Metric.isClosed_cthickening.measurableSet) Set.sdiff_subset).2 bot_le

/-- The log-density of the standard normal distribution at the computed and at the exact image. -/
theorem gaussian_images (h : Approximates o b lead ts cs T c) {y : Fin n → ℝ} {R : ℝ}
    (hn : ∀ i : Fin n, PolyNear (quadDegree o + 1)
      (unitDensity b.eff (positive o.posFuncType) 0 (lead.length + i + 1) (ts i) (cs i) (coords (lead ++ List.ofFn y))) ε)
    (hR : ∀ i, |exactTriangular b.eff (positive o.posFuncType) lead ts cs y i| ≤ R) :
    |logp (Gaussian.ofDim n).density (fn T c (lead ++ List.ofFn y))
      - logp (Gaussian.ofDim n).density (List.ofFn (exactTriangular b.eff (positive o.posFuncType) lead ts cs y))| ≤ n * (ε * (R + ε / 2)) := by
  have hv := h.values y
  have hlen := h.outputs y
  generalize fn T c (lead ++ List.ofFn y) = v at hv hlen
  have hvf : v = List.ofFn fun i : Fin n => v.getD i 0 := List.ext_getElem (by simp [hlen]) fun i h1 h2 => by
    simp [List.getElem?_eq_getElem h1]
  rw [hvf, std_logp n (by simp), std_logp n (by simp), List.map_ofFn, List.map_ofFn, List.sum_ofFn, List.sum_ofFn]
  simp only [Function.comp]
  rw [sub_sub_sub_cancel_right, ← mul_sub, ← Finset.sum_sub_distrib, abs_mul]
  calc _ ≤ |-(1 / 2 : ℝ)| * ∑ i : Fin n, (2 * (ε * (R + ε / 2))) := by
        refine mul_le_mul_of_nonneg_left ((Finset.abs_sum_le_sum_abs _ _).trans (Finset.sum_le_sum fun i _ => ?_)) (abs_nonneg _)
        have h1 := hv i ε (hn i)
        have h2 := hR i
        generalize exactTriangular b.eff (positive o.posFuncType) lead ts cs y i = w at h1 h2
        rw [show v.getD i 0 ^ 2 - w ^ 2 = (v.getD i 0 - w) * (2 * w + (v.getD i 0 - w)) by ring, abs_mul,
          show 2 * (ε * (R + ε / 2)) = ε * (2 * R + ε) by ring]
        refine mul_le_mul h1 ((abs_add_le _ _).trans ?_) (abs_nonneg _) ((abs_nonneg _).trans h1)
        rw [abs_mul, abs_two]
        linarith
    _ = _ := by rw [abs_neg, abs_of_pos (by norm_num : (0 : ℝ) < 1 / 2)]; simp; ring

/-- The samples of the standard normal distribution are the draws, and its density is that of independent standard normal numbers. -/
theorem std_draws (n : Nat) : (∀ z : Fin n → ℝ, (Gaussian.ofDim n).sampleImpl [List.ofFn z] (Layout.left n 1) = .ok [List.ofFn z]) ∧
    lawOf (densityOn (Gaussian.ofDim n).density [] n) = Measure.pi fun _ : Fin n => ProbabilityTheory.gaussianReal 0 1 := by
  have h1 : ∀ z : Fin n → ℝ, (Gaussian.ofDim n).sampleImpl [List.ofFn z] (Layout.left n 1) = .ok [List.ofFn z] := fun z => by
    simp only [Gaussian.ofDim, Gaussian.sampleImpl, List.any_cons, List.any_nil, List.length_ofFn, ne_eq, not_true_eq_false, decide_false, Bool.or_self,
      Bool.false_eq_true, if_false, List.map_cons, List.map_nil, colVec]
    congr 3
    funext i
    simp [List.getD_eq_getElem?_getD]
  refine ⟨h1, ?_⟩
  obtain ⟨S, s1, -, s3⟩ := C100_gaussian (.dim n)
  have hid : S = id := funext fun z => by
    have := Res.ok.inj ((s1 [z]).symm.trans (h1 z))
    simpa using this
  rw [← s3, hid, Measure.map_id]

/-- **C114.** Conditional samples of a map built by the factory: independent standard normal numbers are handed to `Inverse` together with the leading inputs.
On a measurable set `G` of resolved points whose exact images are at most `R` in size, with `δ = n ε (R + ε/2)`, the chance of a sample in `B` is between the two
masses of the pulled-back standard normal density. -/
theorem C114_conditional {inputDim p : Nat} (h0 : 0 < n) (h1 : n ≤ inputDim) (h2 : inputDim < 2 ^ 32) (hB : GoodBasis o p) (hQ : GoodQuad o)
    (hnug : o.nugget = 0) (hcd : o.contDeriv = true) :
    ∃ (b : Basis ℝ) (ts : Fin n → List (List Nat)), IsBasisOf o (fun n => n ≤ p) b ∧ (∀ i : Fin n, IsTotalOrder (inputDim - n + i + 1) p (ts i)) ∧
      ∀ mem work, ∃ T, createTriangular inputDim n p o mem work = .ok (T, zeros T.numCoeffs) ∧ ∀ c : List ℝ, c.length = T.numCoeffs →
      ∃ cs P, Slices ts cs c ∧ Pullback.new T (Gaussian.ofDim n).density c = .ok P ∧
      ∀ (lead out : List ℝ) (W m L ε ρ r R : ℝ) (G B : Set (Fin n → ℝ)), lead.length = inputDim - n → out.length = n → Room n W m L ε ρ r → MeasurableSet G →
        (∀ y ∈ G, Resolved o b lead ts cs W m L ε ρ y ∧ ∀ i, |exactTriangular b.eff (positive o.posFuncType) lead ts cs y i| ≤ R) →
        (Measure.pi fun _ : Fin n => ProbabilityTheory.gaussianReal 0 1) (drawsInto T c lead out B)
            ≤ ENNReal.ofReal (Real.exp (n * (ε * (R + ε / 2)))) * lawOf (densityOn P lead n) (G ∩ Metric.cthickening r B)
              + (1 - ENNReal.ofReal (Real.exp (-(n * (ε * (R + ε / 2))))) * lawOf (densityOn P lead n) G) ∧
          ENNReal.ofReal (Real.exp (-(n * (ε * (R + ε / 2))))) * lawOf (densityOn P lead n) (G \ Metric.cthickening r Bᶜ)
            ≤ (Measure.pi fun _ : Fin n => ProbabilityTheory.gaussianReal 0 1) (drawsInto T c lead out B) := by
  obtain ⟨b, ts, hb, hts, h⟩ := C113_inverse h0 h1 h2 hB hQ
  refine ⟨b, ts, hb, hts, fun mem work => ?_⟩
  obtain ⟨T, t1, hA, hS⟩ := h mem work
  have hout : T.outputDim = n := by
    obtain ⟨b', mesh', -, -, h63⟩ := C63_triangular_partial h0 h1 h2 hB hQ
    obtain ⟨T', comps, s1, s2, s3, s4, -⟩ := h63 mem work
    obtain ⟨rfl, -⟩ := Prod.mk.inj (Res.ok.inj (t1.symm.trans s1))
    exact s3
  refine ⟨T, t1, fun c hc => ?_⟩
  obtain ⟨cs, hsl, hap⟩ := hA c hc
  obtain ⟨P, hP⟩ := ((C52_dimensions (m := T) (d := (Gaussian.ofDim n).density) c).1).2 hout
  refine ⟨cs, P, hsl, hP, fun lead out W m L ε ρ r R G B hlead ho hr hGm hG => ?_⟩
  have hd := C53_density (.dim n)
  have hpi := (std_draws n).2
  rw [← hlead] at hS
  have hprob : IsProbabilityMeasure (lawOf (densityOn (Gaussian.ofDim n).density [] n)) := by rw [hpi]; infer_instance
  rw [← hpi]
  have hW0 : 0 ≤ W ∨ G = ∅ := by
    rcases G.eq_empty_or_nonempty with hg | ⟨y, hy⟩
    · exact .inr hg
    · left
      have hρ := (abs_nonneg _).trans ((hG y hy).1.size ⟨0, h0⟩)
      have := hr.room
      have h3 := div_nonneg hr.lipschitz hr.slope.le
      have h4 := div_nonneg hr.nonneg hr.slope.le
      have h5 : (0 : ℝ) ≤ max (1e-6 / 2) (1e-6 / m) := le_max_of_le_left (by norm_num)
      have : 0 ≤ r := by rw [hr.radius]; positivity
      linarith
  refine C114_law (hap lead hlead) hS hsl hnug hcd hr hd.2.1 hP hGm (fun y hy => (hG y hy).1) (fun y hy => ?_) ho B
  refine gaussian_images (hap lead hlead) (fun i => ?_) (hG y hy).2
  rcases hW0 with hW0 | hg
  · have := (hG y hy).1.well.value i _ ⟨fun _ _ => rfl, fun j _ => by simpa using hW0⟩
    rwa [← hnug]
  · rw [hg] at hy; exact hy.elim

/-- **C114.** The same for a pullback sampler over the standard normal distribution, on a square map. -/
theorem C114_sampler {p : Nat} (h0 : 0 < n) (h2 : n < 2 ^ 32) (hB : GoodBasis o p) (hQ : GoodQuad o)
    (hnug : o.nugget = 0) (hcd : o.contDeriv = true) :
    ∃ (b : Basis ℝ) (ts : Fin n → List (List Nat)), IsBasisOf o (fun n => n ≤ p) b ∧ (∀ i : Fin n, IsTotalOrder (i + 1) p (ts i)) ∧
      ∀ mem work, ∃ T, createTriangular n n p o mem work = .ok (T, zeros T.numCoeffs) ∧ ∀ c : List ℝ, c.length = T.numCoeffs →
      ∃ cs P, Slices ts cs c ∧ Pullback.new T (Gaussian.ofDim n).density c = .ok P ∧
      ∀ (W m L ε ρ r R : ℝ) (G B : Set (Fin n → ℝ)), Room n W m L ε ρ r → MeasurableSet G →
        (∀ y ∈ G, Resolved o b [] ts cs W m L ε ρ y ∧ ∀ i, |exactTriangular b.eff (positive o.posFuncType) [] ts cs y i| ≤ R) →
        (Measure.pi fun _ : Fin n => ProbabilityTheory.gaussianReal 0 1)
            {z | ∃ x v : Fin n → ℝ, (Gaussian.ofDim n).sampleImpl [List.ofFn z] (Layout.left n 1) = .ok [List.ofFn x] ∧
              Pullback.sample T n c (List.ofFn x) (zeros n) = .ok (List.ofFn v) ∧ v ∈ B}
            ≤ ENNReal.ofReal (Real.exp (n * (ε * (R + ε / 2)))) * lawOf (densityOn P [] n) (G ∩ Metric.cthickening r B)
              + (1 - ENNReal.ofReal (Real.exp (-(n * (ε * (R + ε / 2))))) * lawOf (densityOn P [] n) G) ∧
          ENNReal.ofReal (Real.exp (-(n * (ε * (R + ε / 2))))) * lawOf (densityOn P [] n) (G \ Metric.cthickening r Bᶜ)
            ≤ (Measure.pi fun _ : Fin n => ProbabilityTheory.gaussianReal 0 1)
              {z | ∃ x v : Fin n → ℝ, (Gaussian.ofDim n).sampleImpl [List.ofFn z] (Layout.left n 1) = .ok [List.ofFn x] ∧
                Pullback.sample T n c (List.ofFn x) (zeros n) = .ok (List.ofFn v) ∧ v ∈ B} := by
  obtain ⟨b, ts, hb, hts, h⟩ := C114_conditional h0 le_rfl h2 hB hQ hnug hcd
  refine ⟨b, ts, hb, fun i => by simpa using hts i, fun mem work => ?_⟩
  obtain ⟨T, t1, h⟩ := h mem work
  have hdims : T.inputDim = n ∧ T.outputDim = n := by
    obtain ⟨b', mesh', -, -, h63⟩ := C63_triangular_partial h0 le_rfl h2 hB hQ
    obtain ⟨T', comps, s1, s2, s3, s4, -⟩ := h63 mem work
    obtain ⟨rfl, -⟩ := Prod.mk.inj (Res.ok.inj (t1.symm.trans s1))
    exact ⟨s2, s3⟩
  refine ⟨T, t1, fun c hc => ?_⟩
  obtain ⟨cs, P, hsl, hP, h⟩ := h c hc
  refine ⟨cs, P, hsl, hP, fun W m L ε ρ r R G B hr hGm hG => ?_⟩
  have hset : {z | ∃ x v : Fin n → ℝ, (Gaussian.ofDim n).sampleImpl [List.ofFn z] (Layout.left n 1) = .ok [List.ofFn x] ∧
      Pullback.sample T n c (List.ofFn x) (zeros n) = .ok (List.ofFn v) ∧ v ∈ B} = drawsInto T c [] (zeros n) B := by
    ext z
    simp only [drawsInto, Set.mem_ofPred_eq, (std_draws n).1, Pullback.sample, hdims.1, hdims.2, ne_eq, not_true_eq_false, if_false]
    constructor
    · rintro ⟨x, v, hx, hv⟩
      have : z = x := by simpa using Res.ok.inj hx
      exact ⟨v, this ▸ hv⟩
    · rintro ⟨v, hv⟩
      exact ⟨z, v, rfl, hv⟩
  rw [hset]
  exact h [] (zeros n) W m L ε ρ r R G B (by simp) (by simp [zeros]) hr hGm hG

end

/-! ### Non-vacuity -/

/-- The options of the example: order 2, five Clenshaw–Curtis points, unnormalised Hermite polynomials, the exponential. -/
def productOptions : MapOptions := { basisNorm := false, quadType := .clenshawCurtis, quadPts := 5, posFuncType := .exp, nugget := 0 }

theorem product_well {b : Basis ℝ} (hb : IsBasisOf productOptions (fun n => n ≤ 2) b) {ts : Fin 2 → List (List Nat)} (hts0 : ts 0 = [[0], [1], [2]])
    (hts1 : ts 1 = [[0, 0], [0, 1], [0, 2], [1, 0], [1, 1], [2, 0]]) {x : Nat → ℝ} (hx0 : |x 0| ≤ 2) (hx1 : |x 1| ≤ 2) :
    WellConditioned productOptions b 0 ts ![[1, 0, 0], [0, 0, 0, 0, 1 / 10, 0]] x 10 (3 / 10) 4 0 := by
  have hE := fun x => product_exact (o := productOptions) rfl rfl rfl rfl rfl hb x
  have h12' : Real.exp (6 / 5) ≤ 3.33 := by
    have h := Real.exp_bound' (x := 3 / 5) (by norm_num) (by norm_num) (n := 7) (by norm_num)
    have h2 : Real.exp (6 / 5) = Real.exp (3 / 5) ^ 2 := by rw [← Real.exp_nat_mul]; norm_num
    have h3 : Real.exp (3 / 5) ≤ 1.8225 := by
      refine h.trans ?_
      norm_num [Finset.sum_range_succ, Nat.factorial]
    rw [h2]
    calc _ ≤ (1.8225 : ℝ) ^ 2 := pow_le_pow_left₀ (Real.exp_pos _).le h3 2
      _ ≤ _ := by norm_num
  have h12 : (3 / 10 : ℝ) ≤ Real.exp (-(6 / 5)) := by
    rw [Real.exp_neg, ← one_div, le_div_iff₀ (Real.exp_pos _)]
    linarith
  have hx0' := abs_le.1 hx0
  have hx1' := abs_le.1 hx1
  refine ⟨fun i w hw => ?_, fun i w w' hw hw' heq => ?_, fun i w hw => ?_⟩
  · have a := abs_le.1 (hw.2 0 (Nat.zero_le _))
    simp only [Nat.add_zero] at a
    fin_cases i
    · have := (hE w).1.1
      simp only [Fin.zero_eta, hts0, Nat.zero_add, Matrix.cons_val_zero, this, positive, Real.exp_zero, productOptions]
      norm_num
    · have := (hE w).2.1
      simp only [Fin.mk_one, hts1, Nat.zero_add, Matrix.cons_val_one, Matrix.cons_val_fin_one, Nat.reduceAdd, this, positive, productOptions]
      have e : -(6 / 5 : ℝ) ≤ w 0 / 10 := by linarith [a.1]
      exact (h12.trans (Real.exp_le_exp.2 e)).trans (by simp)
  · fin_cases i
    · simp only [Fin.zero_eta, hts0, Nat.zero_add, Matrix.cons_val_zero] at heq ⊢
      rw [show productOptions.nugget = 0 from rfl, (hE w).1.2.2, (hE w').1.2.2, heq]
      simp
    · have a := abs_le.1 (hw.2 0 (Nat.zero_le _))
      have a' := abs_le.1 (hw'.2 0 (Nat.zero_le _))
      have c1 := abs_le.1 (hw.2 1 le_rfl)
      simp only [Nat.add_zero, Nat.zero_add] at a a' c1
      simp only [Fin.mk_one, hts1, Nat.zero_add, Matrix.cons_val_one, Matrix.cons_val_fin_one, Nat.reduceAdd] at heq ⊢
      rw [show productOptions.nugget = 0 from rfl, (hE w).2.2.2, (hE w').2.2.2, ← heq, ← mul_sub, abs_mul, Finset.sum_range_one]
      have hdexp : |Real.exp (w 0 / 10) - Real.exp (w' 0 / 10)| ≤ 3.33 / 10 * |w 0 - w' 0| := by
        have := (convex_Icc (-12 : ℝ) 12).norm_image_sub_le_of_norm_hasDerivWithin_le (f := fun u : ℝ => Real.exp (u / 10)) (f' := fun u => Real.exp (u / 10) * (1 / 10))
          (C := 3.33 / 10) (x := w' 0) (y := w 0) (fun u _ => (((hasDerivAt_id u).div_const 10).exp).hasDerivWithinAt) (fun u hu => by
            rw [Real.norm_eq_abs, abs_of_pos (by positivity)]
            have := (Real.exp_le_exp.2 (show u / 10 ≤ 6 / 5 by linarith [hu.2])).trans h12'
            linarith) ⟨by linarith [a'.1], by linarith [a'.2]⟩ ⟨by linarith [a.1], by linarith [a.2]⟩
        simpa [Real.norm_eq_abs] using this
      have hw1 : |w 1| ≤ 12 := abs_le.2 ⟨by linarith [c1.1], by linarith [c1.2]⟩
      calc _ ≤ 12 * (3.33 / 10 * |w 0 - w' 0|) := mul_le_mul hw1 hdexp (abs_nonneg _) (by norm_num)
        _ ≤ _ := by
          have := abs_nonneg (w 0 - w' 0)
          linarith
  · fin_cases i
    · simp only [Fin.zero_eta, hts0, Nat.zero_add, Matrix.cons_val_zero]
      exact (congrArg (fun f => PolyNear 5 f 0) (funext (hE w).1.2.1)).mpr (polyNear_const (by norm_num) _)
    · simp only [Fin.mk_one, hts1, Nat.zero_add, Matrix.cons_val_one, Matrix.cons_val_fin_one, Nat.reduceAdd]
      exact (congrArg (fun f => PolyNear 5 f 0) (funext (hE w).2.2.1)).mpr (polyNear_const (by norm_num) _)

/-- Non-vacuity: the map `(1 + x₁, x₂ exp(x₁/10))` built by the factory. On the square `[-2, 2]²` the samples of the pullback sampler over the standard normal distribution follow
the pulled-back density up to moving mass by at most `7e-4`. -/
example (mem : Nat → Option ℝ) (work : List ℝ) : ∃ T P, createTriangular 2 2 2 productOptions mem work = .ok (T, zeros T.numCoeffs) ∧
    Pullback.new T (Gaussian.ofDim 2).density [1, 0, 0, 0, 0, 0, 0, 1 / 10, 0] = .ok P ∧ ∀ B : Set (Fin 2 → ℝ),
      (Measure.pi fun _ : Fin 2 => ProbabilityTheory.gaussianReal 0 1)
          {z | ∃ x v : Fin 2 → ℝ, (Gaussian.ofDim 2).sampleImpl [List.ofFn z] (Layout.left 2 1) = .ok [List.ofFn x] ∧
            Pullback.sample T 2 [1, 0, 0, 0, 0, 0, 0, 1 / 10, 0] (List.ofFn x) (zeros 2) = .ok (List.ofFn v) ∧ v ∈ B}
        ≤ lawOf (densityOn P [] 2) ({y | |y 0| ≤ 2 ∧ |y 1| ≤ 2} ∩ Metric.cthickening 7e-4 B) + (1 - lawOf (densityOn P [] 2) {y | |y 0| ≤ 2 ∧ |y 1| ≤ 2}) ∧
      lawOf (densityOn P [] 2) ({y | |y 0| ≤ 2 ∧ |y 1| ≤ 2} \ Metric.cthickening 7e-4 Bᶜ) ≤ (Measure.pi fun _ : Fin 2 => ProbabilityTheory.gaussianReal 0 1)
          {z | ∃ x v : Fin 2 → ℝ, (Gaussian.ofDim 2).sampleImpl [List.ofFn z] (Layout.left 2 1) = .ok [List.ofFn x] ∧
            Pullback.sample T 2 [1, 0, 0, 0, 0, 0, 0, 1 / 10, 0] (List.ofFn x) (zeros 2) = .ok (List.ofFn v) ∧ v ∈ B} := by
  have hgb : GoodBasis productOptions 2 := ⟨fun l hl => by simp [productOptions] at hl, fun h => by simp [Bounded, productOptions] at h,
    fun h => by simp [Bounded, productOptions] at h, fun _ h => by simp [productOptions] at h⟩
  have hgq : GoodQuad productOptions := ⟨by simp [productOptions], by simp [productOptions], by simp [productOptions]⟩
  obtain ⟨b, ts, hb, hts, h⟩ := C114_sampler (n := 2) (by decide) (by decide) hgb hgq rfl rfl
  obtain ⟨T, t1, h⟩ := h mem work
  have hts0 : ts 0 = [[0], [1], [2]] := by
    refine totalOrder_unique (hts 0) ⟨by decide, fun v => ?_⟩
    have := MISet.mem_toEnum 1 2 v
    rwa [show MISet.toEnum 1 2 = [[0], [1], [2]] by decide] at this
  have hts1 : ts 1 = [[0, 0], [0, 1], [0, 2], [1, 0], [1, 1], [2, 0]] := by
    refine totalOrder_unique (hts 1) ⟨by decide, fun v => ?_⟩
    have := MISet.mem_toEnum 2 2 v
    rwa [show MISet.toEnum 2 2 = [[0, 0], [0, 1], [0, 2], [1, 0], [1, 1], [2, 0]] by decide] at this
  have hsl : Slices ts ![[1, 0, 0], [0, 0, 0, 0, 1 / 10, 0]] [1, 0, 0, 0, 0, 0, 0, 1 / 10, 0] := by
    refine ⟨by simp [List.ofFn_succ], fun i => ?_⟩
    fin_cases i
    · simp [hts0]
    · simp [hts1]
  have hnc : ([1, 0, 0, 0, 0, 0, 0, 1 / 10, 0] : List ℝ).length = T.numCoeffs := by
    obtain ⟨T', comps, -, -, s1, -, -, s4, -⟩ := triangular_of_selected (selected le_rfl hgb hgq).choose_spec.choose_spec.choose_spec (inputDim := 2) (outputDim := 2)
      (by decide) (by decide) (by decide) mem work
    obtain ⟨rfl, -⟩ := Prod.mk.inj (Res.ok.inj (t1.symm.trans s1))
    rw [s4]; decide
  obtain ⟨cs, P, hcs, hP, h⟩ := h _ hnc
  obtain rfl := slices_unique hcs hsl
  refine ⟨T, P, t1, hP, fun B => ?_⟩
  have key := h 10 (3 / 10) 4 0 2 ((max (1e-6 / 2) (1e-6 / (3 / 10)) + 0 / (3 / 10)) * (1 + 4 / (3 / 10)) ^ 2) 12 {y | |y 0| ≤ 2 ∧ |y 1| ≤ 2} B
    ⟨by norm_num, by norm_num, by norm_num, le_rfl, by norm_num, rfl, by rw [max_eq_right (by norm_num)]; norm_num, by rw [max_eq_right (by norm_num)]; norm_num⟩
    (by
      have h0 : Measurable fun y : Fin 2 → ℝ => |y 0| := (measurable_pi_apply 0).abs
      have h1 : Measurable fun y : Fin 2 → ℝ => |y 1| := (measurable_pi_apply 1).abs
      exact (measurableSet_le h0 measurable_const).inter (measurableSet_le h1 measurable_const)) ?_
  · simp only [zero_mul, mul_zero, neg_zero, Real.exp_zero, ENNReal.ofReal_one, one_mul] at key
    have hr : (max (1e-6 / 2) (1e-6 / (3 / 10)) + 0 / (3 / 10)) * (1 + 4 / (3 / 10)) ^ 2 ≤ (7e-4 : ℝ) := by rw [max_eq_right (by norm_num)]; norm_num
    refine ⟨key.1.trans (add_le_add_left (measure_mono (Set.inter_subset_inter_right _ (Metric.cthickening_mono hr B))) _), (measure_mono ?_).trans key.2⟩
    exact Set.sdiff_subset_sdiff_right (Metric.cthickening_mono hr Bᶜ)
  · rintro y ⟨hy0, hy1⟩
    have hE := product_exact (o := productOptions) rfl rfl rfl rfl rfl hb (coords ([] ++ List.ofFn y))
    have e0 : coords ([] ++ List.ofFn y) 0 = y 0 := by simpa using coords_back (lead := []) y 0
    have e1 : coords ([] ++ List.ofFn y) 1 = y 1 := by simpa using coords_back (lead := []) y 1
    refine ⟨⟨product_well hb hts0 hts1 (by rwa [e0]) (by rwa [e1]), fun i => by fin_cases i <;> assumption⟩, fun i => ?_⟩
    have ha := abs_le.1 hy0
    have hc := abs_le.1 hy1
    fin_cases i
    · simp only [Fin.zero_eta, exactTriangular, hts0, List.length_nil, Matrix.cons_val_zero]
      have := hE.1.2.2
      rw [e0] at this
      refine (congrArg abs this).le.trans (abs_le.2 ⟨by linarith [ha.1], by linarith [ha.2]⟩)
    · simp only [Fin.mk_one, exactTriangular, hts1, List.length_nil, Matrix.cons_val_one, Matrix.cons_val_fin_one]
      have := hE.2.2.2
      rw [e0, e1] at this
      refine (congrArg abs this).le.trans ?_
      rw [abs_mul, abs_of_pos (Real.exp_pos _)]
      have h3 : Real.exp (y 0 / 10) ≤ 3 := (Real.exp_le_exp.2 (by linarith [ha.2] : y 0 / 10 ≤ 1)).trans (Real.exp_one_lt_d9.le.trans (by norm_num))
      calc _ ≤ 2 * 3 := mul_le_mul hy1 h3 (Real.exp_pos _).le (by norm_num)
        _ ≤ _ := by norm_num

end MParT
