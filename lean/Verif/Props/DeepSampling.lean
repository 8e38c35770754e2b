import Verif.Props.DeepMaps
import Verif.Props.TriangularTraining
/-!
# C117: training and sampling with compositions, against the composition of the exact maps

A composition is trained through its pulled-back density, sampled through `Inverse` (pullback sampler) or `Evaluate` (pushforward sampler), and its pushforward density goes through both `Inverse` and
`LogDeterminant`. Here all of them are compared with the exact composition, with the accumulated errors of C116.
-/
namespace MParT
open Spec Finset MapFactory MeasureTheory _root_.MParT.Comp
open ComposedMap (withCoeffs)

/-- The logarithm of the density that the exact composition, carrying its argument to a reference `d`, assigns to `y`. -/
noncomputable def Spec.deepPull {n : Nat} (ls : List (DeepLayer n)) (d : Density) (y : Fin n → ℝ) : ℝ :=
  logp d (List.ofFn (exactDeep ls y)) + Real.log (fderiv ℝ (exactDeep ls) y).det

/-- The logarithm of the density, at the image of `x`, of the image of a reference `d` under the exact composition. -/
noncomputable def Spec.deepPush {n : Nat} (ls : List (DeepLayer n)) (d : Density) (x : Fin n → ℝ) : ℝ :=
  logp d (List.ofFn x) - Real.log (fderiv ℝ (exactDeep ls) x).det

/-- Minus the average exact log-likelihood of the data. -/
noncomputable def Spec.deepObjective {n : Nat} (ls : List (DeepLayer n)) (d : Density) (data : List (Fin n → ℝ)) : ℝ :=
  -(data.map (deepPull ls d)).sum / data.length

section
variable {n : Nat} {ls : List (DeepLayer n)} {checks : Int} {t : CMap} {R ε Λ M S K τ r κ : ℝ} {d P Q : Density} {G : Set (Fin n → ℝ)}

/-- Of the standard normal distribution: its log-density changes by at most `n e (ρ + e/2)` within `e` of points of size `ρ`. -/
theorem gaussian_near {e ρ : ℝ} {y z : Fin n → ℝ} (hz : dist z y ≤ e) (hρ : ∀ i, |y i| ≤ ρ) :
    |logp (Gaussian.ofDim n).density (List.ofFn z) - logp (Gaussian.ofDim n).density (List.ofFn y)| ≤ n * (e * (ρ + e / 2)) := by
  have he0 : 0 ≤ e := dist_nonneg.trans hz
  rw [dist_pi_le_iff he0] at hz
  rw [std_logp n (by simp), std_logp n (by simp), List.map_ofFn, List.map_ofFn, List.sum_ofFn, List.sum_ofFn]
  simp only [Function.comp]
  rw [sub_sub_sub_cancel_right, ← mul_sub, ← Finset.sum_sub_distrib, abs_mul]
  calc _ ≤ |-(1 / 2 : ℝ)| * ∑ i : Fin n, (2 * (e * (ρ + e / 2))) := by
        refine mul_le_mul_of_nonneg_left ((Finset.abs_sum_le_sum_abs _ _).trans (Finset.sum_le_sum fun i _ => ?_)) (abs_nonneg _)
        have h1 := hz i
        rw [Real.dist_eq] at h1
        rw [show z i ^ 2 - y i ^ 2 = (z i - y i) * (2 * y i + (z i - y i)) by ring, abs_mul, show 2 * (e * (ρ + e / 2)) = e * (2 * ρ + e) by ring]
        refine mul_le_mul h1 ((abs_add_le _ _).trans ?_) (abs_nonneg _) he0
        rw [abs_mul, abs_two]
        linarith [hρ i]
    _ = _ := by rw [abs_neg, abs_of_pos (by norm_num : (0 : ℝ) < 1 / 2)]; simp; ring

/-! ### Training -/

/-- `LogDensity` of the density pulled back through the composition returns normally. -/
theorem deep_density (ht : ComposedMap.new (ls.map DeepLayer.map) checks = .ok t) (h : ∀ l ∈ ls, Faithful l) (hΛ : 0 ≤ Λ) (hε : 0 ≤ ε) (hM : 0 ≤ M)
    (hR : ε * growth Λ ls.length ≤ R) (hd : HasDensity d) (hP : Pullback.new t d (ls.map DeepLayer.coeffs).flatten = .ok P)
    {y : Fin n → ℝ} (hy : Along (Tracks R ε Λ M) ls y) (out : Option ℝ) : P.logDensity (List.ofFn y) out = .ok (some (logp P (List.ofFn y))) := by
  obtain ⟨⟨z, hz, hze⟩, v, hv, hve⟩ := C116_evaluate ht h hΛ hε hM hR hy
  obtain ⟨-, -, -, h2, -⟩ := deep_new ht h
  obtain ⟨hdim, rfl⟩ := pull_new.mp hP
  have : ∀ out, Pullback.logDensity t d (ls.map DeepLayer.coeffs).flatten (List.ofFn y) out = .ok (some (logp d (List.ofFn z) + v)) := fun out => by
    simp only [Pullback.logDensity]
    rw [hze _ (by simp [h2]), Res.bind_ok, hd _ (by simp [← hdim, h2]), Res.bind_ok, hve, Res.bind_ok]
    rfl
  rw [logp]
  simp only [this]
  rfl

/-- **C117.** The training objective of a composition is a number, within the accumulated errors of minus the average exact log-likelihood of the data. -/
theorem C117_objective (ht : ComposedMap.new (ls.map DeepLayer.map) checks = .ok t) (h : ∀ l ∈ ls, Faithful l) (hΛ : 0 ≤ Λ) (hε : 0 ≤ ε) (hM : 0 ≤ M)
    (hR : ε * growth Λ ls.length ≤ R) (hd : HasDensity d) (hdim : d.dim = n) {data : List (Fin n → ℝ)} (hne : data ≠ [])
    (hx : ∀ x ∈ data, Along (Tracks R ε Λ M) ls x)
    (hκ : ∀ x ∈ data, ∀ z : Fin n → ℝ, dist z (exactDeep ls x) ≤ ε * growth Λ ls.length → |logp d (List.ofFn z) - logp d (List.ofFn (exactDeep ls x))| ≤ κ) :
    ∃ v, KL.objective t d (ls.map DeepLayer.coeffs).flatten (data.map List.ofFn) = .ok (some v) ∧
      |v - deepObjective ls d data| ≤ κ + M * (ε * ∑ k ∈ range ls.length, growth Λ k) := by
  obtain ⟨-, -, -, h2, -⟩ := deep_new ht h
  obtain ⟨P, hP⟩ := ((C52_dimensions (m := t) (d := d) (ls.map DeepLayer.coeffs).flatten).1).2 (by rw [h2, hdim])
  have hcol : KL.columns (fun x => P.logDensity x (some 0)) (data.map List.ofFn) = .ok ((data.map List.ofFn).map fun x => some (logp P x)) :=
    KL.columns_ok fun x hx' => by
      obtain ⟨y, hy, rfl⟩ := List.mem_map.1 hx'
      exact deep_density ht h hΛ hε hM hR hd hP (hx y hy) (some 0)
  refine ⟨-((data.map List.ofFn).map (logp P)).sum / (data.map List.ofFn).length, ?_, ?_⟩
  · rw [KL.objective, hP, Res.bind_ok, hcol, Res.bind_ok]
    have : ((data.map List.ofFn).map fun x => some (logp P x)) = ((data.map List.ofFn).map (logp P)).map some := by simp
    rw [this, KL.sumNegative_eq, KL.average_eq (by simpa using hne)]
  · have hB := (C116_law ht h hΛ hε hM hR hd hP (B := {x | x ∈ data}) (κ := κ) (fun y hy => hx y hy) (fun y hy => hκ y hy)).1
    have hinv : ∀ y : Fin n → ℝ, (fun i : Fin n => (List.ofFn y).getD i 0) = y := fun y => by funext i; simp
    have := average_close (data := data.map List.ofFn) (by simpa using hne) (f := logp P) (h := fun x => deepPull ls d fun i : Fin n => x.getD i 0)
      (δ := κ + M * (ε * ∑ k ∈ range ls.length, growth Λ k)) fun x hx' => by
        obtain ⟨y, hy, rfl⟩ := List.mem_map.1 hx'
        rw [hinv y]
        exact hB y hy
    have e : ((data.map List.ofFn).map fun x : List ℝ => deepPull ls d fun i : Fin n => x.getD i 0) = data.map (deepPull ls d) := by
      rw [List.map_map]; exact List.map_congr_left fun y _ => by simp only [Function.comp, hinv]
    rw [e, List.length_map] at this
    rw [List.length_map]
    exact this

/-- **C117.** Coefficients that minimise the computed objective over a set up to `η` minimise minus the average exact log-likelihood over that set up to `η` plus twice the accumulated errors. The
coefficients are given by the layers, which differ from one coefficient vector to the other while the maps stay the same. -/
theorem C117_minimiser {maps : List CMap} (ht : ComposedMap.new maps checks = .ok t) (hΛ : 0 ≤ Λ) (hε : 0 ≤ ε) (hM : 0 ≤ M) (hR : ε * growth Λ maps.length ≤ R) (hd : HasDensity d)
    (hdim : d.dim = n) {data : List (Fin n → ℝ)} (hne : data ≠ []) {C : Set (List ℝ)} {layers : List ℝ → List (DeepLayer n)}
    (hC : ∀ c ∈ C, (layers c).map DeepLayer.map = maps ∧ ((layers c).map DeepLayer.coeffs).flatten = c ∧ (∀ l ∈ layers c, Faithful l) ∧
      ∀ x ∈ data, Along (Tracks R ε Λ M) (layers c) x ∧
        ∀ z : Fin n → ℝ, dist z (exactDeep (layers c) x) ≤ ε * growth Λ maps.length → |logp d (List.ofFn z) - logp d (List.ofFn (exactDeep (layers c) x))| ≤ κ)
    {η : ℝ} {c : List ℝ} (hc : c ∈ C)
    (hmin : ∀ c' ∈ C, ∀ v v', KL.objective t d c (data.map List.ofFn) = .ok (some v) → KL.objective t d c' (data.map List.ofFn) = .ok (some v') → v ≤ v' + η) :
    ∀ c' ∈ C, deepObjective (layers c) d data ≤ deepObjective (layers c') d data + (η + 2 * (κ + M * (ε * ∑ k ∈ range maps.length, growth Λ k))) := by
  intro c' hc'
  have key : ∀ c ∈ C, ∃ v, KL.objective t d c (data.map List.ofFn) = .ok (some v) ∧
      |v - deepObjective (layers c) d data| ≤ κ + M * (ε * ∑ k ∈ range maps.length, growth Λ k) := fun c hc => by
    obtain ⟨h1, h2, h3, h4⟩ := hC c hc
    have hl : (layers c).length = maps.length := by rw [← h1, List.length_map]
    have := C117_objective (ls := layers c) (κ := κ) (h1 ▸ ht) h3 hΛ hε hM (hl ▸ hR) hd hdim hne (fun x hx => (h4 x hx).1) (fun x hx => hl ▸ (h4 x hx).2)
    rwa [h2, hl] at this
  obtain ⟨v, hv, hv'⟩ := key c hc
  obtain ⟨w, hw, hw'⟩ := key c' hc'
  have h1 := abs_le.1 hv'
  have h2 := abs_le.1 hw'
  have h3 := hmin c' hc' v w hv hw
  linarith [h1.1, h2.2]

/-! ### Samples of the pulled-back density -/

/-- **C117.** The law of the samples and the pulled-back density: with a reference of total mass one, on a measurable set `G` along which the layers are accurate and inverted, the chance of a sample in `B` is
at most `exp δ` times the mass the pulled-back density gives to the points of `G` within `r` of `B`, plus the mass it leaves outside of `G`, and at least `exp(-δ)` times the mass it gives to the points
farther than `r` from the complement of `B`; `r` is the accumulated error of the inverses and `δ` that of the density. -/
theorem C117_samples (ht : ComposedMap.new (ls.map DeepLayer.map) checks = .ok t) (h : ∀ l ∈ ls, Faithful l) (hΛ : 0 ≤ Λ) (hε : 0 ≤ ε) (hM : 0 ≤ M)
    (hR : ε * growth Λ ls.length ≤ R) (hd : HasDensity d) (hP : Pullback.new t d (ls.map DeepLayer.coeffs).flatten = .ok P) [IsProbabilityMeasure (lawOf (densityOn d [] n))]
    (hGm : MeasurableSet G) (hG : ∀ y ∈ G, Along (Tracks R ε Λ M) ls y ∧ Along (InvertsAt [] S K τ) ls y) (hK : 0 ≤ K) (hS : ∀ k < ls.length, τ * growth K k ≤ S)
    (hr : r = τ * growth K ls.length) {δ : ℝ} (hδ : δ = κ + M * (ε * ∑ k ∈ range ls.length, growth Λ k))
    (hκ : ∀ y ∈ G, ∀ z : Fin n → ℝ, dist z (exactDeep ls y) ≤ ε * growth Λ ls.length → |logp d (List.ofFn z) - logp d (List.ofFn (exactDeep ls y))| ≤ κ)
    {out : List ℝ} (ho : out.length = n) (B : Set (Fin n → ℝ)) :
    lawOf (densityOn d [] n) (drawsInto t (ls.map DeepLayer.coeffs).flatten [] out B) ≤ ENNReal.ofReal (Real.exp δ) * lawOf (densityOn P [] n) (G ∩ Metric.cthickening r B)
        + (1 - ENNReal.ofReal (Real.exp (-δ)) * lawOf (densityOn P [] n) G) ∧
      ENNReal.ofReal (Real.exp (-δ)) * lawOf (densityOn P [] n) (G \ Metric.cthickening r Bᶜ) ≤ lawOf (densityOn d [] n) (drawsInto t (ls.map DeepLayer.coeffs).flatten [] out B) := by
  set E := exactDeep ls with hE
  set ν := lawOf (densityOn d [] n) with hν
  have hcancel : ∀ x : ENNReal, ENNReal.ofReal (Real.exp δ) * (ENNReal.ofReal (Real.exp (-δ)) * x) = x := fun x => by
    rw [← mul_assoc, ← ENNReal.ofReal_mul (Real.exp_pos _).le, ← Real.exp_add]; simp
  have hcancel' : ∀ x : ENNReal, ENNReal.ofReal (Real.exp (-δ)) * (ENNReal.ofReal (Real.exp δ) * x) = x := fun x => by
    rw [← mul_assoc, ← ENNReal.ofReal_mul (Real.exp_pos _).le, ← Real.exp_add]; simp
  have hmass : ∀ X : Set (Fin n → ℝ), MeasurableSet X → X ⊆ G → ENNReal.ofReal (Real.exp (-δ)) * ν (E '' X) ≤ lawOf (densityOn P [] n) X ∧
      lawOf (densityOn P [] n) X ≤ ENNReal.ofReal (Real.exp δ) * ν (E '' X) := fun X hX hXG => by
    rw [hδ]
    exact (C116_law ht h hΛ hε hM hR hd hP (fun y hy => (hG y (hXG hy)).1) fun y hy => hκ y (hXG hy)).2 hX
  have hdraw : ∀ y ∈ G, ∃ v : Fin n → ℝ, t.inv (ls.map DeepLayer.coeffs).flatten [] (List.ofFn (E y)) out = .ok (List.ofFn v) ∧ dist y v ≤ r := fun y hy => by
    obtain ⟨v, hv, hvd⟩ := C116_inverse ht h hK (hG y hy).2 (r := E y) (σ := 0) (by simp [hE])
      (fun k hk => by rw [mul_zero, zero_add]; exact hS k hk) ho
    refine ⟨v, hv, ?_⟩
    rw [dist_comm, hr]
    simpa using hvd
  have hEm : MeasurableSet (E '' G) := hGm.image_of_continuousOn_injOn (exactDeep_differentiable h).continuous.continuousOn (exactDeep_injective h).injOn
  constructor
  · have hsub : drawsInto t (ls.map DeepLayer.coeffs).flatten [] out B ⊆ E '' (G ∩ Metric.cthickening r B) ∪ (E '' G)ᶜ := by
      rintro z ⟨v, hv, hvB⟩
      by_cases hz : z ∈ E '' G
      · obtain ⟨y, hyG, rfl⟩ := hz
        obtain ⟨v', hv', hvy⟩ := hdraw y hyG
        obtain rfl := List.ofFn_injective (Res.ok.inj (hv.symm.trans hv'))
        exact .inl ⟨y, ⟨hyG, Metric.mem_cthickening_of_dist_le y v r B hvB hvy⟩, rfl⟩
      · exact .inr hz
    refine (measure_mono hsub).trans ((measure_union_le _ _).trans (add_le_add ?_ ?_))
    · rw [← hcancel (ν (E '' _))]
      exact mul_le_mul_of_nonneg_left (hmass _ (hGm.inter Metric.isClosed_cthickening.measurableSet) Set.inter_subset_left).1 bot_le
    · rw [prob_compl_eq_one_sub hEm]
      refine tsub_le_tsub_left ?_ 1
      rw [← hcancel' (ν (E '' G))]
      exact mul_le_mul_of_nonneg_left (hmass G hGm le_rfl).2 bot_le
  · have hsub : E '' (G \ Metric.cthickening r Bᶜ) ⊆ drawsInto t (ls.map DeepLayer.coeffs).flatten [] out B := by
      rintro z ⟨y, ⟨hyG, hyB⟩, rfl⟩
      obtain ⟨v, hv, hvy⟩ := hdraw y hyG
      refine ⟨v, hv, ?_⟩
      by_contra hvB
      exact hyB (Metric.mem_cthickening_of_dist_le y v r Bᶜ hvB hvy)
    refine le_trans ?_ (measure_mono hsub)
    rw [← hcancel' (ν (E '' _))]
    exact mul_le_mul_of_nonneg_left (hmass _ (hGm.diff Metric.isClosed_cthickening.measurableSet) Set.sdiff_subset).2 bot_le

/-! ### Pushforward densities and samples -/

/-- **C117.** The pushforward density at the exact image of `x`: `LogDensity` returns a number, within `κ` plus the accumulated errors of the exact log-density of the image; `κ` bounds the change of
the reference within the error `r` of the inverse. -/
theorem C117_pushforward (ht : ComposedMap.new (ls.map DeepLayer.map) checks = .ok t) (h : ∀ l ∈ ls, Faithful l) (hΛ : 0 ≤ Λ) (hε : 0 ≤ ε) (hM : 0 ≤ M)
    (hd : HasDensity d) (hQ : Pushforward.new t d (ls.map DeepLayer.coeffs).flatten = .ok Q) (hK : 0 ≤ K) (hS : ∀ k < ls.length, τ * growth K k ≤ S)
    (hr : r = τ * growth K ls.length) (hR : ∀ k < ls.length, Λ ^ k * r + ε * growth Λ k ≤ R) {x : Fin n → ℝ} (hx : Along (Tracks R ε Λ M) ls x ∧ Along (InvertsAt [] S K τ) ls x)
    (hκ : ∀ v : Fin n → ℝ, dist v x ≤ r → |logp d (List.ofFn v) - logp d (List.ofFn x)| ≤ κ) :
    (∀ out, Q.logDensity (List.ofFn (exactDeep ls x)) out = .ok (some (logp Q (List.ofFn (exactDeep ls x))))) ∧
      |logp Q (List.ofFn (exactDeep ls x)) - deepPush ls d x| ≤ κ + M * ∑ k ∈ range ls.length, (Λ ^ k * r + ε * growth Λ k) := by
  obtain ⟨hne, hobj, h1, h2, h3⟩ := deep_new ht h
  obtain ⟨hin, hsq, rfl⟩ := push_new.mp hQ
  obtain ⟨v, hv, hvd⟩ := C116_inverse ht h hK hx.2 (r := exactDeep ls x) (σ := 0) (by simp)
    (fun k hk => by rw [mul_zero, zero_add]; exact hS k hk) (out := List.replicate n 0) (by simp)
  have hvx : dist v x ≤ r := by rw [hr]; simpa using hvd
  obtain ⟨-, hld⟩ := deep_run hΛ hε hM h hx.1 hvx hR
  have hLD : ∀ out, t.logDet (ls.map DeepLayer.coeffs).flatten (List.ofFn v) out = .ok (some (ldSum (pairsOf ls) (List.ofFn v))) := fun out => by
    rw [hobj]
    change ComposedMap.logDet (withCoeffs _ _ 0) _ _ = _
    rw [withCoeffs_pairs (ls := ls) fun l hl => (h l hl).count, Comp.logDet_eq (by simpa [pairsOf] using hne) (pairs_sq h) (fun p hp => by
      obtain ⟨l, hl, rfl⟩ := List.mem_map.1 hp
      exact (h l hl).hasLogDet) (by simp)]
  have hval : ∀ out, Pushforward.logDensity t d (ls.map DeepLayer.coeffs).flatten (List.ofFn (exactDeep ls x)) out
      = .ok (some (logp d (List.ofFn v) - ldSum (pairsOf ls) (List.ofFn v))) := fun out => by
    simp only [Pushforward.logDensity, h2]
    rw [hv, Res.bind_ok, hd _ (by simp [← hin, h1]), Res.bind_ok, hLD, Res.bind_ok]
    rfl
  have hlp : logp { dim := d.dim, logDensity := Pushforward.logDensity t d (ls.map DeepLayer.coeffs).flatten, inputGrad := fun _ _ => .throw } (List.ofFn (exactDeep ls x))
      = logp d (List.ofFn v) - ldSum (pairsOf ls) (List.ofFn v) := by
    rw [logp]
    simp only [hval]
    rfl
  rw [hlp]
  refine ⟨hval, ?_⟩
  have h5 := abs_le.1 (hκ v hvx)
  have h6 := abs_le.1 hld
  rw [deepPush]
  exact abs_le.2 ⟨by linarith [h5.1, h6.2], by linarith [h5.2, h6.1]⟩

/-- The mass of the exact image of a set. -/
theorem deep_image_mass (h : ∀ l ∈ ls, Faithful l) {X : Set (Fin n → ℝ)} (hX : MeasurableSet X) (q : (Fin n → ℝ) → ℝ) :
    lawOf (fun y => (fderiv ℝ (exactDeep ls) y).det * q (exactDeep ls y)) X = lawOf q (exactDeep ls '' X) := by
  have hd := exactDeep_differentiable h
  have hi := exactDeep_injective h
  rw [lawOf, lawOf, withDensity_apply _ hX, withDensity_apply _ ((hd.continuous.measurableEmbedding hi).measurableSet_image.2 hX),
    lintegral_image_eq_lintegral_abs_det_fderiv_mul volume hX (fun y _ => (hd y).hasFDerivAt.hasFDerivWithinAt) hi.injOn]
  refine lintegral_congr fun y => ?_
  have h0 := exactDeep_det_pos h y
  rw [abs_of_pos h0, ENNReal.ofReal_mul h0.le]

/-- **C117.** Masses: a pushforward density within `δ` of the exact one on the exact image of `G` gives the exact image of every measurable subset the mass of the reference, up to the factor
`exp(± δ)`, and the samples of the pushforward sampler follow it: the chance of a sample in `B` is at most `exp δ` times the mass it gives to the exact images of points of `G` within `e` of `B`, plus the mass
of the reference outside of `G`, and at least `exp(-δ)` times the mass it gives to the exact images farther than `e` from the complement of `B`; `e` is the accumulated error of `Evaluate`. -/
theorem C117_pushforward_law (ht : ComposedMap.new (ls.map DeepLayer.map) checks = .ok t) (h : ∀ l ∈ ls, Faithful l) (hΛ : 0 ≤ Λ) (hε : 0 ≤ ε) (hM : 0 ≤ M)
    (hd : HasDensity d) (hQ : Pushforward.new t d (ls.map DeepLayer.coeffs).flatten = .ok Q) (hK : 0 ≤ K) (hS : ∀ k < ls.length, τ * growth K k ≤ S)
    (hr : r = τ * growth K ls.length) (hR : ∀ k < ls.length, Λ ^ k * r + ε * growth Λ k ≤ R) (hR' : ε * growth Λ ls.length ≤ R) (hGm : MeasurableSet G)
    (hG : ∀ y ∈ G, Along (Tracks R ε Λ M) ls y ∧ Along (InvertsAt [] S K τ) ls y)
    (hκ : ∀ y ∈ G, ∀ v : Fin n → ℝ, dist v y ≤ r → |logp d (List.ofFn v) - logp d (List.ofFn y)| ≤ κ) {e δ : ℝ} (he : e = ε * growth Λ ls.length)
    (hδ : δ = κ + M * ∑ k ∈ range ls.length, (Λ ^ k * r + ε * growth Λ k)) {out : List ℝ} (ho : out.length = n) (B : Set (Fin n → ℝ)) :
    (∀ X ⊆ G, MeasurableSet X → lawOf (densityOn d [] n) X ≤ ENNReal.ofReal (Real.exp δ) * lawOf (densityOn Q [] n) (exactDeep ls '' X) ∧
      lawOf (densityOn Q [] n) (exactDeep ls '' X) ≤ ENNReal.ofReal (Real.exp δ) * lawOf (densityOn d [] n) X) ∧
    lawOf (densityOn d [] n) (pushedInto t (ls.map DeepLayer.coeffs).flatten out B)
        ≤ ENNReal.ofReal (Real.exp δ) * lawOf (densityOn Q [] n) (exactDeep ls '' G ∩ Metric.cthickening e B) + lawOf (densityOn d [] n) Gᶜ ∧
      ENNReal.ofReal (Real.exp (-δ)) * lawOf (densityOn Q [] n) (exactDeep ls '' G \ Metric.cthickening e Bᶜ)
        ≤ lawOf (densityOn d [] n) (pushedInto t (ls.map DeepLayer.coeffs).flatten out B) := by
  set E := exactDeep ls with hE
  obtain ⟨-, -, h1, h2, -⟩ := deep_new ht h
  have hval : ∀ y ∈ G, |logp Q (List.ofFn (E y)) - deepPush ls d y| ≤ δ := fun y hy => by
    rw [hδ]
    exact (C117_pushforward ht h hΛ hε hM hd hQ hK hS hr hR (hG y hy) (hκ y hy)).2
  have hmass : ∀ X ⊆ G, MeasurableSet X → lawOf (densityOn d [] n) X ≤ ENNReal.ofReal (Real.exp δ) * lawOf (densityOn Q [] n) (E '' X) ∧
      lawOf (densityOn Q [] n) (E '' X) ≤ ENNReal.ofReal (Real.exp δ) * lawOf (densityOn d [] n) X := fun X hXG hX => by
    rw [hE, ← deep_image_mass h hX, ← hE]
    have hpt : ∀ y, (fderiv ℝ E y).det * densityOn Q [] n (E y) = Real.exp (logp Q (List.ofFn (E y)) + Real.log (fderiv ℝ E y).det) := fun y => by
      rw [Real.exp_add, Real.exp_log (exactDeep_det_pos h y), mul_comm]; rfl
    constructor
    · refine lawOf_le hX (Real.exp_pos δ).le fun y hy => ?_
      have h1 := abs_le.1 (hval y (hXG hy))
      simp only [hpt, deepPush, ← hE] at h1 ⊢
      rw [densityOn, List.nil_append, ← Real.exp_add]
      exact Real.exp_le_exp.2 (by linarith [h1.1])
    · refine lawOf_le hX (Real.exp_pos δ).le fun y hy => ?_
      have h1 := abs_le.1 (hval y (hXG hy))
      simp only [hpt, deepPush, ← hE] at h1 ⊢
      rw [densityOn, List.nil_append, ← Real.exp_add]
      exact Real.exp_le_exp.2 (by linarith [h1.2])
  have hEc : Continuous E := (exactDeep_differentiable h).continuous
  have hsample : ∀ y ∈ G, ∃ v : Fin n → ℝ, Pushforward.sample t n (ls.map DeepLayer.coeffs).flatten (List.ofFn y) out = .ok (List.ofFn v) ∧ dist (E y) v ≤ e := fun y hy => by
    obtain ⟨⟨z, hz, hze⟩, -⟩ := C116_evaluate ht h hΛ hε hM hR' (hG y hy).1
    refine ⟨z, ?_, by rw [dist_comm, he]; exact hz⟩
    rw [Pushforward.sample, if_neg (by simp [h2]), if_neg (by simp [h1, h2])]
    exact hze out ho
  refine ⟨hmass, ?_, ?_⟩
  · have hsub : pushedInto t (ls.map DeepLayer.coeffs).flatten out B ⊆ G ∩ E ⁻¹' Metric.cthickening e B ∪ Gᶜ := by
      rintro z ⟨v, hv, hvB⟩
      by_cases hz : z ∈ G
      · obtain ⟨v', hv', hd'⟩ := hsample z hz
        obtain rfl := List.ofFn_injective (Res.ok.inj (hv.symm.trans hv'))
        exact .inl ⟨hz, Metric.mem_cthickening_of_dist_le (E z) v e B hvB hd'⟩
      · exact .inr hz
    refine (measure_mono hsub).trans ((measure_union_le _ _).trans (add_le_add_left ?_ _))
    have := (hmass (G ∩ E ⁻¹' Metric.cthickening e B) Set.inter_subset_left (hGm.inter (hEc.measurable Metric.isClosed_cthickening.measurableSet))).1
    rwa [Set.image_inter_preimage] at this
  · have hsub : G \ E ⁻¹' Metric.cthickening e Bᶜ ⊆ pushedInto t (ls.map DeepLayer.coeffs).flatten out B := by
      rintro z ⟨hzG, hzB⟩
      obtain ⟨v, hv, hd'⟩ := hsample z hzG
      refine ⟨v, hv, ?_⟩
      by_contra hvB
      exact hzB (Metric.mem_cthickening_of_dist_le (E z) v e Bᶜ hvB hd')
    refine le_trans ?_ (measure_mono hsub)
    have h2 := (hmass (G \ E ⁻¹' Metric.cthickening e Bᶜ) Set.sdiff_subset (hGm.diff (hEc.measurable Metric.isClosed_cthickening.measurableSet))).2
    have himg : E '' (G \ E ⁻¹' Metric.cthickening e Bᶜ) = E '' G \ Metric.cthickening e Bᶜ := by
      rw [Set.sdiff_eq, ← Set.preimage_compl, Set.image_inter_preimage, ← Set.sdiff_eq]
    rw [himg] at h2
    calc _ ≤ ENNReal.ofReal (Real.exp (-δ)) * (ENNReal.ofReal (Real.exp δ) * lawOf (densityOn d [] n) (G \ E ⁻¹' Metric.cthickening e Bᶜ)) := by gcongr
      _ = _ := by rw [← mul_assoc, ← ENNReal.ofReal_mul (Real.exp_pos _).le, ← Real.exp_add]; simp

end

/-! ### Non-vacuity -/

/-- Training two layers `exp(y) - 3/2` built by the factory: for every data set in `[-1, 1]` the objective is minus the average exact log-likelihood, up to `3e-9`. -/
example (mem : Nat → Option ℝ) (work : List ℝ) (checks : Int) : ∃ T t, createTriangular 1 1 2 expOptions mem work = .ok (T, zeros T.numCoeffs) ∧
    ComposedMap.new [T, T] checks = .ok t ∧ ∀ data : List (Fin 1 → ℝ), data ≠ [] → (∀ y ∈ data, |y 0| ≤ 1) →
      ∃ v, KL.objective t (Gaussian.ofDim 1).density [0, 0, 1 / 2, 0, 0, 1 / 2] (data.map List.ofFn) = .ok (some v) ∧
        |v - -(data.map fun y => -(1 / 2) * (Real.exp (Real.exp (y 0) - 3 / 2) - 3 / 2) ^ 2 - 1 / 2 * Real.log (2 * Real.pi) + (y 0 + (Real.exp (y 0) - 3 / 2))).sum / data.length| ≤ 3e-9 := by
  obtain ⟨T, t, l1, l2, t1, ht, e1, e2, e3, hE, h⟩ := exp_pair mem work checks
  have ht' : ComposedMap.new ([l1, l2].map DeepLayer.map) checks = .ok t := by rw [e1]; exact ht
  refine ⟨T, t, t1, ht, fun data hne hdata => ?_⟩
  obtain ⟨v, hv, hvd⟩ := C117_objective ht' e3 (Λ := 10) (ε := 1e-10) (M := 1) (R := 1) (by norm_num) (by norm_num) zero_le_one (by norm_num [growth, sum_range_succ])
    (C53_density (.dim 1)).2.1 rfl hne (fun x hx => (h x (hdata x hx)).1)
    (fun x hx z hz => gaussian_near (ρ := 2) hz fun i => by rw [hE]; exact (h x (hdata x hx)).2.2)
  refine ⟨v, by rw [← e2]; exact hv, ?_⟩
  have : data.map (deepPull [l1, l2] (Gaussian.ofDim 1).density)
      = data.map fun y => -(1 / 2) * (Real.exp (Real.exp (y 0) - 3 / 2) - 3 / 2) ^ 2 - 1 / 2 * Real.log (2 * Real.pi) + (y 0 + (Real.exp (y 0) - 3 / 2)) :=
    List.map_congr_left fun y hy => by
      rw [deepPull, (h y (hdata y hy)).2.1, std_logp 1 (by simp), hE]
      simp [List.ofFn_succ]
  rw [deepObjective, this] at hvd
  refine hvd.trans ?_
  norm_num [growth, sum_range_succ]

/-- Sampling through two layers `(1 + x₁, x₂ exp(x₁/10))` built by the factory: the draws of the standard normal distribution that `Inverse` sends into `B` have at most the mass of the pulled-back density
within 1/2 of `B`, plus what it leaves outside of the rectangle, and at least its mass farther than 1/2 from the complement of `B`. -/
example (mem : Nat → Option ℝ) (work : List ℝ) (checks : Int) : ∃ T t P, createTriangular 2 2 2 productOptions mem work = .ok (T, zeros T.numCoeffs) ∧
    ComposedMap.new [T, T] checks = .ok t ∧ Pullback.new t (Gaussian.ofDim 2).density [1, 0, 0, 0, 0, 0, 0, 1 / 10, 0, 1, 0, 0, 0, 0, 0, 0, 1 / 10, 0] = .ok P ∧
    ∀ B : Set (Fin 2 → ℝ), (Measure.pi fun _ : Fin 2 => ProbabilityTheory.gaussianReal 0 1) (drawsInto t [1, 0, 0, 0, 0, 0, 0, 1 / 10, 0, 1, 0, 0, 0, 0, 0, 0, 1 / 10, 0] [] (zeros 2) B)
        ≤ lawOf (densityOn P [] 2) ({y | |y 0| ≤ 7 / 10 ∧ |y 1| ≤ 3 / 2} ∩ Metric.cthickening (1 / 2) B) + (1 - lawOf (densityOn P [] 2) {y | |y 0| ≤ 7 / 10 ∧ |y 1| ≤ 3 / 2}) ∧
      lawOf (densityOn P [] 2) ({y | |y 0| ≤ 7 / 10 ∧ |y 1| ≤ 3 / 2} \ Metric.cthickening (1 / 2) Bᶜ)
        ≤ (Measure.pi fun _ : Fin 2 => ProbabilityTheory.gaussianReal 0 1) (drawsInto t [1, 0, 0, 0, 0, 0, 0, 1 / 10, 0, 1, 0, 0, 0, 0, 0, 0, 1 / 10, 0] [] (zeros 2) B) := by
  obtain ⟨T, t, l1, l2, t1, ht, e1, e2, e3, x1, x2, -, hA⟩ := product_pair mem work checks
  have ht' : ComposedMap.new ([l1, l2].map DeepLayer.map) checks = .ok t := by rw [e1]; exact ht
  have hdim := (deep_new ht' e3).2.2.2.1
  have hP : Pullback.new t (Gaussian.ofDim 2).density (([l1, l2].map DeepLayer.coeffs).flatten)
      = .ok { dim := (Gaussian.ofDim 2).density.dim, logDensity := _, inputGrad := _ } := pull_new.mpr ⟨hdim, rfl⟩
  refine ⟨T, t, _, t1, ht, by rw [← e2]; exact hP, fun B => ?_⟩
  have hpi := (std_draws 2).2
  have hprob : IsProbabilityMeasure (lawOf (densityOn (Gaussian.ofDim 2).density [] 2)) := by rw [hpi]; infer_instance
  have hGm : MeasurableSet {y : Fin 2 → ℝ | |y 0| ≤ 7 / 10 ∧ |y 1| ≤ 3 / 2} := by
    have h0 : Measurable fun y : Fin 2 → ℝ => |y 0| := (measurable_pi_apply 0).abs
    have h1 : Measurable fun y : Fin 2 → ℝ => |y 1| := (measurable_pi_apply 1).abs
    exact (measurableSet_le h0 measurable_const).inter (measurableSet_le h1 measurable_const)
  obtain ⟨h1, h2⟩ := C117_samples ht' e3 (Λ := 2) (ε := 0) (M := 1 / 10) (R := 2) (K := 700) (τ := 7e-4) (κ := 0) (by norm_num) le_rfl (by norm_num) (by norm_num) (C53_density (.dim 2)).2.1 hP hGm
    (S := 7e-4) (fun y hy => hA y hy.1 hy.2) (by norm_num)
    (fun k hk => by
      have : k = 0 ∨ k = 1 := by simp at hk; omega
      rcases this with rfl | rfl <;> norm_num [growth]) rfl rfl
    (fun y _ z hz => by
      rw [zero_mul] at hz
      rw [dist_le_zero.1 hz]; simp) (out := zeros 2) (by simp [zeros]) B
  rw [hpi] at h1 h2
  have hr : (7e-4 : ℝ) * growth 700 [l1, l2].length ≤ 1 / 2 := by norm_num [growth, sum_range_succ]
  simp only [zero_mul, mul_zero, add_zero, neg_zero, Real.exp_zero, ENNReal.ofReal_one, one_mul] at h1 h2
  rw [← e2]
  exact ⟨h1.trans (add_le_add_left (measure_mono (Set.inter_subset_inter_right _ (Metric.cthickening_mono hr _))) _),
    (measure_mono (Set.sdiff_subset_sdiff_right (Metric.cthickening_mono hr _))).trans h2⟩

/-- The pushforward of the standard normal distribution through the same composition: its log-density at `(2 + y₀, y₁ exp((1 + 2 y₀)/10))` is that of the exact image up to 2. -/
example (mem : Nat → Option ℝ) (work : List ℝ) (checks : Int) : ∃ T t Q, createTriangular 2 2 2 productOptions mem work = .ok (T, zeros T.numCoeffs) ∧
    ComposedMap.new [T, T] checks = .ok t ∧ Pushforward.new t (Gaussian.ofDim 2).density [1, 0, 0, 0, 0, 0, 0, 1 / 10, 0, 1, 0, 0, 0, 0, 0, 0, 1 / 10, 0] = .ok Q ∧
    ∀ y : Fin 2 → ℝ, |y 0| ≤ 7 / 10 → |y 1| ≤ 3 / 2 →
      |logp Q [2 + y 0, y 1 * Real.exp ((1 + 2 * y 0) / 10)] - (-(1 / 2) * (y 0 ^ 2 + y 1 ^ 2) - Real.log (2 * Real.pi) - (1 + 2 * y 0) / 10)| ≤ 2 := by
  obtain ⟨T, t, l1, l2, t1, ht, e1, e2, e3, x1, x2, hdet, hA⟩ := product_pair mem work checks
  have ht' : ComposedMap.new ([l1, l2].map DeepLayer.map) checks = .ok t := by rw [e1]; exact ht
  obtain ⟨-, -, hin, hout, -⟩ := deep_new ht' e3
  have hQ : Pushforward.new t (Gaussian.ofDim 2).density (([l1, l2].map DeepLayer.coeffs).flatten)
      = .ok { dim := (Gaussian.ofDim 2).density.dim, logDensity := _, inputGrad := _ } := push_new.mpr ⟨hin, hout.trans hin.symm, rfl⟩
  refine ⟨T, t, _, t1, ht, by rw [← e2]; exact hQ, fun y hy0 hy1 => ?_⟩
  have hr : (7e-4 : ℝ) * growth 700 [l1, l2].length = 0.4907 := by norm_num [growth, sum_range_succ]
  have key := (C117_pushforward ht' e3 (Λ := 2) (ε := 0) (M := 1 / 10) (R := 2) (S := 7e-4) (K := 700) (τ := 7e-4) (by norm_num) le_rfl (by norm_num) (C53_density (.dim 2)).2.1 hQ (by norm_num)
    (fun k hk => by
      have : k = 0 ∨ k = 1 := by simp at hk; omega
      rcases this with rfl | rfl <;> norm_num [growth]) hr.symm
    (fun k hk => by
      have : k = 0 ∨ k = 1 := by simp at hk; omega
      rcases this with rfl | rfl <;> norm_num) (hA y hy0 hy1)
    (fun v hv => gaussian_near (ρ := 3 / 2) hv fun i => by
      fin_cases i
      · exact hy0.trans (by norm_num)
      · exact hy1)).2
  have himg : List.ofFn (exactDeep [l1, l2] y) = [2 + y 0, y 1 * Real.exp ((1 + 2 * y 0) / 10)] := by
    simp only [exactDeep, x1, x2, List.ofFn_succ, List.ofFn_zero, Matrix.cons_val_zero, Matrix.cons_val_one, Matrix.cons_val_fin_one, Fin.succ_zero_eq_one]
    rw [mul_assoc, ← Real.exp_add, show y 0 / 10 + (1 + y 0) / 10 = (1 + 2 * y 0) / 10 by ring, show 1 + (1 + y 0) = 2 + y 0 by ring]
  have hlp : logp (Gaussian.ofDim 2).density (List.ofFn y) = -(1 / 2) * (y 0 ^ 2 + y 1 ^ 2) - Real.log (2 * Real.pi) := by
    rw [std_logp 2 (by simp)]
    simp [List.ofFn_succ]
  rw [himg, deepPush, hdet, hlp] at key
  refine key.trans ?_
  norm_num [growth, sum_range_succ]

end MParT
