import Verif.Props.TriangularPushforward
import Verif.Props.Composed
/-!
# C116: compositions of maps built by the factory, against the composition of the exact maps

Every layer of a `ComposedMap` works on the computed output of the layer before it. Here the quadrature and search errors of the layers are followed through the composition, forwards for
`Evaluate`, `LogDeterminant` and pulled-back densities, backwards for `Inverse`.
-/
namespace MParT
open Spec Finset MapFactory MeasureTheory _root_.MParT.Comp
open ComposedMap (withCoeffs)

/-! ### Layers -/

/-- A layer of a composition: the map with its coefficients and the exact map it stands for. -/
structure Spec.DeepLayer (n : Nat) where
  map : CMap
  coeffs : List ℝ
  exact : (Fin n → ℝ) → Fin n → ℝ

/-- The exact composition, the first layer first. -/
def Spec.exactDeep {n : Nat} : List (DeepLayer n) → (Fin n → ℝ) → Fin n → ℝ
  | [], x => x
  | l :: ls, x => exactDeep ls (l.exact x)

/-- `P` holds of every layer at the point it receives in the exact composition. -/
def Spec.Along {n : Nat} (P : DeepLayer n → (Fin n → ℝ) → Prop) : List (DeepLayer n) → (Fin n → ℝ) → Prop
  | [], _ => True
  | l :: ls, x => P l x ∧ Along P ls (l.exact x)

/-- The layer is square, its calls return, its exact map is differentiable and one-to-one with positive determinant, and `LogDeterminant` is the logarithm of this determinant. -/
structure Spec.Faithful {n : Nat} (l : DeepLayer n) : Prop where
  inputs : l.map.inputDim = n
  outputs : l.map.outputDim = n
  count : l.coeffs.length = l.map.numCoeffs
  evaluates : Evaluates l.map
  hasLogDet : HasLogDet l.map
  differentiable : Differentiable ℝ l.exact
  injective : Function.Injective l.exact
  det_pos : ∀ y, 0 < (fderiv ℝ l.exact y).det
  logDet : ∀ y, logdet l.map l.coeffs (List.ofFn y) = Real.log (fderiv ℝ l.exact y).det

/-- Within `R` of `x`, in the maximum norm: `Evaluate` of the layer is within `ε` of its exact map, which moves by at most `Λ` times the distance to `x`, and its log-determinant by
at most `M` times the distance. -/
structure Spec.Tracks {n : Nat} (R ε Λ M : ℝ) (l : DeepLayer n) (x : Fin n → ℝ) : Prop where
  value : ∀ y, dist y x ≤ R → ∀ i : Fin n, |(fn l.map l.coeffs (List.ofFn y)).getD i 0 - l.exact y i| ≤ ε
  lipschitz : ∀ y, dist y x ≤ R → dist (l.exact y) (l.exact x) ≤ Λ * dist y x
  logDet : ∀ y, dist y x ≤ R → |Real.log (fderiv ℝ l.exact y).det - Real.log (fderiv ℝ l.exact x).det| ≤ M * dist y x

/-- `Inverse` of the layer, started from `x1`, for targets within `S` of the exact image of `x`: the result is within `τ` plus `K` times that distance of `x`. -/
def Spec.InvertsAt {n : Nat} (x1 : List ℝ) (S K τ : ℝ) (l : DeepLayer n) (x : Fin n → ℝ) : Prop :=
  ∀ t : Fin n → ℝ, dist t (l.exact x) ≤ S → ∀ out : List ℝ, out.length = n →
    ∃ y : Fin n → ℝ, l.map.inv l.coeffs x1 (List.ofFn t) out = .ok (List.ofFn y) ∧ dist y x ≤ K * dist t (l.exact x) + τ

/-- Sum of the first `k` powers: an error `ε` per layer, amplified by `Λ` in every layer after it, becomes `ε` times this number after `k` layers. -/
def Spec.growth (Λ : ℝ) (k : Nat) : ℝ := ∑ j ∈ range k, Λ ^ j

section
variable {n : Nat} {ls : List (DeepLayer n)}

theorem growth_nonneg {Λ : ℝ} (h : 0 ≤ Λ) (k : Nat) : 0 ≤ growth Λ k := sum_nonneg fun _ _ => pow_nonneg h _

theorem growth_mono {Λ : ℝ} (h : 0 ≤ Λ) {k j : Nat} (hk : k ≤ j) : growth Λ k ≤ growth Λ j :=
  sum_le_sum_of_subset_of_nonneg (range_mono hk) fun _ _ _ => pow_nonneg h _

/-- The error after `k` layers when it is `δ` before them. -/
theorem growth_step (Λ ε δ : ℝ) (k : Nat) : Λ ^ (k + 1) * δ + ε * growth Λ (k + 1) = Λ ^ k * (Λ * δ + ε) + ε * growth Λ k := by
  rw [growth, growth, sum_range_succ]; ring

/-- The layers as the composed map uses them. -/
def pairsOf (ls : List (DeepLayer n)) : List (CMap × List ℝ) := ls.map fun l => (l.map, l.coeffs)

theorem withCoeffs_pairs (h : ∀ l ∈ ls, l.coeffs.length = l.map.numCoeffs) :
    withCoeffs (ls.map DeepLayer.coeffs).flatten (ls.map DeepLayer.map) 0 = pairsOf ls := by
  induction ls with
  | nil => rfl
  | cons l ls ih =>
    have h1 := h l (by simp)
    rw [List.map_cons, List.map_cons, List.flatten_cons, withCoeffs_cons, ← h1, List.take_left, List.drop_left, ih fun l' h' => h l' (by simp [h']), pairsOf, pairsOf]
    rfl

theorem pairs_sq (h : ∀ l ∈ ls, Faithful l) : ∀ p ∈ pairsOf ls, Sq n p ∧ Evaluates p.1 := by
  intro p hp
  obtain ⟨l, hl, rfl⟩ := List.mem_map.1 hp
  exact ⟨⟨(h l hl).inputs, (h l hl).outputs, (h l hl).count⟩, (h l hl).evaluates⟩

theorem exactDeep_differentiable (h : ∀ l ∈ ls, Faithful l) : Differentiable ℝ (exactDeep ls) := by
  induction ls with
  | nil => exact differentiable_id
  | cons l ls ih => exact (ih fun l' h' => h l' (by simp [h'])).comp (h l (by simp)).differentiable

theorem exactDeep_injective (h : ∀ l ∈ ls, Faithful l) : Function.Injective (exactDeep ls) := by
  induction ls with
  | nil => exact Function.injective_id
  | cons l ls ih => exact (ih fun l' h' => h l' (by simp [h'])).comp (h l (by simp)).injective

theorem exactDeep_det_cons {l : DeepLayer n} (h : ∀ l' ∈ l :: ls, Faithful l') (x : Fin n → ℝ) :
    (fderiv ℝ (exactDeep (l :: ls)) x).det = (fderiv ℝ (exactDeep ls) (l.exact x)).det * (fderiv ℝ l.exact x).det := by
  have h1 := exactDeep_differentiable (ls := ls) fun l' h' => h l' (by simp [h'])
  have : fderiv ℝ (exactDeep (l :: ls)) x = (fderiv ℝ (exactDeep ls) (l.exact x)).comp (fderiv ℝ l.exact x) :=
    fderiv_comp x (h1 _) ((h l (by simp)).differentiable x)
  rw [this]
  exact LinearMap.det_comp _ _

theorem exactDeep_det_pos (h : ∀ l ∈ ls, Faithful l) (x : Fin n → ℝ) : 0 < (fderiv ℝ (exactDeep ls) x).det := by
  induction ls generalizing x with
  | nil =>
    have : fderiv ℝ (exactDeep ([] : List (DeepLayer n))) x = ContinuousLinearMap.id ℝ _ := fderiv_id
    rw [this]
    simp [ContinuousLinearMap.det]
  | cons l ls ih =>
    rw [exactDeep_det_cons h]
    exact mul_pos (ih (fun l' h' => h l' (by simp [h'])) _) ((h l (by simp)).det_pos x)

theorem ofFn_getD {v : List ℝ} (hv : v.length = n) : v = List.ofFn fun i : Fin n => v.getD i 0 :=
  List.ext_getElem (by simp [hv]) fun i h1 h2 => by simp [List.getElem?_eq_getElem h1]

/-- Errors through the layers, from a point within `δ` of the exact one. -/
theorem deep_run {R ε Λ M : ℝ} (hΛ : 0 ≤ Λ) (hε : 0 ≤ ε) (hM : 0 ≤ M) (h : ∀ l ∈ ls, Faithful l) {x : Fin n → ℝ} (hx : Along (Tracks R ε Λ M) ls x) :
    ∀ {y : Fin n → ℝ} {δ : ℝ}, dist y x ≤ δ → (∀ k < ls.length, Λ ^ k * δ + ε * growth Λ k ≤ R) →
    (∃ z : Fin n → ℝ, run (pairsOf ls) (List.ofFn y) = List.ofFn z ∧ dist z (exactDeep ls x) ≤ Λ ^ ls.length * δ + ε * growth Λ ls.length) ∧
      |ldSum (pairsOf ls) (List.ofFn y) - Real.log (fderiv ℝ (exactDeep ls) x).det| ≤ M * ∑ k ∈ range ls.length, (Λ ^ k * δ + ε * growth Λ k) := by
  induction ls generalizing x with
  | nil =>
    intro y δ hy _
    refine ⟨⟨y, rfl, by simpa [exactDeep, growth] using hy⟩, ?_⟩
    have : fderiv ℝ (exactDeep ([] : List (DeepLayer n))) x = ContinuousLinearMap.id ℝ _ := fderiv_id
    rw [this]
    simp [ContinuousLinearMap.det, pairsOf, ldSum]
  | cons l ls ih =>
    intro y δ hy hR
    obtain ⟨hl, hrest⟩ := hx
    have hF := h l (by simp)
    have hF' : ∀ l' ∈ ls, Faithful l' := fun l' h' => h l' (by simp [h'])
    have hδR : δ ≤ R := by simpa [growth] using hR 0 (by simp)
    have hyR := hy.trans hδR
    have hlen : (fn l.map l.coeffs (List.ofFn y)).length = n := by
      rw [(hF.evaluates l.coeffs (List.ofFn y) ⟨hF.count, by simp [hF.inputs]⟩).1, hF.outputs]
    set w : Fin n → ℝ := fun i => (fn l.map l.coeffs (List.ofFn y)).getD i 0 with hw
    have hwv : fn l.map l.coeffs (List.ofFn y) = List.ofFn w := ofFn_getD hlen
    have hwx : dist w (l.exact x) ≤ Λ * δ + ε := by
      have h1 : dist w (l.exact y) ≤ ε := (dist_pi_le_iff hε).2 fun i => by rw [Real.dist_eq]; exact hl.value y hyR i
      have h2 := (hl.lipschitz y hyR).trans (mul_le_mul_of_nonneg_left hy hΛ)
      linarith [dist_triangle w (l.exact y) (l.exact x)]
    obtain ⟨⟨z, hz, hzd⟩, hld⟩ := ih hF' hrest hwx fun k hk => by
      rw [← growth_step]; exact hR (k + 1) (by simp; omega)
    refine ⟨⟨z, ?_, ?_⟩, ?_⟩
    · rw [pairsOf, List.map_cons, run]
      simp only [hwv]
      exact hz
    · rw [List.length_cons, growth_step]; exact hzd
    · rw [pairsOf, List.map_cons, ldSum]
      simp only [hwv, hF.logDet]
      rw [exactDeep_det_cons h, Real.log_mul (exactDeep_det_pos hF' _).ne' (hF.det_pos x).ne', List.length_cons, sum_range_succ']
      simp only [growth_step, pow_zero, one_mul]
      have h1 := abs_le.1 ((hl.logDet y hyR).trans (mul_le_mul_of_nonneg_left hy hM))
      have h2 := abs_le.1 hld
      rw [pairsOf] at h2
      have h0 : growth Λ 0 = 0 := by simp [growth]
      rw [h0, mul_zero, add_zero, mul_add]
      exact abs_le.2 ⟨by linarith [h1.1, h2.1], by linarith [h1.2, h2.2]⟩

variable {checks : Int} {t : CMap} {R ε Λ M : ℝ}

theorem deep_new (ht : ComposedMap.new (ls.map DeepLayer.map) checks = .ok t) (h : ∀ l ∈ ls, Faithful l) :
    ls ≠ [] ∧ t = ComposedMap.obj (ls.map DeepLayer.map) checks ∧ t.inputDim = n ∧ t.outputDim = n ∧ t.numCoeffs = (ls.map DeepLayer.coeffs).flatten.length := by
  obtain ⟨hne, hd, rfl⟩ := new_composed.mp ht
  have hne' : ls ≠ [] := by rintro rfl; simp at hne
  obtain ⟨l, hl⟩ := List.exists_mem_of_ne_nil _ hne'
  have h1 : (ComposedMap.obj (ls.map DeepLayer.map) checks).inputDim = n := ((hd l.map (List.mem_map.2 ⟨l, hl, rfl⟩)).1).symm.trans (h l hl).inputs
  refine ⟨hne', rfl, h1, h1, ?_⟩
  change ((ls.map DeepLayer.map).map CMap.numCoeffs).sum = _
  rw [List.length_flatten, List.map_map, List.map_map]
  congr 1
  exact List.map_congr_left fun l hl => (h l hl).count.symm

/-- **C116.** `Evaluate` of the composition returns, whatever the buffer contained, a point within `ε (1 + Λ + … + Λ^(N-1))` of the exact composition of the `N` layers, and `LogDeterminant`
is within `M ε Σ (1 + … + Λ^(k-1))` of the logarithm of the determinant of the exact composition. -/
theorem C116_evaluate (ht : ComposedMap.new (ls.map DeepLayer.map) checks = .ok t) (h : ∀ l ∈ ls, Faithful l) (hΛ : 0 ≤ Λ) (hε : 0 ≤ ε) (hM : 0 ≤ M)
    (hR : ε * growth Λ ls.length ≤ R) {x : Fin n → ℝ} (hx : Along (Tracks R ε Λ M) ls x) :
    (∃ z : Fin n → ℝ, dist z (exactDeep ls x) ≤ ε * growth Λ ls.length ∧
      ∀ out : List ℝ, out.length = n → t.eval (ls.map DeepLayer.coeffs).flatten (List.ofFn x) out = .ok (List.ofFn z)) ∧
    ∃ v : ℝ, |v - Real.log (fderiv ℝ (exactDeep ls) x).det| ≤ M * (ε * ∑ k ∈ range ls.length, growth Λ k) ∧
      ∀ out, t.logDet (ls.map DeepLayer.coeffs).flatten (List.ofFn x) out = .ok (some v) := by
  obtain ⟨hne, rfl, h1, h2, h3⟩ := deep_new ht h
  have hw := withCoeffs_pairs (ls := ls) fun l hl => (h l hl).count
  have hsq := pairs_sq h
  have hpne : pairsOf ls ≠ [] := by simpa [pairsOf] using hne
  have hLD : ∀ p ∈ pairsOf ls, HasLogDet p.1 := fun p hp => by
    obtain ⟨l, hl, rfl⟩ := List.mem_map.1 hp
    exact (h l hl).hasLogDet
  obtain ⟨⟨z, hz, hzd⟩, hld⟩ := deep_run hΛ hε hM h hx (y := x) (δ := 0) (by simp) fun k hk => by
    rw [mul_zero, zero_add]
    exact (mul_le_mul_of_nonneg_left (growth_mono hΛ hk.le) hε).trans hR
  simp only [mul_zero, zero_add, ← mul_sum] at hzd hld
  refine ⟨⟨z, hzd, fun out ho => ?_⟩, _, hld, fun out => ?_⟩
  · change ComposedMap.evaluate (withCoeffs _ _ 0) _ _ = _
    rw [hw, evaluate_eq hpne hsq (by simp) ho, hz]
  · change ComposedMap.logDet (withCoeffs _ _ 0) _ _ = _
    rw [hw, Comp.logDet_eq hpne hsq hLD (by simp)]

theorem along_append {P : DeepLayer n → (Fin n → ℝ) → Prop} {qs : List (DeepLayer n)} {l : DeepLayer n} {x : Fin n → ℝ} :
    Along P (qs ++ [l]) x ↔ Along P qs x ∧ P l (exactDeep qs x) := by
  induction qs generalizing x with
  | nil => simp [Along, exactDeep]
  | cons q qs ih => simp only [List.cons_append, Along, exactDeep, ih, and_assoc]

theorem exactDeep_append {qs : List (DeepLayer n)} {l : DeepLayer n} {x : Fin n → ℝ} : exactDeep (qs ++ [l]) x = l.exact (exactDeep qs x) := by
  induction qs generalizing x with
  | nil => rfl
  | cons q qs ih => exact ih

theorem deep_invLoop {x1 : List ℝ} {S K τ : ℝ} (hK : 0 ≤ K) {x : Fin n → ℝ} : ∀ (ls : List (DeepLayer n)), Along (InvertsAt x1 S K τ) ls x →
    ∀ (r : Fin n → ℝ) (σ : ℝ) (buf : List ℝ), buf.length = n → dist r (exactDeep ls x) ≤ σ → (∀ k < ls.length, K ^ k * σ + τ * growth K k ≤ S) →
    ∃ y : Fin n → ℝ, ComposedMap.invLoop x1 (pairsOf ls).reverse (List.ofFn r) buf = .ok (List.ofFn y) ∧ dist y x ≤ K ^ ls.length * σ + τ * growth K ls.length := by
  intro ls
  induction ls using List.reverseRecOn with
  | nil =>
    intro _ r σ buf _ hr _
    exact ⟨r, rfl, by simpa [growth, exactDeep] using hr⟩
  | append_singleton qs l ih =>
    intro hal r σ buf hb hr hS
    obtain ⟨h1, h2⟩ := along_append.1 hal
    rw [exactDeep_append] at hr
    have hσS : σ ≤ S := by simpa [growth] using hS 0 (by simp)
    obtain ⟨y, hy, hyd⟩ := h2 r (hr.trans hσS) buf hb
    obtain ⟨z, hz, hzd⟩ := ih h1 y (K * σ + τ) (List.ofFn r) (by simp) (hyd.trans (by linarith [mul_le_mul_of_nonneg_left hr hK])) fun k hk => by
      rw [← growth_step]; exact hS (k + 1) (by simp; omega)
    refine ⟨z, ?_, ?_⟩
    · rw [pairsOf, List.map_append, List.reverse_append, List.map_singleton, List.reverse_singleton, List.singleton_append, ComposedMap.invLoop]
      simp only [hy, Res.bind_ok]
      exact hz
    · rw [List.length_append, List.length_singleton, growth_step]; exact hzd

/-- **C116.** `Inverse` of the composition at a target within `σ` of the exact image of `x`: it returns a point within `K^N σ + τ (1 + K + … + K^(N-1))` of `x`. -/
theorem C116_inverse (ht : ComposedMap.new (ls.map DeepLayer.map) checks = .ok t) (h : ∀ l ∈ ls, Faithful l) {x1 : List ℝ} {S K τ σ : ℝ} (hK : 0 ≤ K)
    {x : Fin n → ℝ} (hx : Along (InvertsAt x1 S K τ) ls x) {r : Fin n → ℝ} (hr : dist r (exactDeep ls x) ≤ σ)
    (hS : ∀ k < ls.length, K ^ k * σ + τ * growth K k ≤ S) {out : List ℝ} (ho : out.length = n) :
    ∃ y : Fin n → ℝ, t.inv (ls.map DeepLayer.coeffs).flatten x1 (List.ofFn r) out = .ok (List.ofFn y) ∧
      dist y x ≤ K ^ ls.length * σ + τ * growth K ls.length := by
  obtain ⟨-, rfl, -⟩ := deep_new ht h
  have hw := withCoeffs_pairs (ls := ls) fun l hl => (h l hl).count
  obtain ⟨y, hy, hyd⟩ := deep_invLoop hK ls hx r σ (List.replicate (List.ofFn r).length 0) (by simp) hr hS
  refine ⟨y, ?_, hyd⟩
  change ComposedMap.inverse (withCoeffs _ _ 0) x1 _ _ = _
  rw [hw, ComposedMap.inverse, hy, Res.bind_ok, deepCopy_ok (by simp [ho])]

/-! ### Pulled-back densities -/

/-- A density that is that of the reference at the image, times the determinant, up to the factor `exp(± δ)`, gives sets the mass of their image up to this factor. -/
theorem pulled_mass {E : (Fin n → ℝ) → Fin n → ℝ} (hd : Differentiable ℝ E) (hi : Function.Injective E) (hpos : ∀ y, 0 < (fderiv ℝ E y).det) {d P : Density} {B : Set (Fin n → ℝ)}
    (hB : MeasurableSet B) {δ : ℝ} (hδ : ∀ y ∈ B, |logp P (List.ofFn y) - (logp d (List.ofFn (E y)) + Real.log (fderiv ℝ E y).det)| ≤ δ) :
    ENNReal.ofReal (Real.exp (-δ)) * lawOf (densityOn d [] n) (E '' B) ≤ lawOf (densityOn P [] n) B ∧
      lawOf (densityOn P [] n) B ≤ ENNReal.ofReal (Real.exp δ) * lawOf (densityOn d [] n) (E '' B) := by
  have hch : lawOf (densityOn d [] n) (E '' B) = lawOf (fun y => Real.exp (logp d (List.ofFn (E y)) + Real.log (fderiv ℝ E y).det)) B := by
    rw [lawOf, lawOf, withDensity_apply _ hB, withDensity_apply _ ((hd.continuous.measurableEmbedding hi).measurableSet_image.2 hB),
      lintegral_image_eq_lintegral_abs_det_fderiv_mul volume hB (fun y _ => (hd y).hasFDerivAt.hasFDerivWithinAt) hi.injOn]
    refine lintegral_congr fun y => ?_
    rw [abs_of_pos (hpos y), ← ENNReal.ofReal_mul (hpos y).le, Real.exp_add, Real.exp_log (hpos y), mul_comm]
    rfl
  rw [hch]
  constructor
  · have := lawOf_le (k := Real.exp δ) (f := fun y => Real.exp (logp d (List.ofFn (E y)) + Real.log (fderiv ℝ E y).det)) (h := densityOn P [] n) hB (Real.exp_pos δ).le fun y hy => by
      rw [densityOn, List.nil_append, ← Real.exp_add]
      exact Real.exp_le_exp.2 (by linarith [(abs_le.1 (hδ y hy)).1])
    calc _ ≤ ENNReal.ofReal (Real.exp (-δ)) * (ENNReal.ofReal (Real.exp δ) * lawOf (densityOn P [] n) B) := by gcongr
      _ = _ := by rw [← mul_assoc, ← ENNReal.ofReal_mul (Real.exp_pos _).le, ← Real.exp_add]; simp
  · refine lawOf_le hB (Real.exp_pos δ).le fun y hy => ?_
    rw [densityOn, List.nil_append, ← Real.exp_add]
    exact Real.exp_le_exp.2 (by linarith [(abs_le.1 (hδ y hy)).2])

/-- **C116.** The density pulled back through the composition: its logarithm is that of the reference at the exact image plus the logarithm of the exact determinant, up to
`κ` plus the error of the log-determinant, `κ` bounding the change of the reference within the error of `Evaluate`; it gives sets the mass of their exact image up to the corresponding factor. -/
theorem C116_law (ht : ComposedMap.new (ls.map DeepLayer.map) checks = .ok t) (h : ∀ l ∈ ls, Faithful l) (hΛ : 0 ≤ Λ) (hε : 0 ≤ ε) (hM : 0 ≤ M)
    (hR : ε * growth Λ ls.length ≤ R) {d P : Density} (hd : HasDensity d) (hP : Pullback.new t d (ls.map DeepLayer.coeffs).flatten = .ok P) {B : Set (Fin n → ℝ)} {κ : ℝ}
    (hB : ∀ y ∈ B, Along (Tracks R ε Λ M) ls y)
    (hκ : ∀ y ∈ B, ∀ z : Fin n → ℝ, dist z (exactDeep ls y) ≤ ε * growth Λ ls.length → |logp d (List.ofFn z) - logp d (List.ofFn (exactDeep ls y))| ≤ κ) :
    (∀ y ∈ B, |logp P (List.ofFn y) - (logp d (List.ofFn (exactDeep ls y)) + Real.log (fderiv ℝ (exactDeep ls) y).det)|
      ≤ κ + M * (ε * ∑ k ∈ range ls.length, growth Λ k)) ∧
    (MeasurableSet B →
      ENNReal.ofReal (Real.exp (-(κ + M * (ε * ∑ k ∈ range ls.length, growth Λ k)))) * lawOf (densityOn d [] n) (exactDeep ls '' B) ≤ lawOf (densityOn P [] n) B ∧
      lawOf (densityOn P [] n) B ≤ ENNReal.ofReal (Real.exp (κ + M * (ε * ∑ k ∈ range ls.length, growth Λ k))) * lawOf (densityOn d [] n) (exactDeep ls '' B)) := by
  have key : ∀ y ∈ B, |logp P (List.ofFn y) - (logp d (List.ofFn (exactDeep ls y)) + Real.log (fderiv ℝ (exactDeep ls) y).det)|
      ≤ κ + M * (ε * ∑ k ∈ range ls.length, growth Λ k) := fun y hy => by
    obtain ⟨⟨z, hz, hze⟩, v, hv, hve⟩ := C116_evaluate ht h hΛ hε hM hR (hB y hy)
    obtain ⟨-, -, -, h2, -⟩ := deep_new ht h
    obtain ⟨hdim, rfl⟩ := pull_new.mp hP
    have : logp { dim := d.dim, logDensity := Pullback.logDensity t d (ls.map DeepLayer.coeffs).flatten, inputGrad := Pullback.inputGrad t d (ls.map DeepLayer.coeffs).flatten } (List.ofFn y)
        = logp d (List.ofFn z) + v := by
      simp only [logp, Pullback.logDensity]
      rw [hze _ (by simp [h2]), Res.bind_ok, hd _ (by simp [← hdim, h2]), Res.bind_ok, hve, Res.bind_ok]
      rfl
    rw [this]
    have h3 := abs_le.1 (hκ y hy z hz)
    have h4 := abs_le.1 hv
    exact abs_le.2 ⟨by linarith [h3.1, h4.1], by linarith [h3.2, h4.2]⟩
  exact ⟨key, fun hBm => pulled_mass (exactDeep_differentiable h) (exactDeep_injective h) (exactDeep_det_pos h) hBm key⟩

/-- **C116.** Over the standard normal distribution, where the exact images are at most `ρ` in size: `κ = n e (ρ + e/2)` with the error `e` of `Evaluate`. -/
theorem C116_gaussian (ht : ComposedMap.new (ls.map DeepLayer.map) checks = .ok t) (h : ∀ l ∈ ls, Faithful l) (hΛ : 0 ≤ Λ) (hε : 0 ≤ ε) (hM : 0 ≤ M)
    (hR : ε * growth Λ ls.length ≤ R) {P : Density} (hP : Pullback.new t (Gaussian.ofDim n).density (ls.map DeepLayer.coeffs).flatten = .ok P) {B : Set (Fin n → ℝ)} {ρ e δ : ℝ}
    (hB : ∀ y ∈ B, Along (Tracks R ε Λ M) ls y) (hρ : ∀ y ∈ B, ∀ i, |exactDeep ls y i| ≤ ρ) (he : e = ε * growth Λ ls.length)
    (hδ : δ = n * (e * (ρ + e / 2)) + M * (ε * ∑ k ∈ range ls.length, growth Λ k)) :
    (∀ y ∈ B, |logp P (List.ofFn y) - (logp (Gaussian.ofDim n).density (List.ofFn (exactDeep ls y)) + Real.log (fderiv ℝ (exactDeep ls) y).det)| ≤ δ) ∧
    (MeasurableSet B →
      ENNReal.ofReal (Real.exp (-δ)) * (Measure.pi fun _ : Fin n => ProbabilityTheory.gaussianReal 0 1) (exactDeep ls '' B) ≤ lawOf (densityOn P [] n) B ∧
      lawOf (densityOn P [] n) B ≤ ENNReal.ofReal (Real.exp δ) * (Measure.pi fun _ : Fin n => ProbabilityTheory.gaussianReal 0 1) (exactDeep ls '' B)) := by
  subst hδ
  have hd := C53_density (.dim n)
  have hpi := (std_draws n).2
  rw [← hpi]
  refine C116_law ht h hΛ hε hM hR hd.2.1 hP hB fun y hy z hz => ?_
  rw [← he] at hz
  have he0 : 0 ≤ e := dist_nonneg.trans hz
  rw [dist_pi_le_iff he0] at hz
  rw [std_logp n (by simp), std_logp n (by simp), List.map_ofFn, List.map_ofFn, List.sum_ofFn, List.sum_ofFn]
  simp only [Function.comp]
  rw [sub_sub_sub_cancel_right, ← mul_sub, ← Finset.sum_sub_distrib, abs_mul]
  calc _ ≤ |-(1 / 2 : ℝ)| * ∑ i : Fin n, (2 * (e * (ρ + e / 2))) := by
        refine mul_le_mul_of_nonneg_left ((Finset.abs_sum_le_sum_abs _ _).trans (Finset.sum_le_sum fun i _ => ?_)) (abs_nonneg _)
        have h1 := hz i
        rw [Real.dist_eq] at h1
        have h2 := hρ y hy i
        rw [show z i ^ 2 - exactDeep ls y i ^ 2 = (z i - exactDeep ls y i) * (2 * exactDeep ls y i + (z i - exactDeep ls y i)) by ring, abs_mul,
          show 2 * (e * (ρ + e / 2)) = e * (2 * ρ + e) by ring]
        refine mul_le_mul h1 ((abs_add_le _ _).trans ?_) (abs_nonneg _) he0
        rw [abs_mul, abs_two]
        linarith
    _ = _ := by rw [abs_neg, abs_of_pos (by norm_num : (0 : ℝ) < 1 / 2)]; simp; ring

end

/-! ### Layers built by the factory -/

/-- The layer was built by `CreateTriangular` with order `s.1` and options `s.2`: its exact map is the exact triangular map with the basis `b` of the options, the terms `ts` up to the
total order and its coefficients `cs`; `Evaluate` and `Inverse` relate to it as in C111 and C113. -/
structure Spec.BuiltLayer {n : Nat} (s : Nat × MapOptions) (b : Basis ℝ) (ts : Fin n → List (List Nat)) (cs : Fin n → List ℝ) (l : DeepLayer n) : Prop where
  basis : IsBasisOf s.2 (fun k => k ≤ s.1) b
  terms : ∀ i : Fin n, IsTotalOrder (i + 1) s.1 (ts i)
  slices : Slices ts cs l.coeffs
  exact_eq : l.exact = exactSquare s.2 b ts cs
  approximates : Approximates s.2 b [] ts cs l.map l.coeffs
  solves : SolvesNear s.2 b 0 ts l.map

section
variable {n : Nat} {s : Nat × MapOptions} {b : Basis ℝ} {ts : Fin n → List (List Nat)} {cs : Fin n → List ℝ} {l : DeepLayer n}

/-- **C116.** A layer built by the factory tracks its exact map with the quadrature error: within `R` of `x` every integrand is within `ε/2` of a polynomial that the quadrature integrates exactly. -/
theorem C116_tracks (h : BuiltLayer s b ts cs l) {R ε Λ M : ℝ} {x : Fin n → ℝ}
    (hv : ∀ y, dist y x ≤ R → ∀ i : Fin n,
      PolyNear (quadDegree s.2 + 1) (unitDensity b.eff (positive s.2.posFuncType) 0 (i + 1) (ts i) (cs i) (coords (List.ofFn y))) ε)
    (hL : ∀ y, dist y x ≤ R → dist (exactSquare s.2 b ts cs y) (exactSquare s.2 b ts cs x) ≤ Λ * dist y x)
    (hD : ∀ y, dist y x ≤ R → |Real.log (fderiv ℝ (exactSquare s.2 b ts cs) y).det - Real.log (fderiv ℝ (exactSquare s.2 b ts cs) x).det| ≤ M * dist y x) :
    Tracks R ε Λ M l x := by
  refine ⟨fun y hy i => ?_, by rwa [h.exact_eq], by rwa [h.exact_eq]⟩
  rw [h.exact_eq]
  have := h.approximates.values y i ε (by simpa using hv y hy i)
  simpa using this

/-- **C116.** A layer built by the factory, with the constants of C113 around `x`, inverts targets within `S` of the exact image. -/
theorem C116_inverts (h : BuiltLayer s b ts cs l) (hnug : s.2.nugget = 0) {x1 : List ℝ} {x : Fin n → ℝ} {W m L ε ρ S q : ℝ} (hx1 : x1.length ≤ n)
    (hρ : ∀ i : Fin n, |coords x1 i - x i| ≤ ρ) (hwell : WellConditioned s.2 b 0 ts cs (coords (List.ofFn x)) W m L ε)
    (hm0 : 0 < m) (hL : 0 ≤ L) (hm : 1e-12 ≤ m - ε / 5) (hε0 : 0 ≤ ε) (hε : ε ≤ m) (hq : q = (1 + L / m) ^ n)
    (hW : 3 * ((max (1e-6 / 2) (1e-6 / m) + (ε + S) / m) * q) + 2 * ρ + 5 ≤ W) (hfar : ρ + (max (1e-6 / 2) (1e-6 / m) + (ε + S) / m) * q ≤ 2 ^ 128 - 3) :
    InvertsAt x1 S (q / m) ((max (1e-6 / 2) (1e-6 / m) + ε / m) * q) l x := by
  intro t ht out ho
  rw [h.exact_eq] at ht ⊢
  set σ := dist t (exactSquare s.2 b ts cs x) with hσ
  have hσ0 : 0 ≤ σ := dist_nonneg
  have hLm : 0 ≤ L / m := div_nonneg hL hm0.le
  have hq1 : 1 ≤ q := hq ▸ one_le_pow₀ (by linarith)
  have hle : (max (1e-6 / 2) (1e-6 / m) + (ε + σ) / m) * q ≤ (max (1e-6 / 2) (1e-6 / m) + (ε + S) / m) * q := by gcongr
  have hcoord : ∀ i : Fin n, coords (List.ofFn x) i = x i := fun i => by simp [coords]
  have hτ0 : 0 ≤ max (1e-6 / 2) (1e-6 / m) + (ε + σ) / m := by positivity
  obtain ⟨y, hy, hyl, hyd⟩ := h.solves l.coeffs cs x1 (List.ofFn t) (coords (List.ofFn x)) W m L ε σ ρ (max (1e-6 / 2) (1e-6 / m) + (ε + σ) / m) h.slices (by omega) (by omega)
    (by simp) (fun d hd => absurd hd (by omega)) (fun i => by rw [Nat.zero_add, hcoord]; exact hρ i) (fun i => by
      have h1 := dist_le_pi_dist t (exactSquare s.2 b ts cs x) i
      rw [Real.dist_eq, abs_sub_comm] at h1
      rw [hnug]
      simpa [exactTriangular] using h1) hwell hm0 hL hm hε0 hε rfl (by rw [← hq]; linarith) (by rw [← hq]; linarith) out ho
  refine ⟨fun i => y.getD i 0, by rw [hy]; exact congrArg Res.ok (ofFn_getD hyl), ?_⟩
  have hb : q / m * σ + (max (1e-6 / 2) (1e-6 / m) + ε / m) * q = (max (1e-6 / 2) (1e-6 / m) + (ε + σ) / m) * q := by field_simp; ring
  rw [hb, dist_pi_le_iff (by positivity)]
  intro i
  have h1 := hyd i
  rw [Nat.zero_add, hcoord] at h1
  rw [Real.dist_eq]
  refine h1.trans (mul_le_mul_of_nonneg_left ?_ hτ0)
  rw [hq]
  exact pow_le_pow_right₀ (by linarith) i.2.le

end

/-- One layer. -/
theorem layer_of_factory {n : Nat} (h0 : 0 < n) (h2 : n < 2 ^ 32) {s : Nat × MapOptions} (hB : GoodBasis s.2 s.1) (hQ : GoodQuad s.2) (hcd : s.2.contDeriv = true)
    (mem : Nat → Option ℝ) (work : List ℝ) : ∃ T, createTriangular n n s.1 s.2 mem work = .ok (T, zeros T.numCoeffs) ∧ T.inputDim = n ∧ T.outputDim = n ∧
      ∀ c : List ℝ, c.length = T.numCoeffs → ∃ l : DeepLayer n, l.map = T ∧ l.coeffs = c ∧ Faithful l ∧ ∃ b ts cs, BuiltLayer s b ts cs l := by
  obtain ⟨b, quad, mesh, hsel⟩ := selected le_rfl hB hQ
  obtain ⟨ts, hts, h⟩ := approximates_of_selected hsel h0 le_rfl h2 hB
  obtain ⟨T, t1, h⟩ := h mem work
  obtain ⟨T', comps, -, -, s1, s2, s3, -, -, -, -, s8, -, s10, -⟩ := triangular_of_selected hsel h0 le_rfl h2 mem work
  obtain ⟨rfl, -⟩ := Prod.mk.inj (Res.ok.inj (t1.symm.trans s1))
  have hS := solves_of_selected hsel h0 le_rfl h2 t1 hts
  rw [Nat.sub_self] at hS
  refine ⟨T, t1, s2, s3, fun c hc => ?_⟩
  obtain ⟨cs, hsl, hA⟩ := h c hc
  have hA := hA [] (by simp)
  have hld := fun y => approx_logDet hA hcd s3 y
  refine ⟨⟨T, c, exactSquare s.2 b ts cs⟩, rfl, rfl, ⟨s2, s3, hc, s8, (s10 hcd).1, hA.differentiable, hA.injective, fun y => (hld y).1, fun y => ?_⟩, b, ts, cs,
    ⟨hsel.isBasis, fun i => by simpa using hts i, hsl, rfl, hA, hS⟩⟩
  simp only [logdet, (hld y).2]
  rfl

/-- **C116.** For any list of orders and good options, `CreateTriangular` builds square maps of `n` variables whose composition is accepted by `ComposedMap`; for any coefficients
of the composition its layers are faithful to exact triangular maps, in the sense of the theorems above. -/
theorem C116_composed {n : Nat} (h0 : 0 < n) (h2 : n < 2 ^ 32) {specs : List (Nat × MapOptions)} (hne : specs ≠ [])
    (hgood : ∀ s ∈ specs, GoodBasis s.2 s.1 ∧ GoodQuad s.2 ∧ s.2.contDeriv = true) (checks : Int) (mem : Nat → Option ℝ) (work : List ℝ) :
    ∃ (maps : List CMap) (t : CMap), List.Forall₂ (fun s T => createTriangular n n s.1 s.2 mem work = .ok (T, zeros T.numCoeffs)) specs maps ∧
      ComposedMap.new maps checks = .ok t ∧ ∀ c : List ℝ, c.length = t.numCoeffs → ∃ ls : List (DeepLayer n), ls.map DeepLayer.map = maps ∧
        (ls.map DeepLayer.coeffs).flatten = c ∧ (∀ l ∈ ls, Faithful l) ∧ List.Forall₂ (fun s l => ∃ b ts cs, BuiltLayer s b ts cs l) specs ls := by
  have key : ∀ specs : List (Nat × MapOptions), (∀ s ∈ specs, GoodBasis s.2 s.1 ∧ GoodQuad s.2 ∧ s.2.contDeriv = true) →
      ∃ maps : List CMap, List.Forall₂ (fun s T => createTriangular n n s.1 s.2 mem work = .ok (T, zeros T.numCoeffs)) specs maps ∧
        (∀ m ∈ maps, m.inputDim = n ∧ m.outputDim = n) ∧ ∀ c : List ℝ, c.length = (maps.map CMap.numCoeffs).sum → ∃ ls : List (DeepLayer n), ls.map DeepLayer.map = maps ∧
        (ls.map DeepLayer.coeffs).flatten = c ∧ (∀ l ∈ ls, Faithful l) ∧ List.Forall₂ (fun s l => ∃ b ts cs, BuiltLayer s b ts cs l) specs ls := by
    intro specs
    induction specs with
    | nil =>
      intro _
      refine ⟨[], .nil, by simp, fun c hc => ⟨[], rfl, ?_, by simp, .nil⟩⟩
      exact (List.length_eq_zero_iff.1 (by simpa using hc)).symm
    | cons s specs ih =>
      intro hg
      obtain ⟨g1, g2, g3⟩ := hg s (by simp)
      obtain ⟨T, t1, t2, t3, t4⟩ := layer_of_factory h0 h2 g1 g2 g3 mem work
      obtain ⟨maps, m1, m2, m3⟩ := ih fun s' h' => hg s' (by simp [h'])
      refine ⟨T :: maps, .cons t1 m1, ?_, fun c hc => ?_⟩
      · intro m hm
        rcases List.mem_cons.1 hm with rfl | hm
        · exact ⟨t2, t3⟩
        · exact m2 m hm
      · rw [List.map_cons, List.sum_cons] at hc
        obtain ⟨l, l1, l2, l3, l4⟩ := t4 (c.take T.numCoeffs) (by simp; omega)
        obtain ⟨ls, e1, e2, e3, e4⟩ := m3 (c.drop T.numCoeffs) (by simp; omega)
        refine ⟨l :: ls, by rw [List.map_cons, l1, e1], by rw [List.map_cons, List.flatten_cons, l2, e2, List.take_append_drop], ?_, .cons l4 e4⟩
        intro l' hl'
        rcases List.mem_cons.1 hl' with rfl | hl'
        · exact l3
        · exact e3 l' hl'
  obtain ⟨maps, m1, m2, m3⟩ := key specs hgood
  have hmne : maps ≠ [] := by
    rintro rfl
    cases m1
    exact hne rfl
  obtain ⟨t, ht⟩ := (C45_new maps checks).2 ⟨hmne, n, m2⟩
  refine ⟨maps, t, m1, ht, fun c hc => m3 c ?_⟩
  obtain ⟨-, -, rfl⟩ := new_composed.mp ht
  exact hc

/-! ### Non-vacuity -/

/-- Options of the examples: unnormalised Hermite polynomials, 41 Clenshaw–Curtis points, the exponential, no nugget. -/
def expOptions : MapOptions := { basisNorm := false, quadType := .clenshawCurtis, quadPts := 41, posFuncType := .exp, nugget := 0 }

theorem expOptions_good : GoodBasis expOptions 2 ∧ GoodQuad expOptions :=
  ⟨⟨fun l hl => by simp [expOptions] at hl, fun h => by simp [Bounded, expOptions] at h, fun h => by simp [Bounded, expOptions] at h, fun _ h => by simp [expOptions] at h⟩,
    ⟨by simp [expOptions], by simp [expOptions], by simp [expOptions]⟩⟩

theorem total_one_two {ts : List (List Nat)} (h : IsTotalOrder 1 2 ts) : ts = [[0], [1], [2]] := by
  refine totalOrder_unique h ⟨by decide, fun v => ?_⟩
  have := MISet.mem_toEnum 1 2 v
  rwa [show MISet.toEnum 1 2 = [[0], [1], [2]] by decide] at this

theorem exp_layer_log (y : Fin 1 → ℝ) : Real.log (fderiv ℝ (fun (y : Fin 1 → ℝ) (_ : Fin 1) => Real.exp (y 0) - 3 / 2) y).det = y 0 := by
  have h1 : HasFDerivAt (fun (y : Fin 1 → ℝ) (_ : Fin 1) => Real.exp (y 0) - 3 / 2) (Real.exp (y 0) • ContinuousLinearMap.id ℝ (Fin 1 → ℝ)) y := by
    rw [hasFDerivAt_pi']
    intro i
    obtain rfl : i = 0 := Subsingleton.elim _ _
    have h2 : HasFDerivAt (fun y : Fin 1 → ℝ => y 0) (ContinuousLinearMap.proj (R := ℝ) (φ := fun _ : Fin 1 => ℝ) 0) y := hasFDerivAt_apply 0 y
    exact (h2.exp.sub_const (3 / 2)).congr_fderiv (by ext v; simp)
  rw [h1.fderiv]
  have : (Real.exp (y 0) • ContinuousLinearMap.id ℝ (Fin 1 → ℝ)).det = Real.exp (y 0) := by
    change LinearMap.det (Real.exp (y 0) • (LinearMap.id : (Fin 1 → ℝ) →ₗ[ℝ] Fin 1 → ℝ)) = _
    rw [LinearMap.det_smul, LinearMap.det_id]
    simp
  rw [this, Real.log_exp]

/-- A layer with the coefficients `(0, 0, 1/2)` stands for `exp(y) - 3/2`, and tracks it within 1 of every point of `[-5/4, 5/4]`. -/
theorem exp_layer {b : Basis ℝ} {ts : Fin 1 → List (List Nat)} {cs : Fin 1 → List ℝ} {l : DeepLayer 1} (h : BuiltLayer (2, expOptions) b ts cs l) :
    l.coeffs.length = 3 ∧ (l.coeffs = [0, 0, 1 / 2] → l.exact = (fun y _ => Real.exp (y 0) - 3 / 2) ∧
      ∀ x : Fin 1 → ℝ, |x 0| ≤ 5 / 4 → Tracks 1 1e-10 10 1 l x) := by
  have hts : ts 0 = [[0], [1], [2]] := total_one_two (h.terms 0)
  have hlen : l.coeffs.length = 3 := by
    have h1 := h.slices.1
    have h2 := h.slices.2 0
    rw [hts] at h2
    rw [← h1]
    simpa using h2
  refine ⟨hlen, fun hc => ?_⟩
  have hcs : cs 0 = [0, 0, 1 / 2] := by
    have h1 := h.slices.1
    rw [hc] at h1
    simpa using h1
  have hx := fun y : Fin 1 → ℝ => exp_exact (o := expOptions) rfl rfl rfl rfl rfl h.basis (coords (List.ofFn y))
  have hex : exactSquare expOptions b ts cs = fun y _ => Real.exp (y 0) - 3 / 2 := by
    funext y i
    obtain rfl : i = 0 := Subsingleton.elim _ _
    rw [exactSquare, exactTriangular, hts, hcs]
    exact (hx y).2.trans (by simp [coords])
  refine ⟨h.exact_eq.trans hex, fun x hx1 => ?_⟩
  have hdist : ∀ y : Fin 1 → ℝ, dist y x ≤ 1 → |y 0 - x 0| ≤ dist y x ∧ |y 0| ≤ 9 / 4 := fun y hy => by
    have h1 := dist_le_pi_dist y x 0
    rw [Real.dist_eq] at h1
    have h2 := abs_sub_abs_le_abs_sub (y 0) (x 0)
    exact ⟨h1, by linarith⟩
  refine C116_tracks h (fun y hy i => ?_) (fun y hy => ?_) (fun y hy => ?_)
  · obtain rfl : i = 0 := Subsingleton.elim _ _
    simp only [hts, hcs]
    have := funext (hx y).1
    refine (congrArg (fun f => PolyNear 41 f 1e-10) this).mpr ?_
    exact exp_near (by simpa [coords] using (hdist y hy).2.trans (by norm_num))
  · simp only [hex]
    rw [dist_pi_le_iff (by positivity)]
    intro i
    obtain ⟨h1, h2⟩ := hdist y hy
    have hexp : Real.exp (9 / 4) ≤ 10 := by
      have h3 : Real.exp (9 / 4) ^ 4 = Real.exp 1 ^ 9 := by rw [← Real.exp_nat_mul, ← Real.exp_nat_mul]; norm_num
      have h4 : Real.exp 1 ^ 9 ≤ 2.7182818286 ^ 9 := pow_le_pow_left₀ (Real.exp_pos 1).le Real.exp_one_lt_d9.le 9
      by_contra hcon
      have h5 := pow_lt_pow_left₀ (not_le.1 hcon) (by norm_num) (n := 4) (by norm_num)
      rw [h3] at h5
      have : (2.7182818286 : ℝ) ^ 9 ≤ 10 ^ 4 := by norm_num
      linarith
    have := (convex_Icc (-(9 / 4) : ℝ) (9 / 4)).norm_image_sub_le_of_norm_hasDerivWithin_le (f := Real.exp) (f' := Real.exp) (C := 10)
      (fun u _ => (Real.hasDerivAt_exp u).hasDerivWithinAt) (fun u hu => by
        rw [Real.norm_eq_abs, abs_of_pos (Real.exp_pos u)]
        exact (Real.exp_le_exp.2 hu.2).trans hexp) (abs_le.1 (hx1.trans (by norm_num))) (abs_le.1 h2)
    rw [Real.norm_eq_abs, Real.norm_eq_abs] at this
    rw [Real.dist_eq, sub_sub_sub_cancel_right]
    exact this.trans (mul_le_mul_of_nonneg_left h1 (by norm_num))
  · simp only [hex, exp_layer_log, one_mul]
    exact (hdist y hy).1

/-- A composition of two such layers, built by the factory. -/
theorem exp_pair (mem : Nat → Option ℝ) (work : List ℝ) (checks : Int) : ∃ (T t : CMap) (l1 l2 : DeepLayer 1), createTriangular 1 1 2 expOptions mem work = .ok (T, zeros T.numCoeffs) ∧
    ComposedMap.new [T, T] checks = .ok t ∧ [l1, l2].map DeepLayer.map = [T, T] ∧ ([l1, l2].map DeepLayer.coeffs).flatten = [0, 0, 1 / 2, 0, 0, 1 / 2] ∧ (∀ l ∈ [l1, l2], Faithful l) ∧
    exactDeep [l1, l2] = (fun y _ => Real.exp (Real.exp (y 0) - 3 / 2) - 3 / 2) ∧ ∀ y : Fin 1 → ℝ, |y 0| ≤ 1 → Along (Tracks 1 1e-10 10 1) [l1, l2] y ∧
      Real.log (fderiv ℝ (exactDeep [l1, l2]) y).det = y 0 + (Real.exp (y 0) - 3 / 2) ∧ |Real.exp (Real.exp (y 0) - 3 / 2) - 3 / 2| ≤ 2 := by
  obtain ⟨maps, t, m1, ht, h⟩ := C116_composed (n := 1) (by decide) (by decide) (specs := [(2, expOptions), (2, expOptions)]) (by simp)
    (fun s hs => by
      obtain rfl : s = (2, expOptions) := by simpa using hs
      exact ⟨expOptions_good.1, expOptions_good.2, rfl⟩) checks mem work
  obtain ⟨T, maps1, t1, m2, rfl⟩ := List.forall₂_cons_left_iff.1 m1
  obtain ⟨T', maps2, t2, m3, rfl⟩ := List.forall₂_cons_left_iff.1 m2
  obtain rfl := List.forall₂_nil_left_iff.1 m3
  obtain ⟨rfl, -⟩ := Prod.mk.inj (Res.ok.inj (t1.symm.trans t2))
  have hnT : T.numCoeffs = 3 := by
    obtain ⟨T', comps, -, -, s1, -, -, s4, -⟩ := triangular_of_selected (selected le_rfl expOptions_good.1 expOptions_good.2).choose_spec.choose_spec.choose_spec
      (inputDim := 1) (outputDim := 1) (by decide) (by decide) (by decide) mem work
    obtain ⟨rfl, -⟩ := Prod.mk.inj (Res.ok.inj (t1.symm.trans s1))
    rw [s4]; decide
  have hnt : t.numCoeffs = 6 := by
    obtain ⟨-, -, rfl⟩ := new_composed.mp ht
    change (([T, T] : List CMap).map CMap.numCoeffs).sum = 6
    simp [hnT]
  obtain ⟨ls, e1, e2, e3, e4⟩ := h [0, 0, 1 / 2, 0, 0, 1 / 2] (by rw [hnt]; rfl)
  obtain ⟨l1, ls1, ⟨b1, ts1, cs1, q1⟩, e5, rfl⟩ := List.forall₂_cons_left_iff.1 e4
  obtain ⟨l2, ls2, ⟨b2, ts2, cs2, q2⟩, e6, rfl⟩ := List.forall₂_cons_left_iff.1 e5
  obtain rfl := List.forall₂_nil_left_iff.1 e6
  obtain ⟨n1, p1⟩ := exp_layer q1
  obtain ⟨n2, p2⟩ := exp_layer q2
  have hsplit : l1.coeffs ++ l2.coeffs = [0, 0, 1 / 2] ++ [0, 0, 1 / 2] := by simpa using e2
  obtain ⟨c1, c2⟩ := List.append_inj hsplit (by simpa using n1)
  obtain ⟨x1, r1⟩ := p1 c1
  obtain ⟨x2, r2⟩ := p2 c2
  refine ⟨T, t, l1, l2, t1, ht, e1, e2, e3, ?_, fun z hz => ?_⟩
  · funext y i
    simp only [exactDeep, x1, x2]
  obtain ⟨y, rfl⟩ : ∃ y, z = ![y] := ⟨z 0, by funext i; obtain rfl : i = 0 := Subsingleton.elim _ _; rfl⟩
  have hy : |y| ≤ 1 := by simpa using hz
  have hy1 := abs_le.1 hy
  have hexp1 : Real.exp y ≤ 2.72 := (Real.exp_le_exp.2 hy1.2).trans (by linarith [Real.exp_one_lt_d9])
  have hexp2 : (1 / 4 : ℝ) ≤ Real.exp y := by
    have h1 : Real.exp (-1) ≤ Real.exp y := Real.exp_le_exp.2 hy1.1
    have h2 : (1 / 4 : ℝ) ≤ Real.exp (-1) := by
      rw [Real.exp_neg, ← one_div]
      exact one_div_le_one_div_of_le (Real.exp_pos 1) (by linarith [Real.exp_one_lt_d9])
    linarith
  have hv1 : |Real.exp y - 3 / 2| ≤ 5 / 4 := abs_le.2 ⟨by linarith, by linarith⟩
  refine ⟨⟨r1 _ (by simp; linarith), r2 _ ?_, trivial⟩, ?_, ?_⟩
  · rw [x1]
    simpa using hv1
  · rw [exactDeep_det_cons e3, Real.log_mul (exactDeep_det_pos (fun l hl => e3 l (by simp [List.mem_singleton.1 hl])) _).ne' ((e3 l1 (by simp)).det_pos _).ne', x1, exp_layer_log,
      exactDeep_det_cons (fun l hl => e3 l (by simp [List.mem_singleton.1 hl]))]
    have : fderiv ℝ (exactDeep ([] : List (DeepLayer 1))) = fun _ => ContinuousLinearMap.id ℝ _ := funext fun _ => fderiv_id
    rw [this, x2]
    have hid : (ContinuousLinearMap.id ℝ (Fin 1 → ℝ)).det = 1 := by simp [ContinuousLinearMap.det]
    rw [hid, one_mul, exp_layer_log]
    simp
    ring
  · have h1 : Real.exp (Real.exp y - 3 / 2) ≤ 7 / 2 := by
      have h2 : Real.exp (5 / 4) ^ 4 = Real.exp 1 ^ 5 := by rw [← Real.exp_nat_mul, ← Real.exp_nat_mul]; norm_num
      have h4 : Real.exp 1 ^ 5 ≤ 2.7182818286 ^ 5 := pow_le_pow_left₀ (Real.exp_pos 1).le Real.exp_one_lt_d9.le 5
      refine (Real.exp_le_exp.2 (abs_le.1 hv1).2).trans ?_
      by_contra hcon
      have h5 := pow_lt_pow_left₀ (not_le.1 hcon) (by norm_num) (n := 4) (by norm_num)
      rw [h2] at h5
      have : (2.7182818286 : ℝ) ^ 5 ≤ (7 / 2) ^ 4 := by norm_num
      linarith
    have h0 := Real.exp_pos (Real.exp y - 3 / 2)
    simpa using abs_le.2 ⟨by linarith, by linarith⟩

/-- Two such layers: for `|y| ≤ 1` the log-density pulled back through the composition is that of the standard normal distribution at `exp(exp(y) - 3/2) - 3/2`, plus `y + exp(y) - 3/2`,
up to `3e-9`. -/
example (mem : Nat → Option ℝ) (work : List ℝ) (checks : Int) : ∃ T t P, createTriangular 1 1 2 expOptions mem work = .ok (T, zeros T.numCoeffs) ∧
    ComposedMap.new [T, T] checks = .ok t ∧ Pullback.new t (Gaussian.ofDim 1).density [0, 0, 1 / 2, 0, 0, 1 / 2] = .ok P ∧
    ∀ y : ℝ, |y| ≤ 1 → |logp P [y] - (-(1 / 2) * (Real.exp (Real.exp y - 3 / 2) - 3 / 2) ^ 2 - 1 / 2 * Real.log (2 * Real.pi) + (y + (Real.exp y - 3 / 2)))| ≤ 3e-9 := by
  obtain ⟨T, t, l1, l2, t1, ht, e1, e2, e3, hE, h⟩ := exp_pair mem work checks
  have ht' : ComposedMap.new ([l1, l2].map DeepLayer.map) checks = .ok t := by rw [e1]; exact ht
  have hdim := (deep_new ht' e3).2.2.2.1
  have hP : Pullback.new t (Gaussian.ofDim 1).density (([l1, l2].map DeepLayer.coeffs).flatten)
      = .ok { dim := (Gaussian.ofDim 1).density.dim, logDensity := _, inputGrad := _ } := pull_new.mpr ⟨hdim, rfl⟩
  refine ⟨T, t, _, t1, ht, by rw [← e2]; exact hP, fun y hy => ?_⟩
  obtain ⟨hB, hlog, hsize⟩ := h ![y] (by simpa using hy)
  have key := (C116_gaussian ht' e3 (by norm_num) (by norm_num) zero_le_one (ε := 1e-10) (Λ := 10) (M := 1) (R := 1) (by norm_num [growth, sum_range_succ]) hP (B := {![y]}) (ρ := 2)
    (fun z hz => by obtain rfl := hz; exact hB) (fun z hz i => by
      obtain rfl := hz
      rw [hE]
      exact hsize) rfl rfl).1 ![y] rfl
  have hlp : logp (Gaussian.ofDim 1).density (List.ofFn (exactDeep [l1, l2] ![y])) = -(1 / 2) * (Real.exp (Real.exp y - 3 / 2) - 3 / 2) ^ 2 - 1 / 2 * Real.log (2 * Real.pi) := by
    rw [std_logp 1 (by simp), hE]
    simp [List.ofFn_succ]
  rw [hlog, hlp] at key
  rw [show List.ofFn ![y] = [y] by simp [List.ofFn_succ]] at key
  refine key.trans ?_
  norm_num [growth, sum_range_succ]

/-- A layer with the coefficients of the product example stands for `(1 + x₁, x₂ exp(x₁/10))` and is inverted, from zero, at every point with coordinates within `17/10`. -/
theorem product_layer {b : Basis ℝ} {ts : Fin 2 → List (List Nat)} {cs : Fin 2 → List ℝ} {l : DeepLayer 2} (h : BuiltLayer (2, productOptions) b ts cs l) :
    l.coeffs.length = 9 ∧ (l.coeffs = [1, 0, 0, 0, 0, 0, 0, 1 / 10, 0] → (∀ y, l.exact y = ![1 + y 0, y 1 * Real.exp (y 0 / 10)]) ∧ (∀ y, Real.log (fderiv ℝ l.exact y).det = y 0 / 10) ∧
      ∀ x : Fin 2 → ℝ, |x 0| ≤ 17 / 10 → |x 1| ≤ 17 / 10 → Tracks 2 0 2 (1 / 10) l x ∧ InvertsAt [] 7e-4 700 7e-4 l x) := by
  have hts0 : ts 0 = [[0], [1], [2]] := total_one_two (h.terms 0)
  have hts1 : ts 1 = [[0, 0], [0, 1], [0, 2], [1, 0], [1, 1], [2, 0]] := by
    refine totalOrder_unique (h.terms 1) ⟨by decide, fun v => ?_⟩
    have := MISet.mem_toEnum 2 2 v
    rwa [show MISet.toEnum 2 2 = [[0, 0], [0, 1], [0, 2], [1, 0], [1, 1], [2, 0]] by decide] at this
  refine ⟨?_, fun hc => ?_⟩
  · have h1 := h.slices.1
    have h2 := h.slices.2 0
    have h3 := h.slices.2 1
    rw [hts0] at h2
    rw [hts1] at h3
    rw [← h1]
    simp only [List.ofFn_succ, List.ofFn_zero, List.flatten_cons, List.flatten_nil, List.length_append, List.length_nil, Fin.succ_zero_eq_one, h2, h3]
    rfl
  have hsl : Slices ts ![[1, 0, 0], [0, 0, 0, 0, 1 / 10, 0]] l.coeffs := by
    refine ⟨by simp [List.ofFn_succ, hc], fun i => ?_⟩
    fin_cases i
    · simp [hts0]
    · simp [hts1]
  obtain rfl := slices_unique h.slices hsl
  have hE := fun y : Fin 2 → ℝ => product_exact (o := productOptions) rfl rfl rfl rfl rfl h.basis (coords (List.ofFn y))
  have e0 : ∀ y : Fin 2 → ℝ, coords (List.ofFn y) 0 = y 0 := fun y => by simpa using coords_back (lead := []) y 0
  have e1 : ∀ y : Fin 2 → ℝ, coords (List.ofFn y) 1 = y 1 := fun y => by simpa using coords_back (lead := []) y 1
  have hps : ∀ i, ∀ t ∈ ts i, ∀ m ∈ t, m ≤ 2 := fun i t ht m hm => by
    have := ((h.terms i).2 t).1 ht
    exact (List.single_le_sum (by simp) m hm).trans this.2
  have hdet : ∀ y : Fin 2 → ℝ, Real.log (fderiv ℝ l.exact y).det = y 0 / 10 := fun y => by
    rw [h.exact_eq, exact_det (fun m hm => isBasis_contDiff h.basis (fun l hl => by simp [productOptions] at hl) m hm) hps _ (positive_contDiff productOptions.posFuncType 1), Fin.prod_univ_two]
    have a := (hE y).1.1
    have a' := (hE y).2.1
    rw [e0] at a'
    simp only [hts0, hts1, List.length_nil, List.nil_append, Matrix.cons_val_zero, Matrix.cons_val_one, Matrix.cons_val_fin_one, Fin.val_zero, Fin.val_one, Nat.zero_add, Nat.reduceAdd]
    rw [a, a']
    simp [positive, productOptions]
  have hexact : ∀ y, l.exact y = ![1 + y 0, y 1 * Real.exp (y 0 / 10)] := fun y => by
    have a := (hE y).1.2.2
    have a' := (hE y).2.2.2
    rw [e0] at a a'
    rw [e1] at a'
    rw [h.exact_eq]
    funext i
    fin_cases i
    · change monotone b.eff (positive productOptions.posFuncType) 0 1 (ts 0) [1, 0, 0] (coords (List.ofFn y)) = 1 + y 0
      rw [hts0]; exact a
    · change monotone b.eff (positive productOptions.posFuncType) 0 2 (ts 1) [0, 0, 0, 0, 1 / 10, 0] (coords (List.ofFn y)) = y 1 * Real.exp (y 0 / 10)
      rw [hts1]; exact a'
  refine ⟨hexact, hdet, fun x hx0 hx1 => ⟨?_, ?_⟩⟩
  · refine C116_tracks h (fun y _ i => ?_) (fun y hy => ?_) (fun y hy => ?_)
    · fin_cases i
      · change PolyNear 5 (unitDensity b.eff (positive productOptions.posFuncType) 0 1 (ts 0) [1, 0, 0] (coords (List.ofFn y))) 0
        rw [hts0, funext (hE y).1.2.1]
        exact polyNear_const (by norm_num) _
      · change PolyNear 5 (unitDensity b.eff (positive productOptions.posFuncType) 0 2 (ts 1) [0, 0, 0, 0, 1 / 10, 0] (coords (List.ofFn y))) 0
        rw [hts1, funext (hE y).2.2.1]
        exact polyNear_const (by norm_num) _
    · rw [← h.exact_eq, hexact, hexact]
      have d0 := dist_le_pi_dist y x 0
      have d1 := dist_le_pi_dist y x 1
      rw [Real.dist_eq] at d0 d1
      have hx0' := abs_le.1 hx0
      have hy0 : y 0 / 10 ≤ 37 / 100 := by linarith [(abs_le.1 d0).2]
      have he : Real.exp (37 / 100) ≤ 17 / 10 := by
        have h2 := Real.exp_bound' (x := 37 / 100) (by norm_num) (by norm_num) (n := 2) (by norm_num)
        refine h2.trans ?_
        norm_num [Finset.sum_range_succ, Nat.factorial]
      have hey : Real.exp (y 0 / 10) ≤ 17 / 10 := (Real.exp_le_exp.2 hy0).trans he
      rw [dist_pi_le_iff (by positivity)]
      intro i
      fin_cases i
      · change dist (1 + y 0) (1 + x 0) ≤ 2 * dist y x
        rw [Real.dist_eq, add_sub_add_left_eq_sub]
        linarith [dist_nonneg (x := y) (y := x)]
      · change dist (y 1 * Real.exp (y 0 / 10)) (x 1 * Real.exp (x 0 / 10)) ≤ 2 * dist y x
        have hl := (convex_Iic (37 / 100 : ℝ)).norm_image_sub_le_of_norm_hasDerivWithin_le (f := Real.exp) (f' := Real.exp) (C := 17 / 10)
          (fun u _ => (Real.hasDerivAt_exp u).hasDerivWithinAt) (fun u hu => by
            rw [Real.norm_eq_abs, abs_of_pos (Real.exp_pos u)]
            exact (Real.exp_le_exp.2 hu).trans he) (show x 0 / 10 ∈ Set.Iic (37 / 100 : ℝ) from by simp only [Set.mem_Iic]; linarith) (show y 0 / 10 ∈ Set.Iic (37 / 100 : ℝ) from hy0)
        rw [Real.norm_eq_abs, Real.norm_eq_abs, ← sub_div, abs_div, abs_of_pos (by norm_num : (0 : ℝ) < 10)] at hl
        rw [Real.dist_eq, show y 1 * Real.exp (y 0 / 10) - x 1 * Real.exp (x 0 / 10) = (y 1 - x 1) * Real.exp (y 0 / 10) + x 1 * (Real.exp (y 0 / 10) - Real.exp (x 0 / 10)) by ring]
        refine (abs_add_le _ _).trans ?_
        rw [abs_mul, abs_mul, abs_of_pos (Real.exp_pos _)]
        have h3 : |y 1 - x 1| * Real.exp (y 0 / 10) ≤ dist y x * (17 / 10) := mul_le_mul d1 hey (Real.exp_pos _).le dist_nonneg
        have h4 : |x 1| * |Real.exp (y 0 / 10) - Real.exp (x 0 / 10)| ≤ 17 / 10 * (17 / 10 * (dist y x / 10)) :=
          mul_le_mul hx1 (hl.trans (by linarith)) (abs_nonneg _) (by norm_num)
        linarith [dist_nonneg (x := y) (y := x)]
    · rw [← h.exact_eq, hdet, hdet, ← sub_div, abs_div, abs_of_pos (by norm_num : (0 : ℝ) < 10)]
      have d0 := dist_le_pi_dist y x 0
      rw [Real.dist_eq] at d0
      linarith
  · have hw : WellConditioned productOptions b 0 ts ![[1, 0, 0], [0, 0, 0, 0, 1 / 10, 0]] (coords (List.ofFn x)) 10 (3 / 10) 4 0 :=
      product_well h.basis hts0 hts1 (by rw [e0]; linarith) (by rw [e1]; linarith)
    have hmax : max (1e-6 / 2) (1e-6 / (3 / 10)) = (1e-6 / (3 / 10) : ℝ) := max_eq_right (by norm_num)
    have key := C116_inverts h rfl (x1 := []) (x := x) (ρ := 17 / 10) (S := 7e-4) (by simp)
      (fun i => by fin_cases i <;> simpa [coords] using by assumption) hw (by norm_num) (by norm_num) (by norm_num) le_rfl (by norm_num) rfl
      (by rw [hmax]; norm_num) (by rw [hmax]; norm_num)
    rw [hmax] at key
    intro t ht out ho
    obtain ⟨y, hy, hd⟩ := key t ht out ho
    refine ⟨y, hy, hd.trans (add_le_add (mul_le_mul_of_nonneg_right (by norm_num) dist_nonneg) (by norm_num))⟩

/-- A composition of two such layers, built by the factory. -/
theorem product_pair (mem : Nat → Option ℝ) (work : List ℝ) (checks : Int) : ∃ (T t : CMap) (l1 l2 : DeepLayer 2), createTriangular 2 2 2 productOptions mem work = .ok (T, zeros T.numCoeffs) ∧
    ComposedMap.new [T, T] checks = .ok t ∧ [l1, l2].map DeepLayer.map = [T, T] ∧
    ([l1, l2].map DeepLayer.coeffs).flatten = [1, 0, 0, 0, 0, 0, 0, 1 / 10, 0, 1, 0, 0, 0, 0, 0, 0, 1 / 10, 0] ∧ (∀ l ∈ [l1, l2], Faithful l) ∧
    (∀ y, l1.exact y = ![1 + y 0, y 1 * Real.exp (y 0 / 10)]) ∧ (∀ y, l2.exact y = ![1 + y 0, y 1 * Real.exp (y 0 / 10)]) ∧
    (∀ y, Real.log (fderiv ℝ (exactDeep [l1, l2]) y).det = (1 + 2 * y 0) / 10) ∧
    ∀ y : Fin 2 → ℝ, |y 0| ≤ 7 / 10 → |y 1| ≤ 3 / 2 → Along (Tracks 2 0 2 (1 / 10)) [l1, l2] y ∧ Along (InvertsAt [] 7e-4 700 7e-4) [l1, l2] y := by
  have hgb : GoodBasis productOptions 2 := ⟨fun l hl => by simp [productOptions] at hl, fun h => by simp [Bounded, productOptions] at h,
    fun h => by simp [Bounded, productOptions] at h, fun _ h => by simp [productOptions] at h⟩
  have hgq : GoodQuad productOptions := ⟨by simp [productOptions], by simp [productOptions], by simp [productOptions]⟩
  obtain ⟨maps, t, m1, ht, h⟩ := C116_composed (n := 2) (by decide) (by decide) (specs := [(2, productOptions), (2, productOptions)]) (by simp)
    (fun s hs => by
      obtain rfl : s = (2, productOptions) := by simpa using hs
      exact ⟨hgb, hgq, rfl⟩) checks mem work
  obtain ⟨T, maps1, t1, m2, rfl⟩ := List.forall₂_cons_left_iff.1 m1
  obtain ⟨T', maps2, t2, m3, rfl⟩ := List.forall₂_cons_left_iff.1 m2
  obtain rfl := List.forall₂_nil_left_iff.1 m3
  obtain ⟨rfl, -⟩ := Prod.mk.inj (Res.ok.inj (t1.symm.trans t2))
  have hnT : T.numCoeffs = 9 := by
    obtain ⟨T', comps, -, -, s1, -, -, s4, -⟩ := triangular_of_selected (selected le_rfl hgb hgq).choose_spec.choose_spec.choose_spec
      (inputDim := 2) (outputDim := 2) (by decide) (by decide) (by decide) mem work
    obtain ⟨rfl, -⟩ := Prod.mk.inj (Res.ok.inj (t1.symm.trans s1))
    rw [s4]; decide
  have hnt : t.numCoeffs = 18 := by
    obtain ⟨-, -, rfl⟩ := new_composed.mp ht
    change (([T, T] : List CMap).map CMap.numCoeffs).sum = 18
    simp [hnT]
  obtain ⟨ls, e1, e2, e3, e4⟩ := h [1, 0, 0, 0, 0, 0, 0, 1 / 10, 0, 1, 0, 0, 0, 0, 0, 0, 1 / 10, 0] (by rw [hnt]; rfl)
  obtain ⟨l1, ls1, ⟨b1, ts1, cs1, q1⟩, e5, rfl⟩ := List.forall₂_cons_left_iff.1 e4
  obtain ⟨l2, ls2, ⟨b2, ts2, cs2, q2⟩, e6, rfl⟩ := List.forall₂_cons_left_iff.1 e5
  obtain rfl := List.forall₂_nil_left_iff.1 e6
  obtain ⟨n1, p1⟩ := product_layer q1
  obtain ⟨n2, p2⟩ := product_layer q2
  have hsplit : l1.coeffs ++ l2.coeffs = [1, 0, 0, 0, 0, 0, 0, 1 / 10, 0] ++ [1, 0, 0, 0, 0, 0, 0, 1 / 10, 0] := by simpa using e2
  obtain ⟨c1, c2⟩ := List.append_inj hsplit (by simpa using n1)
  obtain ⟨x1, v1, r1⟩ := p1 c1
  obtain ⟨x2, v2, r2⟩ := p2 c2
  refine ⟨T, t, l1, l2, t1, ht, e1, e2, e3, x1, x2, fun y => ?_, fun y hy0 hy1 => ?_⟩
  · rw [exactDeep_det_cons e3, Real.log_mul (exactDeep_det_pos (fun l hl => e3 l (by simp [List.mem_singleton.1 hl])) _).ne' ((e3 l1 (by simp)).det_pos _).ne', v1,
      exactDeep_det_cons (fun l hl => e3 l (by simp [List.mem_singleton.1 hl]))]
    have : fderiv ℝ (exactDeep ([] : List (DeepLayer 2))) = fun _ => ContinuousLinearMap.id ℝ _ := funext fun _ => fderiv_id
    have hid : (ContinuousLinearMap.id ℝ (Fin 2 → ℝ)).det = 1 := by simp [ContinuousLinearMap.det]
    rw [this, hid, one_mul, v2, x1]
    simp
    ring
  have hy0' := abs_le.1 hy0
  have hexp : Real.exp (y 0 / 10) ≤ 17 / 15 := by
    have h1 : Real.exp (y 0 / 10) ≤ Real.exp (7 / 100) := Real.exp_le_exp.2 (by linarith)
    have h2 := Real.exp_bound' (x := 7 / 100) (by norm_num) (by norm_num) (n := 2) (by norm_num)
    refine h1.trans (h2.trans ?_)
    norm_num [Finset.sum_range_succ, Nat.factorial]
  have hA1 : |l1.exact y 0| ≤ 17 / 10 := by
    rw [x1]
    simpa using abs_le.2 ⟨by linarith, by linarith⟩
  have hA2 : |l1.exact y 1| ≤ 17 / 10 := by
    rw [x1]
    simp only [Matrix.cons_val_one, Matrix.cons_val_fin_one, abs_mul, abs_of_pos (Real.exp_pos _)]
    calc _ ≤ 3 / 2 * (17 / 15 : ℝ) := mul_le_mul hy1 hexp (Real.exp_pos _).le (by norm_num)
      _ ≤ _ := by norm_num
  have k1 := r1 y (by linarith) (by linarith)
  have k2 := r2 _ hA1 hA2
  exact ⟨⟨k1.1, k2.1, trivial⟩, k1.2, k2.2, trivial⟩

/-- Two such layers: Inverse of the composition, started from nothing, recovers every `y` with `|y₀| ≤ 7/10`, `|y₁| ≤ 3/2` from `(2 + y₀, y₁ exp((1 + 2 y₀)/10))`, within 1/2 (each layer is
inverted within `7e-4`, and the second layer's error is amplified at most 700 times by the first). -/
example (mem : Nat → Option ℝ) (work : List ℝ) (checks : Int) : ∃ T t, createTriangular 2 2 2 productOptions mem work = .ok (T, zeros T.numCoeffs) ∧
    ComposedMap.new [T, T] checks = .ok t ∧ ∀ y : Fin 2 → ℝ, |y 0| ≤ 7 / 10 → |y 1| ≤ 3 / 2 → ∀ out : List ℝ, out.length = 2 →
      ∃ z : Fin 2 → ℝ, t.inv [1, 0, 0, 0, 0, 0, 0, 1 / 10, 0, 1, 0, 0, 0, 0, 0, 0, 1 / 10, 0] [] [2 + y 0, y 1 * Real.exp ((1 + 2 * y 0) / 10)] out = .ok (List.ofFn z) ∧ dist z y ≤ 1 / 2 := by
  obtain ⟨T, t, l1, l2, t1, ht, e1, e2, e3, x1, x2, -, hA⟩ := product_pair mem work checks
  have ht' : ComposedMap.new ([l1, l2].map DeepLayer.map) checks = .ok t := by rw [e1]; exact ht
  refine ⟨T, t, t1, ht, fun y hy0 hy1 out ho => ?_⟩
  have himg : List.ofFn (exactDeep [l1, l2] y) = [2 + y 0, y 1 * Real.exp ((1 + 2 * y 0) / 10)] := by
    simp only [exactDeep, x1, x2, List.ofFn_succ, List.ofFn_zero, Matrix.cons_val_zero, Matrix.cons_val_one, Matrix.cons_val_fin_one, Fin.succ_zero_eq_one]
    rw [mul_assoc, ← Real.exp_add, show y 0 / 10 + (1 + y 0) / 10 = (1 + 2 * y 0) / 10 by ring, show 1 + (1 + y 0) = 2 + y 0 by ring]
  obtain ⟨z, hz, hd⟩ := C116_inverse ht' e3 (by norm_num) (hA y hy0 hy1).2 (r := exactDeep [l1, l2] y) (σ := 0) (by simp)
    (fun k hk => by
      have : k = 0 ∨ k = 1 := by simp at hk; omega
      rcases this with rfl | rfl <;> norm_num [growth]) ho
  rw [himg, e2] at hz
  refine ⟨z, hz, hd.trans ?_⟩
  norm_num [growth, sum_range_succ]

end MParT
