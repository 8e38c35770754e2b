import Verif.Spec.Separate
import Verif.Props.Train
import Verif.Props.LawsMaps
import Verif.Props.Factory
/-!
# C104: the components of a triangular map can be trained one by one
-/
namespace MParT
open Spec Train

/-- The log-density of the pullback of the standard normal distribution, as `LogDensity` computes it. -/
noncomputable def pullStd (m : CMap) (c x : List ℝ) : ℝ := logp (Gaussian.ofDim m.outputDim).density (fn m c x) + logdet m c x

theorem referenceOf_eq {m : CMap} (h : m.outputDim ≠ 0) : referenceOf m = (Gaussian.ofDim m.outputDim).density := by
  rw [referenceOf, gaussianKLDensity, if_neg h]

/-- Minus the mean of the log-density. -/
noncomputable def meanErr (m : CMap) (data : List (List ℝ)) (c : List ℝ) : ℝ :=
  -((data.map fun x => pullStd m c (x.take m.inputDim)).sum / data.length)

theorem trainingError_eq {m : CMap} (ho : m.outputDim ≠ 0) (hE : Evaluates m) (hL : HasLogDet m) {data : List (List ℝ)}
    (hx : ∀ x ∈ data, m.inputDim ≤ x.length) (hne : data ≠ []) {c : List ℝ} (hc : c.length = m.numCoeffs) :
    trainingError m data c = .ok (some (meanErr m data c)) := by
  obtain ⟨hd1, hd2, -, -⟩ := C53_density (.dim m.outputDim)
  have hdim : m.outputDim = (Gaussian.ofDim m.outputDim).density.dim := hd1.symm
  obtain ⟨p, hp⟩ := ((C52_dimensions (m := m) (d := (Gaussian.ofDim m.outputDim).density) c).1).2 hdim
  obtain ⟨-, hp'⟩ := pull_new.mp hp
  have hcol : KL.columns (fun x => p.logDensity x (some 0)) (inputRows m data) = .ok ((inputRows m data).map fun x => some (pullStd m c x)) :=
    KL.columns_ok fun x h => by
      rw [hp']
      obtain ⟨y, hy, rfl⟩ := List.mem_map.mp h
      exact pull_logDensity hE hL hd2 hdim ⟨hc, by simp [hx y hy]⟩ _
  rw [trainingError, referenceOf_eq ho, KL.objective, hp, Res.bind_ok, hcol, Res.bind_ok]
  have : ((inputRows m data).map fun x => some (pullStd m c x)) = ((inputRows m data).map (pullStd m c)).map some := by simp
  rw [this, KL.sumNegative_eq, KL.average_eq (by simpa [inputRows] using hne), meanErr, neg_div]
  simp [inputRows, Function.comp_def]

/-- The log-density of the whole map at a point is the sum of those of its components. -/
theorem pullStd_blocks (comps : List CMap) (hE : ∀ m ∈ comps, Evaluates m) {x : List ℝ} (hin : ∀ m ∈ comps, m.inputDim ≤ x.length) :
    ∀ {c : List ℝ}, c.length = (comps.map CMap.numCoeffs).sum →
    logp (Gaussian.ofDim (comps.map CMap.outputDim).sum).density (stacked comps c x) + stackedLogDet comps c x
      = ((blocks comps c).map fun b => pullStd b.1 b.2 (x.take b.1.inputDim)).sum := by
  induction comps with
  | nil =>
    intro c _
    simp only [List.map_nil, List.sum_nil, stacked, stackedLogDet, blocks, add_zero]
    rw [std_logp 0 rfl]
    simp
  | cons m ms ih =>
    intro c hc
    simp only [List.map_cons, List.sum_cons] at hc ⊢
    have hm : Fits m (c.take m.numCoeffs) (x.take m.inputDim) := ⟨by simp; omega, by simp [hin m (by simp)]⟩
    have h1 := (hE m (by simp) _ _ hm).1
    have hc' : (c.drop m.numCoeffs).length = (ms.map CMap.numCoeffs).sum := by simp; omega
    have h2 : (stacked ms (c.drop m.numCoeffs) x).length = (ms.map CMap.outputDim).sum :=
      stacked_length (fun m hm => hE m (by simp [hm])) (fun m hm => hin m (by simp [hm])) hc'
    have := ih (fun m hm => hE m (by simp [hm])) (fun m hm => hin m (by simp [hm])) hc'
    simp only [stacked, stackedLogDet, blocks, List.map_cons, List.sum_cons]
    rw [std_blocks _ _ _ _ h1 h2, ← this, pullStd]
    ring

theorem sum_swap {β : Type} (l : List β) (data : List (List ℝ)) (F : β → List ℝ → ℝ) (N : ℝ) :
    (l.map fun b => -((data.map fun x => F b x).sum / N)).sum = -((data.map fun x => (l.map fun b => F b x).sum).sum / N) := by
  induction l with
  | nil => simp
  | cons b l ih =>
    simp only [List.map_cons, List.sum_cons, ih, List.sum_map_add]
    ring

/-- What the proofs use of a triangular map. -/
structure Stack (comps : List CMap) (t : CMap) : Prop where
  ne : comps ≠ []
  inputs : ∀ m ∈ comps, m.inputDim ≤ t.inputDim
  outputs : t.outputDim = (comps.map CMap.outputDim).sum
  coeffs : t.numCoeffs = (comps.map CMap.numCoeffs).sum
  evaluates : Evaluates t
  value : ∀ c x, Fits t c x → fn t c x = stacked comps c x
  hasLogDet : HasLogDet t
  logDet : ∀ c x, Fits t c x → logdet t c x = stackedLogDet comps c x

theorem stack_triangular {comps : List CMap} {t : CMap} (ht : TriangularMap.new comps = .ok t) (hE : ∀ m ∈ comps, Evaluates m)
    (hL : ∀ m ∈ comps, HasLogDet m) : Stack comps t := by
  obtain ⟨tE, key⟩ := C40_evaluate ht hE
  obtain ⟨tL, keyL⟩ := C42_sum ht hL
  obtain ⟨hn, ⟨e, hch⟩, rfl⟩ := new_triangular.mp ht
  obtain ⟨h1, h2, h3⟩ := obj_sizes hn hch
  exact ⟨hn, fun m hm => by rw [h1]; exact hch.le hm, h2, h3, tE, key, tL, keyL⟩

section
variable {comps : List CMap} {t : CMap} (hS : Stack comps t) (ho : ∀ m ∈ comps, m.outputDim ≠ 0)
  (hE : ∀ m ∈ comps, Evaluates m) (hL : ∀ m ∈ comps, HasLogDet m) {data : List (List ℝ)} (hne : data ≠ [])
  (hx : ∀ x ∈ data, x.length = t.inputDim)

include hS ho in
theorem tri_output : t.outputDim ≠ 0 := by
  rw [hS.outputs]
  have := hS.ne
  cases comps with
  | nil => exact absurd rfl this
  | cons m ms => have := ho m (by simp); simp; omega

include hS hx in
theorem comp_rows {m : CMap} (hm : m ∈ comps) : ∀ x ∈ data, m.inputDim ≤ x.length := fun x hxd => by rw [hx x hxd]; exact hS.inputs m hm

theorem blocks_spec (comps : List CMap) : ∀ {c : List ℝ}, c.length = (comps.map CMap.numCoeffs).sum →
    ∀ b ∈ blocks comps c, b.1 ∈ comps ∧ b.2.length = b.1.numCoeffs := by
  induction comps with
  | nil => intro c _ b hb; simp [blocks] at hb
  | cons m ms ih =>
    intro c hc b hb
    simp only [List.map_cons, List.sum_cons] at hc
    simp only [blocks, List.mem_cons] at hb
    rcases hb with rfl | hb
    · exact ⟨by simp, by simp; omega⟩
    · obtain ⟨h1, h2⟩ := ih (by simp; omega) b hb
      exact ⟨by simp [h1], h2⟩

include hS hE hx in
theorem meanErr_sum {c : List ℝ} (hc : c.length = t.numCoeffs) :
    meanErr t data c = ((blocks comps c).map fun b => meanErr b.1 data b.2).sum := by
  simp only [meanErr]
  rw [sum_swap (blocks comps c) data (fun b x => pullStd b.1 b.2 (x.take b.1.inputDim))]
  congr 3
  refine List.map_congr_left fun x hxd => ?_
  have hxl := hx x hxd
  rw [List.take_of_length_le (by omega), pullStd, hS.value c x ⟨hc, hxl⟩, hS.logDet c x ⟨hc, hxl⟩, hS.outputs]
  exact pullStd_blocks comps hE (fun m hm => comp_rows hS hx hm x hxd) (hc.trans hS.coeffs)

include hS ho hE hL hne hx in
theorem value_stack {c : List ℝ} (hc : c.length = t.numCoeffs) :
    ∃ vs : List ℝ, List.Forall₂ (fun (b : CMap × List ℝ) v => trainingError b.1 data b.2 = .ok (some v)) (blocks comps c) vs ∧
      trainingError t data c = .ok (some vs.sum) := by
  refine ⟨(blocks comps c).map fun b => meanErr b.1 data b.2, ?_, ?_⟩
  · rw [List.forall₂_map_right_iff]
    refine List.forall₂_same.mpr fun b hb => ?_
    obtain ⟨hm, hl⟩ := blocks_spec comps (hc.trans hS.coeffs) b hb
    exact trainingError_eq (ho _ hm) (hE _ hm) (hL _ hm) (comp_rows hS hx hm) hne hl
  · rw [trainingError_eq (tri_output hS ho) hS.evaluates hS.hasLogDet (fun x h => (hx x h).ge) hne hc, meanErr_sum hS hE hx hc]

theorem optimal_iff {m : CMap} (ho : m.outputDim ≠ 0) (hE : Evaluates m) (hL : HasLogDet m)
    (hx : ∀ x ∈ data, m.inputDim ≤ x.length) (hne : data ≠ []) {c : List ℝ} (hc : c.length = m.numCoeffs) :
    Optimal m data c ↔ ∀ c' : List ℝ, c'.length = m.numCoeffs → meanErr m data c ≤ meanErr m data c' := by
  constructor
  · rintro ⟨v, h1, h2⟩ c' hc'
    obtain ⟨v', h3, h4⟩ := h2 c' hc'
    rw [trainingError_eq ho hE hL hx hne hc] at h1
    rw [trainingError_eq ho hE hL hx hne hc'] at h3
    rwa [Option.some.inj (Res.ok.inj h1), Option.some.inj (Res.ok.inj h3)]
  · intro h
    exact ⟨_, trainingError_eq ho hE hL hx hne hc, fun c' hc' => ⟨_, trainingError_eq ho hE hL hx hne hc', h c' hc'⟩⟩

theorem sum_optimal (f : CMap → List ℝ → ℝ) (comps : List CMap) : ∀ {c : List ℝ}, c.length = (comps.map CMap.numCoeffs).sum →
    ((∀ c' : List ℝ, c'.length = (comps.map CMap.numCoeffs).sum →
        ((blocks comps c).map fun b => f b.1 b.2).sum ≤ ((blocks comps c').map fun b => f b.1 b.2).sum) ↔
      ∀ b ∈ blocks comps c, ∀ c' : List ℝ, c'.length = b.1.numCoeffs → f b.1 b.2 ≤ f b.1 c') := by
  induction comps with
  | nil => intro c _; simp [blocks]
  | cons m ms ih =>
    intro c hc
    simp only [List.map_cons, List.sum_cons] at hc ⊢
    have hd : (c.drop m.numCoeffs).length = (ms.map CMap.numCoeffs).sum := by simp; omega
    have htk : (c.take m.numCoeffs).length = m.numCoeffs := by simp; omega
    simp only [blocks, List.map_cons, List.sum_cons, List.mem_cons, forall_eq_or_imp]
    rw [← ih hd]
    constructor
    · intro h
      refine ⟨fun c' hc' => ?_, fun c' hc' => ?_⟩
      · have := h (c' ++ c.drop m.numCoeffs) (by rw [List.length_append, hc', hd])
        rw [List.take_left' hc', List.drop_left' hc'] at this
        linarith
      · have := h (c.take m.numCoeffs ++ c') (by rw [List.length_append, hc', htk])
        rw [List.take_left' htk, List.drop_left' htk] at this
        linarith
    · rintro ⟨h1, h2⟩ c' hc'
      exact add_le_add (h1 _ (by simp; omega)) (h2 _ (by simp; omega))

include hS ho hE hL hne hx in
theorem optimal_stack {c : List ℝ} (hc : c.length = t.numCoeffs) :
    Optimal t data c ↔ ∀ b ∈ blocks comps c, Optimal b.1 data b.2 := by
  rw [optimal_iff (tri_output hS ho) hS.evaluates hS.hasLogDet (fun x h => (hx x h).ge) hne hc]
  have : (∀ b ∈ blocks comps c, Optimal b.1 data b.2) ↔
      ∀ b ∈ blocks comps c, ∀ c' : List ℝ, c'.length = b.1.numCoeffs → meanErr b.1 data b.2 ≤ meanErr b.1 data c' := by
    refine forall₂_congr fun b hb => ?_
    obtain ⟨hm, hl⟩ := blocks_spec comps (hc.trans hS.coeffs) b hb
    exact optimal_iff (ho _ hm) (hE _ hm) (hL _ hm) (comp_rows hS hx hm) hne hl
  rw [this, ← sum_optimal (fun m c => meanErr m data c) comps (hc.trans hS.coeffs), hS.coeffs]
  refine forall₂_congr fun c' hc' => ?_
  rw [meanErr_sum hS hE hx hc, meanErr_sum hS hE hx (hc'.trans hS.coeffs.symm)]

end

section
variable {comps : List CMap} {t : CMap} (ht : TriangularMap.new comps = .ok t) (ho : ∀ m ∈ comps, m.outputDim ≠ 0)
  (hE : ∀ m ∈ comps, Evaluates m) (hL : ∀ m ∈ comps, HasLogDet m) {data : List (List ℝ)} (hne : data ≠ [])
  (hx : ∀ x ∈ data, x.length = t.inputDim)

include ht ho hE hL hne hx in
/-- **C104, value.** The training error of a triangular map is the sum of the training errors of its components, each with its coefficients and the
rows of the data it has as inputs. -/
theorem C104_value {c : List ℝ} (hc : c.length = t.numCoeffs) :
    ∃ vs : List ℝ, List.Forall₂ (fun (b : CMap × List ℝ) v => trainingError b.1 data b.2 = .ok (some v)) (blocks comps c) vs ∧
      trainingError t data c = .ok (some vs.sum) :=
  value_stack (stack_triangular ht hE hL) ho hE hL hne hx hc

include ht ho hE hL hne hx in
/-- **C104, minima.** Coefficients are optimal for the triangular map exactly if each component's part of them is optimal for that component: training
the components one by one, in any order, gives the same minima as training the map. -/
theorem C104_optimal {c : List ℝ} (hc : c.length = t.numCoeffs) :
    Optimal t data c ↔ ∀ b ∈ blocks comps c, Optimal b.1 data b.2 :=
  optimal_stack (stack_triangular ht hE hL) ho hE hL hne hx hc

/-- The gradients of the components, one after the other, are the gradient of the sum. -/
theorem blocks_gradient (f : CMap → List ℝ → ℝ) (comps : List CMap) : ∀ {c : List ℝ} {gs : List (List ℝ)}, c.length = (comps.map CMap.numCoeffs).sum →
    List.Forall₂ (fun (b : CMap × List ℝ) g => IsGradient b.1.numCoeffs 0 (fun c _ => f b.1 c) b.2 [] g []) (blocks comps c) gs →
    IsGradient (comps.map CMap.numCoeffs).sum 0 (fun c _ => ((blocks comps c).map fun b => f b.1 b.2).sum) c [] gs.flatten [] := by
  induction comps with
  | nil =>
    intro c gs _ h
    simp only [blocks, List.forall₂_nil_left_iff] at h
    subst h
    refine ⟨rfl, rfl, fun γ δ vc vx t₀ _ _ _ _ => ?_⟩
    simpa [blocks, dot] using hasDerivAt_const t₀ (0 : ℝ)
  | cons m ms ih =>
    intro c gs hc h
    simp only [blocks] at h
    cases h with
    | @cons _ g _ gs' hg hgs =>
      simp only [List.map_cons, List.sum_cons] at hc ⊢
      have hi := ih (by simp; omega) hgs
      refine ⟨by simp [hg.1, hi.1], rfl, fun γ δ vc vx t₀ hγ hδ hγc hδx => ?_⟩
      simp only [blocks, List.map_cons, List.sum_cons, List.flatten_cons]
      have d1 := hg.2.2 _ δ _ vx t₀ (hγ.take (Nat.le_add_right _ _)) hδ (by rw [hγc]) hδx
      have d2 := hi.2.2 _ δ _ vx t₀ hγ.drop hδ (by rw [hγc]) hδx
      refine (d1.add d2).congr_deriv ?_
      rw [dot_split m.numCoeffs (by rw [hγ.2.1]; omega) hg.1]
      simp [dot]

theorem klObjective_eq {m : CMap} (hJ : LogDetIsJacobian m) (hx : ∀ x ∈ data, m.inputDim ≤ x.length) {c : List ℝ} (hc : c.length = m.numCoeffs) :
    klObjective m (Gaussian.ofDim m.outputDim).density (inputRows m data) c = meanErr m data c := by
  rw [klObjective, meanErr, inputRows, List.map_map, List.length_map]
  congr 3
  refine List.map_congr_left fun x hxd => ?_
  have hf : Fits m c (x.take m.inputDim) := ⟨hc, by simp [hx x hxd]⟩
  rw [Function.comp_apply, pulledBack, pullStd, (hJ c _ hf).2]

theorem gradient_std {m : CMap} (ho : m.outputDim ≠ 0) (hE : Evaluates m) (hL : HasLogDet m) (hJ : LogDetIsJacobian m) (hD : Differentiates m)
    (hDL : DifferentiatesLogDet m) (hn : m.numCoeffs ≠ 0) (hx : ∀ x ∈ data, m.inputDim ≤ x.length) (hne : data ≠ []) {c : List ℝ}
    (hc : c.length = m.numCoeffs) :
    ∃ g : List ℝ, IsGradient m.numCoeffs 0 (fun c _ => meanErr m data c) c [] g [] ∧
      ∀ split : Parallel.Split, split.indices.Perm (List.range data.length) → trainingGradient m data c split = .ok g := by
  obtain ⟨hd1, hd2, hd3, -⟩ := C53_density (.dim m.outputDim)
  obtain ⟨g, h1, h2⟩ := C54_gradient_partial (m := m) (d := (Gaussian.ofDim m.outputDim).density) (data := inputRows m data) hd1.symm hE hL hJ hD
    hDL hd2 hd3 hc (fun x h => by
      obtain ⟨y, hy, rfl⟩ := List.mem_map.mp h
      simp [hx y hy]) (by simpa [inputRows] using hne) hn
  refine ⟨g, ?_, fun split hs => ?_⟩
  · refine IsGradient.congr h1 fun c' _ hc' _ => ?_
    exact (klObjective_eq hJ hx hc').symm
  · rw [trainingGradient, referenceOf_eq ho]
    exact (h2 split (by simpa [inputRows] using hs)).2.1

include ht ho hE hL hne hx in
/-- **C104, gradient.** The gradient of the training error of the triangular map consists of the gradients of the training errors of its components,
one after the other, for every schedule of every one of these computations. -/
theorem C104_gradient (hJ : ∀ m ∈ comps, LogDetIsJacobian m) (hD : ∀ m ∈ comps, Differentiates m) (hDL : ∀ m ∈ comps, DifferentiatesLogDet m)
    (hn : ∀ m ∈ comps, m.numCoeffs ≠ 0) {c : List ℝ} (hc : c.length = t.numCoeffs) :
    ∃ gs : List (List ℝ),
      List.Forall₂ (fun (b : CMap × List ℝ) g => g.length = b.1.numCoeffs ∧
        ∀ split : Parallel.Split, split.indices.Perm (List.range data.length) → trainingGradient b.1 data b.2 split = .ok g) (blocks comps c) gs ∧
      ∀ split : Parallel.Split, split.indices.Perm (List.range data.length) → trainingGradient t data c split = .ok gs.flatten := by
  have hS := stack_triangular ht hE hL
  have tE := hS.evaluates
  have tL := hS.hasLogDet
  have tJ := C42_jacobian ht hE hL hJ
  have tD := C43_gradient ht hE hD
  have tDL := C43_logDet ht hL hDL
  have h3 := hS.coeffs
  have hpos : t.numCoeffs ≠ 0 := by
    obtain ⟨hne', -⟩ := new_triangular.mp ht
    rw [h3]
    cases comps with
    | nil => exact absurd rfl hne'
    | cons m ms => have := hn m (by simp); simp; omega
  have hb : ∀ b ∈ blocks comps c, ∃ g : List ℝ, IsGradient b.1.numCoeffs 0 (fun c _ => meanErr b.1 data c) b.2 [] g [] ∧
      ∀ split : Parallel.Split, split.indices.Perm (List.range data.length) → trainingGradient b.1 data b.2 split = .ok g := by
    intro b hb
    obtain ⟨hm, hl⟩ := blocks_spec comps (hc.trans h3) b hb
    exact gradient_std (ho _ hm) (hE _ hm) (hL _ hm) (hJ _ hm) (hD _ hm) (hDL _ hm) (hn _ hm) (comp_rows hS hx hm) hne hl
  choose! G hG1 hG2 using hb
  obtain ⟨g, hg1, hg2⟩ := gradient_std (tri_output hS ho) tE tL tJ tD tDL hpos (fun x h => (hx x h).ge) hne hc
  have hsum := blocks_gradient (fun m c => meanErr m data c) comps (gs := (blocks comps c).map G) (hc.trans h3)
    (by rw [List.forall₂_map_right_iff]; exact List.forall₂_same.mpr hG1)
  have hg1' : IsGradient (comps.map CMap.numCoeffs).sum 0 (fun c _ => ((blocks comps c).map fun b => meanErr b.1 data b.2).sum) c [] g [] := by
    rw [← h3]
    exact IsGradient.congr hg1 fun c' _ hc' _ => (meanErr_sum hS hE hx hc').symm
  have huniq := (IsGradient.unique hg1' hsum (hc.trans h3) rfl).1
  refine ⟨(blocks comps c).map G, ?_, fun split hs => by rw [← huniq]; exact hg2 split hs⟩
  rw [List.forall₂_map_right_iff]
  exact List.forall₂_same.mpr fun b hb => ⟨(hG1 b hb).1, hG2 b hb⟩

end

/-- **C104, maps from the factory.** The map that `CreateTriangular` returns, with any options that `C63_triangular_partial` covers and the
continuous derivative, can be trained component by component, also with quadratures and derivatives that are not exact. -/
theorem C104_factory {o : MapOptions} {inputDim outputDim p : Nat} (h0 : 0 < outputDim) (h1 : outputDim ≤ inputDim) (h2 : inputDim < 2 ^ 32)
    (hB : GoodBasis o p) (hQ : GoodQuad o) (hcont : o.contDeriv = true) :
    ∃ b mesh, IsBasisOf o (fun n => n ≤ p) b ∧ IsMeshOf o mesh ∧ ∀ mem work, ∃ T comps,
      MapFactory.createTriangular inputDim outputDim p o mem work = .ok (T, zeros T.numCoeffs) ∧ comps.length = outputDim ∧
      (∀ i m, comps[i]? = some m → ∃ ts, IsTotalOrder (inputDim - outputDim + i + 1) p ts ∧
        IsComponent o b mesh (inputDim - outputDim + i + 1) ts m) ∧
      ∀ data : List (List ℝ), data ≠ [] → (∀ x ∈ data, x.length = inputDim) → ∀ c : List ℝ, c.length = T.numCoeffs →
        (∃ vs : List ℝ, List.Forall₂ (fun (b : CMap × List ℝ) v => trainingError b.1 data b.2 = .ok (some v)) (blocks comps c) vs ∧
          trainingError T data c = .ok (some vs.sum)) ∧
        (Optimal T data c ↔ ∀ b ∈ blocks comps c, Optimal b.1 data b.2) := by
  obtain ⟨b, mesh, hb, hm, h⟩ := C63_triangular_partial h0 h1 h2 hB hQ
  refine ⟨b, mesh, hb, hm, fun mem work => ?_⟩
  obtain ⟨T, comps, t1, t2, t3, -, hn, t5, t6, t7, t8, t9, -⟩ := h mem work
  have hc : ∀ m ∈ comps, ∃ i ts, i < outputDim ∧ IsComponent o b mesh (inputDim - outputDim + i + 1) ts m := by
    intro m hm
    obtain ⟨i, hi⟩ := List.mem_iff_getElem?.1 hm
    obtain ⟨ts, -, h⟩ := t6 i m hi
    obtain ⟨hlt, -⟩ := List.getElem?_eq_some_iff.1 hi
    exact ⟨i, ts, by omega, h⟩
  have hout : ∀ m ∈ comps, m.outputDim = 1 := fun m hm => by obtain ⟨i, ts, -, h⟩ := hc m hm; exact h.outputs
  have hS : Stack comps T := by
    refine ⟨by rintro rfl; simp at t5; omega, fun m hm => ?_, ?_, hn, t7, t8, (t9 hcont).1, (t9 hcont).2⟩
    · obtain ⟨i, ts, hi, h⟩ := hc m hm
      rw [h.inputs, t2]; omega
    · rw [t3, List.map_congr_left hout]; simp [t5]
  have ho : ∀ m ∈ comps, m.outputDim ≠ 0 := fun m hm => by rw [hout m hm]; decide
  have hE : ∀ m ∈ comps, Evaluates m := fun m hm => by obtain ⟨i, ts, -, h⟩ := hc m hm; exact h.evaluates
  have hL : ∀ m ∈ comps, HasLogDet m := fun m hm => by obtain ⟨i, ts, -, h⟩ := hc m hm; exact h.logDets hcont
  refine ⟨T, comps, t1, t5, t6, fun data hne hx c hl => ?_⟩
  have hx' : ∀ x ∈ data, x.length = T.inputDim := fun x h => (hx x h).trans t2.symm
  exact ⟨value_stack hS ho hE hL hne hx' hl, optimal_stack hS ho hE hL hne hx' hl⟩

/-- Non-vacuity of `C104_factory`: a map of three inputs and two outputs of order five, with the default options. -/
example (mem : Nat → Option ℝ) (work : List ℝ) : ∃ (T : CMap) (comps : List CMap), MapFactory.createTriangular 3 2 5 {} mem work = .ok (T, zeros T.numCoeffs) ∧
    comps.length = 2 ∧ ∃ vs : List ℝ, vs.length = 2 ∧ trainingError T [[1, 2, 3], [0, 0, 1]] (zeros T.numCoeffs) = .ok (some vs.sum) := by
  obtain ⟨b, mesh, -, -, h⟩ := C104_factory (o := {}) (inputDim := 3) (outputDim := 2) (p := 5) (by decide) (by decide) (by decide)
    (good_default 5 (by decide)).1 (good_default 5 (by decide)).2 rfl
  obtain ⟨T, comps, h1, h2, -, h4⟩ := h mem work
  obtain ⟨⟨vs, h5, h6⟩, -⟩ := h4 [[1, 2, 3], [0, 0, 1]] (by simp) (by
    intro x hx
    simp only [List.mem_cons, List.not_mem_nil, or_false] at hx
    rcases hx with rfl | rfl <;> rfl) (zeros T.numCoeffs) (by simp)
  have hb : ∀ (l : List CMap) (c : List ℝ), (blocks l c).length = l.length := by
    intro l
    induction l with
    | nil => intro c; rfl
    | cons m ms ih => intro c; simp [blocks, ih]
  exact ⟨T, comps, h1, h2, vs, by rw [← h5.length_eq, hb, h2], h6⟩

/-- Non-vacuity: the triangular map `(x₁, x₂) ↦ (exp(a) sinh(x₁), exp(b) x₂ + x₁²)`, three samples. -/
example : ∃ (t : CMap) (gs : List (List ℝ)), TriangularMap.new [bend, toy] = .ok t ∧
    (∃ v w : ℝ, trainingError bend [[1, 2], [0, -1], [3, 3]] [2] = .ok (some v) ∧ trainingError toy [[1, 2], [0, -1], [3, 3]] [-1] = .ok (some w) ∧
      trainingError t [[1, 2], [0, -1], [3, 3]] [2, -1] = .ok (some (v + w))) ∧
    trainingGradient t [[1, 2], [0, -1], [3, 3]] [2, -1] (.join (.chunk [0, 2]) (.chunk [1])) = .ok gs.flatten ∧
    (Optimal t [[1, 2], [0, -1], [3, 3]] [2, -1] ↔ Optimal bend [[1, 2], [0, -1], [3, 3]] [2] ∧ Optimal toy [[1, 2], [0, -1], [3, 3]] [-1]) := by
  have ht : TriangularMap.new [bend, toy] = .ok (TriangularMap.obj [bend, toy]) := by
    simp [TriangularMap.new, bend, toy, TriangularMap.checkNext]
  have all : ∀ {P : CMap → Prop}, P bend → P toy → ∀ m ∈ [bend, toy], P m := by
    intro P h1 h2 m hm
    simp only [List.mem_cons, List.not_mem_nil, or_false] at hm
    rcases hm with rfl | rfl
    exacts [h1, h2]
  have hx : ∀ x ∈ [[1, 2], [0, -1], [3, (3 : ℝ)]], x.length = (TriangularMap.obj [bend, toy]).inputDim := by
    intro x hx
    simp only [List.mem_cons, List.not_mem_nil, or_false] at hx
    rcases hx with rfl | rfl | rfl <;> rfl
  have hE := all bend_evaluates toy_evaluates
  have hL := all bend_hasLogDet toy_hasLogDet
  have ho : ∀ m ∈ [bend, toy], m.outputDim ≠ 0 := all (by decide) (by decide)
  obtain ⟨vs, h1, h2⟩ := C104_value ht ho hE hL (by simp) hx (c := [2, -1]) rfl
  obtain ⟨gs, -, h4⟩ := C104_gradient ht ho hE hL (by simp) hx (all bend_jacobian toy_jacobian) (all bend_differentiates toy_differentiates)
    (all bend_differentiatesLogDet toy_differentiatesLogDet) (all (by decide) (by decide)) (c := [2, -1]) rfl
  have h5 := C104_optimal ht ho hE hL (by simp) hx (c := [2, -1]) rfl
  refine ⟨_, gs, ht, ?_, h4 _ (by decide), h5.trans (by simp [blocks, bend, toy])⟩
  match vs, h1 with
  | [v, w], h1 =>
    simp only [blocks, List.forall₂_cons] at h1
    exact ⟨v, w, h1.1, h1.2.1, by simpa using h2⟩

end MParT
