import Verif.Props.FirstOrder
/-!
# C124: training a triangular map is training its components
-/
namespace MParT
open Finset Spec

/-- The components of a triangular map with their coefficients: every component gets the next ones. -/
def Spec.separate : List CMap → List ℝ → List (CMap × List ℝ)
  | [], _ => []
  | m :: ms, c => (m, c.take m.numCoeffs) :: separate ms (c.drop m.numCoeffs)

/-- The samples of the inputs the component reads: the first ones. -/
def Spec.leading (m : CMap) (data : List (List ℝ)) : List (List ℝ) := data.map (·.take m.inputDim)

/-- The objective of a map at some coefficients, as a number. -/
noncomputable def costOf (data : List (List ℝ)) (m : CMap) (c : List ℝ) : ℝ :=
  -average data fun x => logp (Gaussian.ofDim m.outputDim).density (fn m c x) + logdet m c x

theorem objective_cost {m : CMap} (hE : Evaluates m) (hL : HasLogDet m) {c : List ℝ} (hc : c.length = m.numCoeffs) {data : List (List ℝ)} (hne : data ≠ [])
    (hx : ∀ x ∈ data, x.length = m.inputDim) : KL.objective m (Gaussian.ofDim m.outputDim).density c data = .ok (some (costOf data m c)) := by
  have hd := (C53_density (.dim m.outputDim)).2.1
  obtain ⟨P, hP⟩ := ((C52_dimensions (m := m) (d := (Gaussian.ofDim m.outputDim).density) c).1).2 rfl
  have hcol : KL.columns (fun x => P.logDensity x (some 0)) data
      = .ok (data.map fun x => some (logp (Gaussian.ofDim m.outputDim).density (fn m c x) + logdet m c x)) :=
    KL.columns_ok fun x h => by
      obtain ⟨hdim, rfl⟩ := pull_new.mp hP
      exact pull_logDensity hE hL hd hdim ⟨hc, hx x h⟩ (some 0)
  rw [KL.objective, hP, Res.bind_ok, hcol, Res.bind_ok]
  have : (data.map fun x => some (logp (Gaussian.ofDim m.outputDim).density (fn m c x) + logdet m c x))
    = (data.map fun x => logp (Gaussian.ofDim m.outputDim).density (fn m c x) + logdet m c x).map some := by simp
  rw [this, KL.sumNegative_eq, KL.average_eq (by simpa using hne), neg_div, ← average]
  rfl

theorem average_leading (m : CMap) (data : List (List ℝ)) (f : List ℝ → ℝ) : average (leading m data) f = average data fun x => f (x.take m.inputDim) := by
  simp [average, leading, Function.comp_def]

/-- The sum of the objectives of the components. -/
noncomputable def costs (data : List (List ℝ)) (comps : List CMap) (c : List ℝ) : ℝ := ((separate comps c).map fun p => costOf (leading p.1 data) p.1 p.2).sum

theorem stacked_length' {comps : List CMap} (hE : ∀ m ∈ comps, Evaluates m) {c x : List ℝ} (hc : c.length = (comps.map CMap.numCoeffs).sum)
    (hx : ∀ m ∈ comps, m.inputDim ≤ x.length) : (stacked comps c x).length = (comps.map CMap.outputDim).sum := by
  induction comps generalizing c with
  | nil => rfl
  | cons m ms ih =>
    rw [List.map_cons, List.sum_cons] at hc
    simp only [stacked, List.length_append, List.map_cons, List.sum_cons]
    rw [ih (fun m' h => hE m' (List.mem_cons_of_mem _ h)) (by simp [hc]) (fun m' h => hx m' (List.mem_cons_of_mem _ h)),
      (hE m (List.mem_cons_self ..) _ _ ⟨by simp [hc], by simpa using hx m (List.mem_cons_self ..)⟩).1]

theorem costs_cons (data : List (List ℝ)) (m : CMap) (ms : List CMap) (c : List ℝ) :
    costs data (m :: ms) c = costOf (leading m data) m (c.take m.numCoeffs) + costs data ms (c.drop m.numCoeffs) := by
  simp only [costs, separate, List.map_cons, List.sum_cons]

theorem costs_eq {data : List (List ℝ)} : ∀ {comps : List CMap}, (∀ m ∈ comps, Evaluates m) → ∀ {c : List ℝ}, c.length = (comps.map CMap.numCoeffs).sum →
    (∀ x ∈ data, ∀ m ∈ comps, m.inputDim ≤ x.length) →
    -average data (fun x => logp (Gaussian.ofDim (comps.map CMap.outputDim).sum).density (stacked comps c x) + stackedLogDet comps c x) = costs data comps c
  | [], _, c, _, _ => by
    rw [average_congr (g := fun _ => 0 * (0 : ℝ)) fun x _ => by rw [std_logp _ (by simp [stacked])]; simp [stacked, stackedLogDet], average_mul]
    simp [costs, separate]
  | m :: ms, hE, c, hc, hx => by
    have hE' := fun m' h => hE m' (List.mem_cons_of_mem _ h)
    have hx' := fun x hm m' h => hx x hm m' (List.mem_cons_of_mem _ h)
    rw [List.map_cons, List.sum_cons] at hc
    have hl : (c.drop m.numCoeffs).length = (ms.map CMap.numCoeffs).sum := by simp [hc]
    have ih := costs_eq hE' hl hx'
    rw [costs_cons, ← ih, costOf, average_leading, ← neg_add, ← average_add]
    congr 1
    refine average_congr fun x h => ?_
    have e1 := (hE m (List.mem_cons_self ..) (c.take m.numCoeffs) (x.take m.inputDim) ⟨by simp [hc], by simpa using hx x h m (List.mem_cons_self ..)⟩).1
    have e2 := stacked_length' hE' hl (hx' x h)
    rw [std_logp _ (by simp [stacked, e1, e2]), std_logp _ e1, std_logp _ e2]
    simp only [stacked, stackedLogDet, List.map_append, List.sum_append, List.map_cons, List.sum_cons, Nat.cast_add]
    ring

/-- The costs are minimal if and only if each of them is. -/
theorem costs_minimal {data : List (List ℝ)} : ∀ {comps : List CMap} {c : List ℝ}, c.length = (comps.map CMap.numCoeffs).sum →
    ((∀ c' : List ℝ, c'.length = (comps.map CMap.numCoeffs).sum → costs data comps c ≤ costs data comps c') ↔
      ∀ p ∈ separate comps c, ∀ e : List ℝ, e.length = p.1.numCoeffs → costOf (leading p.1 data) p.1 p.2 ≤ costOf (leading p.1 data) p.1 e)
  | [], c, _ => by simp [costs, separate]
  | m :: ms, c, hc => by
    rw [List.map_cons, List.sum_cons] at hc
    have hl : (c.drop m.numCoeffs).length = (ms.map CMap.numCoeffs).sum := by simp [hc]
    rw [separate, List.forall_mem_cons, ← costs_minimal hl]
    simp only [List.map_cons, List.sum_cons, costs_cons]
    constructor
    · intro h
      refine ⟨fun e he => ?_, fun c' hc' => ?_⟩
      · have := h (e ++ c.drop m.numCoeffs) (by rw [List.length_append, he, hl])
        rw [← he, List.take_left' rfl, List.drop_left' rfl, he] at this
        linarith
      · have ht : (c.take m.numCoeffs).length = m.numCoeffs := by simp [hc]
        have := h (c.take m.numCoeffs ++ c') (by rw [List.length_append, ht, hc'])
        rw [List.take_left' ht, List.drop_left' ht] at this
        linarith
    · rintro ⟨h1, h2⟩ c' hc'
      exact add_le_add (h1 _ (by simp [hc'])) (h2 _ (by simp [hc']))

theorem separate_mem {comps : List CMap} {c : List ℝ} (hc : c.length = (comps.map CMap.numCoeffs).sum) {p : CMap × List ℝ} (h : p ∈ separate comps c) :
    p.1 ∈ comps ∧ p.2.length = p.1.numCoeffs := by
  induction comps generalizing c with
  | nil => simp [separate] at h
  | cons m ms ih =>
    rw [List.map_cons, List.sum_cons] at hc
    rw [separate, List.mem_cons] at h
    rcases h with rfl | h
    · exact ⟨List.mem_cons_self .., by simp [hc]⟩
    · exact ⟨List.mem_cons_of_mem _ (ih (by simp [hc]) h).1, (ih (by simp [hc]) h).2⟩

section
variable {comps : List CMap} {T : CMap} (hT : TriangularMap.new comps = .ok T) (hE : ∀ m ∈ comps, Evaluates m) (hL : ∀ m ∈ comps, HasLogDet m) {data : List (List ℝ)}
  (hne : data ≠ []) (hx : ∀ x ∈ data, x.length = T.inputDim) {c : List ℝ}
include hT hE hL hne hx

/-- **C124.** The training objective of a triangular map is the sum of those of its components, each on the samples of the inputs it reads. -/
theorem C124_objective (hc : c.length = T.numCoeffs) : ∃ vs : List ℝ,
    List.Forall₂ (fun p v => KL.objective p.1 (Gaussian.ofDim p.1.outputDim).density p.2 (leading p.1 data) = .ok (some v)) (separate comps c) vs ∧
    KL.objective T (Gaussian.ofDim T.outputDim).density c data = .ok (some vs.sum) := by
  obtain ⟨t1, t2⟩ := C40_evaluate hT hE
  obtain ⟨t3, t4⟩ := C42_sum hT hL
  obtain ⟨hn, ⟨e, hch⟩, rfl⟩ := new_triangular.mp hT
  obtain ⟨h1, h2, h3⟩ := obj_sizes hn hch
  have hle : ∀ x ∈ data, ∀ m ∈ comps, m.inputDim ≤ x.length := fun x h m hm => by rw [hx x h, h1]; exact hch.le hm
  refine ⟨(separate comps c).map fun p => costOf (leading p.1 data) p.1 p.2, ?_, ?_⟩
  · rw [List.forall₂_map_right_iff, List.forall₂_same]
    intro p hp
    obtain ⟨g1, g2⟩ := separate_mem (hc.trans h3) hp
    refine objective_cost (hE _ g1) (hL _ g1) g2 (by simpa [leading] using hne) fun x h => ?_
    obtain ⟨y, hy, rfl⟩ := List.mem_map.1 h
    simpa using hle y hy _ g1
  · rw [objective_cost t1 t3 hc hne hx, ← costs, ← costs_eq hE (hc.trans h3) hle, costOf, h2]
    congr 3
    refine average_congr fun x h => ?_
    rw [t2 c x ⟨hc, hx x h⟩, t4 c x ⟨hc, hx x h⟩]

/-- **C124.** So coefficients are optimal for the map if and only if those of every component are optimal for the component. -/
theorem C124_minimisers : MinimisesKL T data c ↔ c.length = T.numCoeffs ∧ ∀ p ∈ separate comps c, MinimisesKL p.1 (leading p.1 data) p.2 := by
  have hobj := fun c hc => C124_objective hT hE hL hne hx (c := c) hc
  obtain ⟨t1, t2⟩ := C40_evaluate hT hE
  obtain ⟨t3, t4⟩ := C42_sum hT hL
  obtain ⟨hn, ⟨e, hch⟩, rfl⟩ := new_triangular.mp hT
  obtain ⟨h1, h2, h3⟩ := obj_sizes hn hch
  have hle : ∀ x ∈ data, ∀ m ∈ comps, m.inputDim ≤ x.length := fun x h m hm => by rw [hx x h, h1]; exact hch.le hm
  have hcost : ∀ c : List ℝ, c.length = (TriangularMap.obj comps).numCoeffs →
      KL.objective (TriangularMap.obj comps) (Gaussian.ofDim (TriangularMap.obj comps).outputDim).density c data = .ok (some (costs data comps c)) := fun c hc => by
    rw [objective_cost t1 t3 hc hne hx, ← costs_eq hE (hc.trans h3) hle, costOf, h2]
    congr 3
    refine average_congr fun x h => ?_
    rw [t2 c x ⟨hc, hx x h⟩, t4 c x ⟨hc, hx x h⟩]
  refine and_congr_right fun hc => ?_
  have hcomp : ∀ p ∈ separate comps c, ∀ e : List ℝ, e.length = p.1.numCoeffs →
      KL.objective p.1 (Gaussian.ofDim p.1.outputDim).density e (leading p.1 data) = .ok (some (costOf (leading p.1 data) p.1 e)) := fun p hp e he => by
    obtain ⟨g1, -⟩ := separate_mem (hc.trans h3) hp
    refine objective_cost (hE _ g1) (hL _ g1) he (by simpa [leading] using hne) fun x h => ?_
    obtain ⟨y, hy, rfl⟩ := List.mem_map.1 h
    simpa using hle y hy _ g1
  have key := costs_minimal (data := data) (hc.trans h3)
  constructor
  · rintro ⟨v, hv, hm⟩ p hp
    obtain ⟨-, g2⟩ := separate_mem (hc.trans h3) hp
    refine ⟨g2, _, hcomp p hp _ g2, fun e v' he hv' => ?_⟩
    rw [hcomp p hp e he] at hv'
    cases hv'
    rw [hcost c hc] at hv
    cases hv
    exact key.1 (fun c' hc' => hm c' _ (hc'.trans h3.symm) (hcost c' (hc'.trans h3.symm))) p hp e he
  · intro h
    refine ⟨_, hcost c hc, fun c' v' hc' hv' => ?_⟩
    rw [hcost c' hc'] at hv'
    cases hv'
    refine key.2 (fun p hp e he => ?_) c' (hc'.trans h3)
    obtain ⟨g2, v, hv, hm⟩ := h p hp
    rw [hcomp p hp _ g2] at hv
    cases hv
    exact hm e _ he (hcomp p hp e he)

end

theorem componentLoop_each {extra p : ℕ} {o : MapOptions} {mem : ℕ → Option ℝ} {work : List ℝ} : ∀ {n i : ℕ} {comps : List CMap},
    MapFactory.componentLoop extra p o mem work i n = .ok comps → ∀ j m, comps[j]? = some m → ∃ f w, FixedSet.totalOrder ((i + j + extra + 1) % 2 ^ 32) p = .ok f ∧
      MapFactory.createComponent f o mem work = .ok (m, w)
  | 0, i, comps, h, j, m, hj => by
    cases h
    simp at hj
  | n + 1, i, comps, h, j, m, hj => by
    rw [MapFactory.componentLoop] at h
    obtain ⟨f, h1, h⟩ := Res.bind_eq_ok.1 h
    obtain ⟨⟨m', w⟩, h2, h⟩ := Res.bind_eq_ok.1 h
    obtain ⟨rest, h3, h⟩ := Res.bind_eq_ok.1 h
    cases h
    cases j with
    | zero =>
      cases hj
      exact ⟨f, w, h1, h2⟩
    | succ j =>
      obtain ⟨f, w, g1, g2⟩ := componentLoop_each h3 j m hj
      exact ⟨f, w, by rw [← g1]; congr 2; omega, g2⟩

/-- **C124.** For a map of `CreateTriangular` the components are those `CreateComponent` builds with the total-order sets. -/
theorem C124_createTriangular {o : MapOptions} {k n p : ℕ} (h0 : 0 < n) (h2 : k + n < 2 ^ 32) (hB : GoodBasis o p) (hQ : GoodQuad o) (hcd : o.contDeriv = true)
    {mem : ℕ → Option ℝ} {work : List ℝ} {T : CMap} {w : List ℝ} (hT : MapFactory.createTriangular (k + n) n p o mem work = .ok (T, w)) {data : List (List ℝ)} (hne : data ≠ [])
    (hx : ∀ x ∈ data, x.length = k + n) : ∃ comps : List CMap, comps.length = n ∧
      (∀ i m, comps[i]? = some m → ∃ f w, FixedSet.totalOrder (k + i + 1) p = .ok f ∧ MapFactory.createComponent f o mem work = .ok (m, w)) ∧
      ∀ c, MinimisesKL T data c ↔ c.length = T.numCoeffs ∧ ∀ p ∈ separate comps c, MinimisesKL p.1 (leading p.1 data) p.2 := by
  obtain ⟨b, quad, mesh, hsel⟩ := selected le_rfl hB hQ
  obtain ⟨T', comps, r0, rfl, r1, r2, -, -, -, r5, r6, -⟩ := triangular_of_selected (inputDim := k + n) (outputDim := n) hsel h0 (by omega) h2 mem work
  obtain ⟨rfl, -⟩ := Prod.mk.inj (Res.ok.inj (hT.symm.trans r1))
  rw [Nat.add_sub_cancel] at r0
  have hmem : ∀ m ∈ comps, ∃ i : ℕ, comps[i]? = some m := fun m hm => List.mem_iff_getElem?.1 hm
  have hE : ∀ m ∈ comps, Evaluates m := fun m hm => by
    obtain ⟨i, hi⟩ := hmem m hm
    obtain ⟨ts, -, h⟩ := r6 i m hi
    exact h.evaluates
  have hL : ∀ m ∈ comps, HasLogDet m := fun m hm => by
    obtain ⟨i, hi⟩ := hmem m hm
    obtain ⟨ts, -, h⟩ := r6 i m hi
    exact h.logDets hcd
  have hnew : TriangularMap.new comps = .ok (TriangularMap.obj comps) := by
    rw [MapFactory.createTriangular, show (k + n + (2 ^ 32 - n)) % 2 ^ 32 = k by omega, r0, Res.bind_ok] at hT
    obtain ⟨T', h1, -⟩ := Res.bind_eq_ok.1 hT
    rw [h1, (new_triangular.mp h1).2.2]
  refine ⟨comps, r5, fun i m hi => ?_, fun c => C124_minimisers hnew hE hL hne fun x h => (hx x h).trans r2.symm⟩
  obtain ⟨f, w, g1, g2⟩ := componentLoop_each r0 i m hi
  have := (List.getElem?_eq_some_iff.1 hi).1
  rw [Nat.mod_eq_of_lt (by omega)] at g1
  exact ⟨f, w, by rw [← g1]; congr 1; omega, g2⟩

/-- The identity next to a map with one coefficient, trained on one sample. -/
example : MinimisesKL (TriangularMap.obj exampleComps) [[0, 1]] [0] := by
  have hL := example_all (C48_identity_logDet (le_refl 1)).1 toy_hasLogDet
  rw [C124_minimisers example_new example_evaluates hL (by simp) (by simp [TriangularMap.obj, exampleComps, IdentityMap.obj, toy])]
  refine ⟨rfl, fun p hp => ?_⟩
  simp only [separate, exampleComps, List.mem_cons, List.not_mem_nil, or_false] at hp
  rcases hp with rfl | rfl
  · have h := fun c hc => objective_cost (c := c) (C48_identity_evaluate (le_refl 1)).1 (C48_identity_logDet (le_refl 1)).1 hc
      (data := leading (IdentityMap.obj 1 1) [[0, 1]]) (by simp [leading]) (by simp [leading, IdentityMap.obj])
    refine ⟨rfl, _, h _ rfl, fun c' v' hc' hv' => ?_⟩
    obtain rfl : c' = [] := List.length_eq_zero_iff.1 hc'
    rw [h [] rfl] at hv'
    cases hv'
    exact le_rfl
  · have h := fun c hc => objective_cost (c := c) toy_evaluates toy_hasLogDet hc (data := leading toy [[0, 1]]) (by simp [leading]) (by simp [leading, toy])
    refine ⟨rfl, _, h _ rfl, fun c' v' hc' hv' => ?_⟩
    rw [h c' hc'] at hv'
    cases hv'
    have hv : ∀ c : List ℝ, costOf (leading toy [[0, 1]]) toy c = 1 / 2 * Real.exp (c.getD 0 0) ^ 2 + 1 / 2 * Real.log (2 * Real.pi) - c.getD 0 0 := fun c => by
      have hl : logdet toy c [0, 1] = c.getD 0 0 := rfl
      rw [costOf, average_leading]
      simp only [average, toy, List.map_cons, List.map_nil, List.sum_cons, List.sum_nil, List.take_succ_cons, List.take_nil]
      rw [std_logp 1 (by rw [← toy, toy_fn]; rfl), ← toy, toy_fn, hl]
      simp
      ring
    have := Real.add_one_le_exp (2 * c'.getD 0 0)
    rw [two_mul, Real.exp_add] at this
    rw [hv, hv]
    simp only [List.take_nil, IdentityMap.obj, List.drop_zero, toy, List.take_succ_cons, List.getD_cons_zero, Real.exp_zero]
    nlinarith

end MParT
