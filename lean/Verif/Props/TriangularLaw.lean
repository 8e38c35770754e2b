import Verif.Props.QuadGradient
import Verif.Props.Laws
import Verif.Props.Factory
import Verif.Props.LawsMaps
import Mathlib.Analysis.Calculus.ContDiff.Basic
import Mathlib.Analysis.Calculus.ContDiff.Operations
import Mathlib.Analysis.Calculus.FDeriv.Partial
/-!
# C111: the density reported through a triangular map

With more than one quadrature point short of exactness the map that `Evaluate` computes and the determinant that `LogDeterminant` reports belong to two
different functions: the second one is the Jacobian of the map with the exact integrals (`Spec.exactTriangular`), not of the computed one. Here
it is proved what a density pulled back through a map built by `CreateTriangular` nevertheless means: the law of the exact map, up to the change of the
reference density caused by the quadrature error.
-/
namespace MParT
open Spec Finset MeasureTheory MapFactory

/-! ### Exact triangular maps -/

/-- The exact triangular map with leading inputs `lead`: component `i` has the terms `ts i` and the coefficients `cs i`, depends on the leading
inputs and on the first `i + 1` others, and integrates exactly. -/
noncomputable def Spec.exactTriangular (b : Basis ℝ) (g : ℝ → ℝ) (lead : List ℝ) {n : Nat} (ts : Fin n → List (List Nat)) (cs : Fin n → List ℝ)
    (y : Fin n → ℝ) (i : Fin n) : ℝ :=
  monotone b g 0 (lead.length + i + 1) (ts i) (cs i) (coords (lead ++ List.ofFn y))

theorem primitive_differentiable {n : Nat} {K : (Fin n → ℝ) × ℝ → ℝ} {K' : (Fin n → ℝ) × ℝ → (Fin n → ℝ) →L[ℝ] ℝ} (hK : Continuous K) (hK' : Continuous K')
    (hd : ∀ y s, HasFDerivAt (fun y => K (y, s)) (K' (y, s)) y) :
    Differentiable ℝ fun q : (Fin n → ℝ) × ℝ => ∫ s in (0 : ℝ)..q.2, K (q.1, s) := by
  intro q0
  have h1 : ∀ v : (Fin n → ℝ) × ℝ, HasFDerivAt (fun y => ∫ s in (0 : ℝ)..v.2, K (y, s)) (∫ s in (0 : ℝ)..v.2, K' (v.1, s)) v.1 := by
    intro v
    obtain ⟨M, hM⟩ := ((isCompact_closedBall v.1 1).prod (isCompact_uIcc (a := (0 : ℝ)) (b := v.2))).exists_bound_of_continuousOn hK'.continuousOn
    refine intervalIntegral.hasFDerivAt_integral_of_dominated_of_fderiv_le (s := Metric.ball v.1 1) (bound := fun _ => M)
      (F' := fun y s => K' (y, s))
      (Metric.ball_mem_nhds v.1 one_pos) (Filter.Eventually.of_forall fun y => (hK.comp (continuous_const.prodMk continuous_id)).aestronglyMeasurable)
      ((hK.comp (continuous_const.prodMk continuous_id)).intervalIntegrable _ _)
      (hK'.comp (f := fun t => (v.1, t)) (continuous_const.prodMk continuous_id)).aestronglyMeasurable
      (Filter.Eventually.of_forall fun t ht y hy => ?_) (by simp) (Filter.Eventually.of_forall fun t _ y _ => hd y t)
    exact hM (y, t) ⟨Metric.ball_subset_closedBall hy, Set.uIoc_subset_uIcc ht⟩
  have h2 : ∀ v : (Fin n → ℝ) × ℝ, HasFDerivAt (fun u => ∫ s in (0 : ℝ)..u, K (v.1, s)) (ContinuousLinearMap.toSpanSingleton ℝ (K v)) v.2 := by
    intro v
    have hc : Continuous fun s => K (v.1, s) := hK.comp (continuous_const.prodMk continuous_id)
    exact (hc.integral_hasStrictDerivAt 0 v.2).hasDerivAt.hasFDerivAt
  have := hasStrictFDerivAt_uncurry_coprod (u := q0) (f := fun y u => ∫ s in (0 : ℝ)..u, K (y, s))
    (f₁ := fun y u => ∫ s in (0 : ℝ)..u, K' (y, s)) (f₂ := fun y u => ContinuousLinearMap.toSpanSingleton ℝ (K (y, u)))
    (Filter.Eventually.of_forall h1) (Filter.Eventually.of_forall h2)
    (intervalIntegral.continuous_parametric_intervalIntegral_of_continuous (X := (Fin n → ℝ) × ℝ) (f := fun q s => K' (q.1, s))
      (hK'.comp ((continuous_fst.comp continuous_fst).prodMk continuous_snd)) continuous_snd).continuousAt
    (by
      have : Continuous fun q : (Fin n → ℝ) × ℝ => ContinuousLinearMap.toSpanSingleton ℝ (K q) :=
        (ContinuousLinearMap.toSpanSingletonCLE (𝕜 := ℝ) (E := ℝ)).continuous.comp hK
      exact this.continuousAt)
  exact this.hasFDerivAt.differentiableAt

theorem extend_contDiff {lb ub : Option ℝ} (h : Ordered lb ub) {f : ℝ → ℝ} (hf : ContDiff ℝ 1 f) : ContDiff ℝ 1 (extend lb ub f) := by
  rw [contDiff_iff_contDiffAt]
  intro y
  obtain ⟨l, u, hlt, hnear, -⟩ := finite_bounds h y
  refine ContDiffAt.congr_of_eventuallyEq ?_ (extend_eventually hnear f)
  refine ContDiff.contDiffAt (contDiff_one_iff_deriv.2 ⟨fun x => (Linearized.linearize_hasDerivAt hlt (hf.differentiable (by norm_num)) x).differentiableAt, ?_⟩)
  rw [Linearized.linearize_deriv hlt (hf.differentiable (by norm_num))]
  refine (hf.continuous_deriv (by norm_num)).comp ?_
  have : Linearized.clamp l u = fun x => max l (min u x) := by
    funext x
    rw [Linearized.clamp]
    split
    · rw [max_eq_left (le_trans (min_le_right _ _) (le_of_lt ‹_›))]
    · split
      · rw [min_eq_left (le_of_lt ‹_›), max_eq_right hlt.le]
      · rw [min_eq_right (not_lt.1 ‹_›), max_eq_right (not_lt.1 ‹_›)]
  rw [this]
  exact continuous_const.max (continuous_const.min continuous_id)

theorem expandAt_last (b : Basis ℝ) (E : Nat) (ts : List (List Nat)) (cs : List ℝ) (X : Nat → ℝ) (s : ℝ) :
    expandAt b (E + 1) ts cs (Function.update X E s) = ∑ k ∈ range ts.length, cs.getD k 0
      * (∏ d ∈ range E, b.val ((ts.getD k []).getD d 0) (X d)) * b.val ((ts.getD k []).getD E 0) s := by
  unfold expandAt expansion termProd
  refine sum_congr rfl fun k _ => ?_
  rw [prod_range_succ]
  simp only [Function.update_self]
  rw [prod_congr rfl fun d hd => by rw [Function.update_of_ne (mem_range.1 hd).ne], mul_assoc]

section
variable {b : Basis ℝ} {g : ℝ → ℝ} {lead : List ℝ} {n : Nat}

theorem coords_tail (y : Fin n → ℝ) (i : Fin n) : coords (lead ++ List.ofFn y) (lead.length + i) = y i := colVec_append lead y i

theorem coords_contDiff (k : WithTop ℕ∞) (d : Nat) : ContDiff ℝ k fun y : Fin n → ℝ => coords (lead ++ List.ofFn y) d := by
  by_cases h : d < lead.length
  · have : (fun y : Fin n → ℝ => coords (lead ++ List.ofFn y) d) = fun _ => lead.getD d 0 := by
      funext y; simp [coords, List.getElem?_append_left h]
    rw [this]; exact contDiff_const
  · by_cases h2 : d - lead.length < n
    · have : (fun y : Fin n → ℝ => coords (lead ++ List.ofFn y) d) = fun y => y ⟨d - lead.length, h2⟩ := by
        funext y
        have := coords_tail (lead := lead) y ⟨d - lead.length, h2⟩
        rwa [show lead.length + (d - lead.length) = d by omega] at this
      rw [this]; exact contDiff_apply ℝ ℝ _
    · have : (fun y : Fin n → ℝ => coords (lead ++ List.ofFn y) d) = fun _ => 0 := by
        funext y; simp [coords, List.getElem?_eq_none (show (lead ++ List.ofFn y).length ≤ d by simp; omega)]
      rw [this]; exact contDiff_const

theorem entry_le {p : Nat} {ts : List (List Nat)} (hp : ∀ t ∈ ts, ∀ m ∈ t, m ≤ p) {k : Nat} (hk : k < ts.length) (d : Nat) :
    (ts.getD k []).getD d 0 ≤ p := by
  have h1 : ts.getD k [] ∈ ts := by simp [List.getD_eq_getElem?_getD, hk]
  by_cases hd : d < (ts.getD k []).length
  · refine hp _ h1 _ ?_
    generalize ts.getD k [] = t at hd ⊢
    rw [List.getD_eq_getElem?_getD, List.getElem?_eq_getElem hd]
    exact List.getElem_mem hd
  · generalize ts.getD k [] = t at hd ⊢
    rw [List.getD_eq_getElem?_getD, List.getElem?_eq_none (by omega)]
    exact Nat.zero_le _

variable {p : Nat} (hb : ∀ m ≤ p, ContDiff ℝ 1 (b.val m)) {ts : List (List Nat)} (hp : ∀ t ∈ ts, ∀ m ∈ t, m ≤ p) (D E : Nat) (cs : List ℝ)
include hb hp

theorem expandAt_contDiff : ContDiff ℝ 1 fun y : Fin n → ℝ => expandAt b D ts cs (Function.update (coords (lead ++ List.ofFn y)) (D - 1) 0) := by
  have hfac : ∀ k ∈ range ts.length, ∀ d, ContDiff ℝ 1 fun y : Fin n → ℝ =>
      b.val ((ts.getD k []).getD d 0) (Function.update (coords (lead ++ List.ofFn y)) (D - 1) 0 d) := ?_
  · unfold expandAt expansion termProd
    exact ContDiff.sum fun k hk => contDiff_const.mul (contDiff_prod fun d _ => hfac k hk d)
  intro k hk d
  refine (hb _ (entry_le hp (mem_range.1 hk) d)).comp ?_
  by_cases h : d = D - 1
  · subst h
    simp only [Function.update_self]
    exact contDiff_const
  · simp only [Function.update_of_ne h]
    exact coords_contDiff 1 d

theorem diagD_last (X : Nat → ℝ) (s : ℝ) :
    diagD b (E + 1) ts cs (Function.update X E s) = ∑ k ∈ range ts.length, cs.getD k 0
      * (∏ d ∈ range E, b.val ((ts.getD k []).getD d 0) (X d)) * deriv (b.val ((ts.getD k []).getD E 0)) s := by
  rw [diagD, partialDeriv]
  simp only [Nat.add_sub_cancel, Function.update_idem, Function.update_self, expandAt_last]
  refine (HasDerivAt.fun_sum fun k hk => ?_).deriv
  exact ((hb _ (entry_le hp (mem_range.1 hk) E)).differentiable (by norm_num) s).hasDerivAt.const_mul _

theorem density_partial (hg : ContDiff ℝ 1 g) :
    Continuous (fun q : (Fin n → ℝ) × ℝ => density b g 0 (E + 1) ts cs (coords (lead ++ List.ofFn q.1)) q.2) ∧
    ∃ K' : (Fin n → ℝ) × ℝ → (Fin n → ℝ) →L[ℝ] ℝ, Continuous K' ∧
      ∀ y s, HasFDerivAt (fun y => density b g 0 (E + 1) ts cs (coords (lead ++ List.ofFn y)) s) (K' (y, s)) y := by
  have hA : ∀ k ∈ range ts.length, ContDiff ℝ 1 fun y : Fin n → ℝ => cs.getD k 0
      * ∏ d ∈ range E, b.val ((ts.getD k []).getD d 0) (coords (lead ++ List.ofFn y) d) := fun k hk =>
    contDiff_const.mul (contDiff_prod fun d _ => (hb _ (entry_le hp (mem_range.1 hk) d)).comp (coords_contDiff 1 d))
  have he : ∀ k ∈ range ts.length, Continuous (deriv (b.val ((ts.getD k []).getD E 0))) := fun k hk =>
    (hb _ (entry_le hp (mem_range.1 hk) E)).continuous_deriv (by norm_num)
  have hL : Continuous fun q : (Fin n → ℝ) × ℝ => ∑ k ∈ range ts.length, cs.getD k 0
      * (∏ d ∈ range E, b.val ((ts.getD k []).getD d 0) (coords (lead ++ List.ofFn q.1) d)) * deriv (b.val ((ts.getD k []).getD E 0)) q.2 :=
    continuous_finsetSum _ fun k hk => ((hA k hk).continuous.comp continuous_fst).mul ((he k hk).comp continuous_snd)
  simp only [density, Nat.add_sub_cancel, diagD_last hb hp, add_zero]
  refine ⟨hg.continuous.comp hL, fun q => deriv g (∑ k ∈ range ts.length, cs.getD k 0
      * (∏ d ∈ range E, b.val ((ts.getD k []).getD d 0) (coords (lead ++ List.ofFn q.1) d)) * deriv (b.val ((ts.getD k []).getD E 0)) q.2)
      • ∑ k ∈ range ts.length, deriv (b.val ((ts.getD k []).getD E 0)) q.2 • fderiv ℝ (fun y : Fin n → ℝ => cs.getD k 0
      * ∏ d ∈ range E, b.val ((ts.getD k []).getD d 0) (coords (lead ++ List.ofFn y) d)) q.1, ?_, fun y s => ?_⟩
  · refine Continuous.smul ((hg.continuous_deriv (by norm_num)).comp hL) (continuous_finsetSum _ fun k hk => ?_)
    exact ((he k hk).comp continuous_snd).smul (((hA k hk).continuous_fderiv (by norm_num)).comp continuous_fst)
  · refine ((hg.differentiable (by norm_num) _).hasDerivAt).comp_hasFDerivAt y (HasFDerivAt.fun_sum fun k hk => ?_)
    exact (((hA k hk).differentiable (by norm_num) y).hasFDerivAt).mul_const _

end
/-! ### Derivative of the exact triangular map -/

theorem expandAt_agree {b : Basis ℝ} {D : Nat} {ts : List (List Nat)} {cs : List ℝ} {x x' : Nat → ℝ} (h : ∀ d < D, x d = x' d) :
    expandAt b D ts cs x = expandAt b D ts cs x' := by
  unfold expandAt expansion termProd
  refine sum_congr rfl fun k _ => ?_
  congr 1
  exact prod_congr rfl fun d hd => by simp only [h d (mem_range.1 hd)]

theorem update_agree {D e : Nat} {x x' : Nat → ℝ} (h : ∀ d < D, x d = x' d) (s : ℝ) :
    ∀ d < D, Function.update x e s d = Function.update x' e s d := fun d hd => by
  by_cases he : d = e
  · subst he; simp
  · rw [Function.update_of_ne he, Function.update_of_ne he, h d hd]

theorem diagD_agree {b : Basis ℝ} {D : Nat} {ts : List (List Nat)} {cs : List ℝ} {x x' : Nat → ℝ} (hD : 0 < D) (h : ∀ d < D, x d = x' d) :
    diagD b D ts cs x = diagD b D ts cs x' := by
  rw [diagD, diagD, partialDeriv, partialDeriv, h (D - 1) (by omega)]
  congr 1
  funext s
  exact expandAt_agree (update_agree h s)

theorem unitDensity_agree {b : Basis ℝ} {g : ℝ → ℝ} {ν : ℝ} {D : Nat} {ts : List (List Nat)} {cs : List ℝ} {x x' : Nat → ℝ} (hD : 0 < D)
    (h : ∀ d < D, x d = x' d) : unitDensity b g ν D ts cs x = unitDensity b g ν D ts cs x' := by
  funext t
  rw [unitDensity, unitDensity, density, density, h (D - 1) (by omega), diagD_agree hD (update_agree h _)]

theorem offset_agree {b : Basis ℝ} {D : Nat} {ts : List (List Nat)} {cs : List ℝ} {x x' : Nat → ℝ} (h : ∀ d < D, x d = x' d) :
    offset b D ts cs x = offset b D ts cs x' := expandAt_agree (update_agree h 0)

theorem monotone_agree {b : Basis ℝ} {g : ℝ → ℝ} {ν : ℝ} {D : Nat} {ts : List (List Nat)} {cs : List ℝ} {x x' : Nat → ℝ} (hD : 0 < D)
    (h : ∀ d < D, x d = x' d) : monotone b g ν D ts cs x = monotone b g ν D ts cs x' := by
  rw [monotone, monotone, offset_agree h, h (D - 1) (by omega)]
  congr 1
  refine intervalIntegral.integral_congr fun s _ => ?_
  simp only [density, diagD_agree hD (update_agree h s)]

theorem monotone_eq_unit (b : Basis ℝ) (g : ℝ → ℝ) (ν : ℝ) (D : Nat) (ts : List (List Nat)) (cs : List ℝ) (x : Nat → ℝ) :
    monotone b g ν D ts cs x = offset b D ts cs x + ∫ t in (0 : ℝ)..1, unitDensity b g ν D ts cs x t := by
  rw [monotone]
  congr 1
  simp only [unitDensity]
  rw [intervalIntegral.integral_const_mul, intervalIntegral.mul_integral_comp_mul_right, zero_mul, one_mul]

section
variable {b : Basis ℝ} {g : ℝ → ℝ} {lead : List ℝ} {n : Nat} {p : Nat} (hb : ∀ m ≤ p, ContDiff ℝ 1 (b.val m)) {ts : Fin n → List (List Nat)}
  (hp : ∀ i, ∀ t ∈ ts i, ∀ m ∈ t, m ≤ p) (cs : Fin n → List ℝ) (hg : ContDiff ℝ 1 g)
include hb hp hg

theorem exact_differentiable : Differentiable ℝ (exactTriangular b g lead ts cs) := by
  rw [differentiable_pi]
  intro i
  simp only [exactTriangular, monotone]
  refine Differentiable.add ((expandAt_contDiff hb (hp i) _ (cs i)).differentiable (by norm_num)) ?_
  obtain ⟨hK, K', hK', hd⟩ := density_partial (lead := lead) hb (hp i) (lead.length + i) (cs i) hg
  have h1 : Differentiable ℝ fun y : Fin n → ℝ => (y, coords (lead ++ List.ofFn y) (lead.length + i)) :=
    differentiable_id.prodMk ((coords_contDiff 1 _).differentiable (by norm_num))
  exact (primitive_differentiable hK hK' hd).comp h1

omit hb hp hg in
theorem coords_update (y : Fin n → ℝ) (j : Fin n) (t : ℝ) :
    coords (lead ++ List.ofFn (Function.update y j t)) = Function.update (coords (lead ++ List.ofFn y)) (lead.length + j) t := by
  have e : lead ++ (List.ofFn y).set j t = (lead ++ List.ofFn y).set (lead.length + j) t := by
    rw [List.set_append_right _ _ (by omega : lead.length ≤ lead.length + j), Nat.add_sub_cancel_left]
  rw [← ofFn_set, e, coords_set (by simp)]

/-- The diagonal entries of the Jacobian. -/
theorem exact_diag (y : Fin n → ℝ) (i : Fin n) : HasDerivAt (fun t => exactTriangular b g lead ts cs (Function.update y i t) i)
    (g (diagD b (lead.length + i + 1) (ts i) (cs i) (coords (lead ++ List.ofFn y)))) (y i) := by
  have hc : Continuous fun s => density b g 0 (lead.length + i + 1) (ts i) (cs i) (coords (lead ++ List.ofFn y)) s := by
    exact (density_partial (lead := lead) hb (hp i) (lead.length + i) (cs i) hg).1.comp (f := fun s : ℝ => (y, s))
      (continuous_const.prodMk continuous_id)
  have h := (hc.integral_hasStrictDerivAt 0 (y i)).hasDerivAt
  have e : (fun t => exactTriangular b g lead ts cs (Function.update y i t) i)
      = fun t => offset b (lead.length + i + 1) (ts i) (cs i) (coords (lead ++ List.ofFn y))
        + ∫ s in (0 : ℝ)..t, density b g 0 (lead.length + i + 1) (ts i) (cs i) (coords (lead ++ List.ofFn y)) s := by
    funext t
    rw [exactTriangular, monotone, offset, offset, coords_update]
    simp only [Nat.add_sub_cancel, Function.update_idem, Function.update_self, density]
  rw [e]
  refine (h.const_add _).congr_deriv ?_
  rw [density, add_zero, Nat.add_sub_cancel, ← coords_update, Function.update_eq_self]

omit hb hp hg in
theorem exact_below (y : Fin n → ℝ) {i j : Fin n} (hij : i < j) (t : ℝ) :
    exactTriangular b g lead ts cs (Function.update y j t) i = exactTriangular b g lead ts cs y i := by
  rw [exactTriangular, exactTriangular, coords_update]
  refine monotone_agree (by omega) fun d hd => Function.update_of_ne ?_ _ _
  have : (i : Nat) < j := hij
  omega

theorem exact_det (y : Fin n → ℝ) : (fderiv ℝ (exactTriangular b g lead ts cs) y).det
    = ∏ i : Fin n, g (diagD b (lead.length + i + 1) (ts i) (cs i) (coords (lead ++ List.ofFn y))) := by
  have hF := (exact_differentiable (lead := lead) hb hp cs hg y).hasFDerivAt
  set F' := fderiv ℝ (exactTriangular b g lead ts cs) y
  have hcol : ∀ i j : Fin n, HasDerivAt (fun t => exactTriangular b g lead ts cs (Function.update y j t) i) (F' (Pi.single j 1) i) (y j) := by
    intro i j
    have h1 : HasDerivAt (fun t => Function.update y j t) (Pi.single j 1) (y j) := by
      rw [hasDerivAt_pi]
      intro k
      by_cases hk : k = j
      · subst hk
        simpa using hasDerivAt_id' (y k)
      · simpa [Function.update_of_ne hk, Pi.single_eq_of_ne hk] using hasDerivAt_const (y j) (y k)
    have h2 := HasFDerivAt.comp_hasDerivAt_of_eq (y j) hF h1 (by simp)
    exact (hasDerivAt_pi.1 h2) i
  change LinearMap.det (F' : (Fin n → ℝ) →ₗ[ℝ] (Fin n → ℝ)) = _
  rw [← LinearMap.det_toMatrix', Matrix.det_of_isLowerTriangular]
  · refine prod_congr rfl fun i _ => ?_
    rw [LinearMap.toMatrix'_apply]
    have := (hcol i i).unique (exact_diag hb hp cs hg y i)
    rw [← this]
    congr 1
  · intro i j hij
    rw [LinearMap.toMatrix'_apply]
    have h0 : HasDerivAt (fun t => exactTriangular b g lead ts cs (Function.update y j t) i) 0 (y j) := by
      simp only [exact_below cs y (show i < j from hij)]
      exact hasDerivAt_const _ _
    have := (hcol i j).unique h0
    rw [← this]
    congr 1

/-- Strictly increasing in the last input of each component, hence one-to-one. -/
theorem exact_injective (hpos : ∀ v, 0 < g v) : Function.Injective (exactTriangular b g lead ts cs) := by
  intro y y' h
  have key : ∀ k, ∀ i : Fin n, (i : Nat) < k → y i = y' i := by
    intro k
    induction k with
    | zero => intro i hi; omega
    | succ k ih =>
      intro i hi
      rcases Nat.lt_succ_iff_lt_or_eq.1 hi with hi | hi
      · exact ih i hi
      have hmono : StrictMono fun t => exactTriangular b g lead ts cs (Function.update y i t) i := by
        refine strictMono_of_deriv_pos fun t => ?_
        have := exact_diag (lead := lead) hb hp cs hg (Function.update y i t) i
        simp only [Function.update_idem, Function.update_self] at this
        rw [this.deriv]
        exact hpos _
      refine hmono.injective ?_
      simp only [Function.update_eq_self]
      rw [h, exactTriangular, exactTriangular]
      refine monotone_agree (by omega) fun d hd => ?_
      by_cases hd1 : d < lead.length
      · simp [coords, List.getElem?_append_left hd1]
      · obtain ⟨j, rfl⟩ : ∃ j, d = lead.length + j := ⟨d - lead.length, by omega⟩
        have hj : j < n := by omega
        have e1 := coords_tail (lead := lead) y' ⟨j, hj⟩
        have e2 := coords_tail (lead := lead) (Function.update y i (y' i)) ⟨j, hj⟩
        simp only at e1 e2
        rw [e1, e2]
        by_cases hji : (⟨j, hj⟩ : Fin n) = i
        · rw [hji, Function.update_self]
        · rw [Function.update_of_ne hji]
          exact (ih ⟨j, hj⟩ (by have := Fin.val_ne_of_ne hji; simp only at this ⊢; omega)).symm
  exact funext fun i => key n i i.isLt

/-- Change of variables for the exact triangular map. -/
theorem exact_mass (hpos : ∀ v, 0 < g v) {B : Set (Fin n → ℝ)} (hB : MeasurableSet B) (ρ : (Fin n → ℝ) → ℝ) :
    lawOf (fun y => (∏ i : Fin n, g (diagD b (lead.length + i + 1) (ts i) (cs i) (coords (lead ++ List.ofFn y)))) * ρ (exactTriangular b g lead ts cs y)) B
      = lawOf ρ (exactTriangular b g lead ts cs '' B) := by
  have hd := exact_differentiable (lead := lead) hb hp cs hg
  have hi := exact_injective (lead := lead) hb hp cs hg hpos
  rw [lawOf, lawOf, withDensity_apply _ hB, withDensity_apply _ ((hd.continuous.measurableEmbedding hi).measurableSet_image.2 hB),
    lintegral_image_eq_lintegral_abs_det_fderiv_mul volume hB (fun y _ => (hd y).hasFDerivAt.hasFDerivWithinAt) hi.injOn]
  refine lintegral_congr fun y => ?_
  rw [exact_det hb hp cs hg, abs_of_pos (prod_pos fun i _ => hpos _), ENNReal.ofReal_mul (prod_pos fun i _ => hpos _).le]

end
/-! ### The map built by the factory -/

/-- Degree up to which the chosen quadrature integrates polynomials exactly over `[0,1]`. -/
def Spec.quadDegree (o : MapOptions) : Nat := match o.quadType with
  | .clenshawCurtis => o.quadPts - 1
  | .adaptiveSimpson => 3
  | .adaptiveClenshawCurtis => 2 * 2 ^ Nat.log 2 (o.quadPts - 2)

/-- The coefficients of the components, one list after the other, are those of the map. -/
def Spec.Slices {n : Nat} (ts : Fin n → List (List Nat)) (cs : Fin n → List ℝ) (c : List ℝ) : Prop :=
  (List.ofFn cs).flatten = c ∧ ∀ i, (cs i).length = (ts i).length

theorem rawFamily_contDiff (t : BasisType) (n : Nat) (k : WithTop ℕ∞) : ContDiff ℝ k (rawFamily t n) := by
  have hHe : ∀ n, ContDiff ℝ k (He n) := fun n => by
    have : He n = fun x => (Hermite.hR n).eval x := funext fun x => Hermite.He_eq n x
    rw [this]
    simp only [Polynomial.eval_eq_sum_range]
    exact ContDiff.sum fun i _ => contDiff_const.mul (contDiff_id.pow i)
  have hHp : ∀ n, ContDiff ℝ k (Hp n) := fun n =>
    contDiff_const.mul ((hHe n).comp (contDiff_const.mul contDiff_id))
  cases t with
  | probabilistHermite => exact hHe n
  | physicistHermite => exact hHp n
  | hermiteFunctions =>
    match n with
    | 0 => exact contDiff_const
    | 1 => exact contDiff_id
    | n + 2 =>
      have : ContDiff ℝ k fun x : ℝ => Real.exp (-x ^ 2 / 2) := ((contDiff_id.pow 2).neg.div_const 2).exp
      exact (this.mul (hHp n)).div_const _

theorem isBasis_contDiff {o : MapOptions} {p : Nat} {b : Basis ℝ} (h : IsBasisOf o (fun n => n ≤ p) b)
    (ho : Ordered o.basisLB o.basisUB) (m : Nat) (hm : m ≤ p) : ContDiff ℝ 1 (b.eff.val m) := by
  obtain ⟨a, -, -, -, h⟩ := h
  by_cases h0 : m = 0
  · subst h0; simp only [Basis.eff, if_true]; exact contDiff_const
  · have : b.eff.val m = extend o.basisLB o.basisUB fun x => rawFamily o.basisType m x / a m := by
      funext x; simp only [Basis.eff, if_neg h0, h m hm]
    rw [this]; exact extend_contDiff ho ((rawFamily_contDiff _ _ _).div_const _)

theorem positive_contDiff (t : PosFuncType) (k : WithTop ℕ∞) : ContDiff ℝ k (positive t) := by
  cases t with
  | exp => exact Real.contDiff_exp
  | softPlus => exact (contDiff_const.add Real.contDiff_exp).log fun x => by positivity

theorem positive_pos' (t : PosFuncType) (v : ℝ) : 0 < positive t v := by
  cases t with
  | exp => exact Real.exp_pos v
  | softPlus => exact Real.log_pos (by linarith [Real.exp_pos v])

theorem mesh_near {o : MapOptions} {mesh : (ℝ → ℝ) → List (ℝ × ℝ)} (hm : IsMeshOf o mesh) {k : ℝ → ℝ} (hk : Continuous k) {ε : ℝ}
    (hn : PolyNear (quadDegree o + 1) k ε) (h : ℝ → ℝ) : |((mesh h).map fun q => q.2 * k q.1).sum - ∫ t in (0 : ℝ)..1, k t| ≤ ε := by
  obtain ⟨⟨hi, -⟩, hm⟩ := hm
  have hex : ExactTo (quadDegree o) mesh := by
    rw [quadDegree]
    cases hq : o.quadType <;> simp only [hq] at hm ⊢
    · exact hm.2
    · exact hm
    · exact hm
  obtain ⟨P, hP, he⟩ := hn
  have hR : PosRule (mesh h) 0 1 := ⟨fun q hq => ⟨((hi h).1 q hq).1, ((hi h).1 q hq).2.1⟩, fun q hq => ((hi h).1 q hq).2.2, by
    have := hex h 1 (by simp)
    simpa using this⟩
  have := rule_error hR zero_le_one hk P.continuous (hex h P (by omega)) he
  linarith

theorem coords_take_lt (x : List ℝ) {D d : Nat} (h : d < D) : coords (x.take D) d = coords x d := by
  simp [coords, h]

theorem discretised_agree {b : Basis ℝ} {g : ℝ → ℝ} {ν : ℝ} {D : Nat} {ts : List (List Nat)} {cs : List ℝ} {x x' : Nat → ℝ} (hD : 0 < D)
    (h : ∀ d < D, x d = x' d) (R : List (ℝ × ℝ)) : discretised b g ν D ts cs x R = discretised b g ν D ts cs x' R := by
  rw [discretised, discretised, offset_agree h, unitDensity_agree hD h]

theorem stacked_slices {o : MapOptions} {b : Basis ℝ} {mesh : (ℝ → ℝ) → List (ℝ × ℝ)} : ∀ (comps : List CMap) (D0 : Nat)
    (ts : Nat → List (List Nat)), (∀ i m, comps[i]? = some m → IsComponent o b mesh (D0 + i + 1) (ts i) m) → ∀ c : List ℝ,
    c.length = (comps.map CMap.numCoeffs).sum → ∃ cs : Nat → List ℝ, ((List.range comps.length).map cs).flatten = c ∧
      (∀ i < comps.length, (cs i).length = (ts i).length) ∧ ∀ x : List ℝ, D0 + comps.length ≤ x.length →
      stacked comps c x = (List.range comps.length).map (fun i => discretised b.eff (positive o.posFuncType) 0 (D0 + i + 1) (ts i) (cs i) (coords x)
        (mesh (unitDensity b.eff (positive o.posFuncType) 0 (D0 + i + 1) (ts i) (cs i) (coords x)))) ∧
      (o.contDeriv = true → stackedLogDet comps c x
        = ∑ i ∈ range comps.length, Real.log (positive o.posFuncType (diagD b.eff (D0 + i + 1) (ts i) (cs i) (coords x)))) := by
  intro comps
  induction comps with
  | nil =>
    intro D0 ts _ c hc
    exact ⟨fun _ => [], by simpa using (List.length_eq_zero_iff.1 (by simpa using hc)).symm, by simp, fun x _ => ⟨rfl, fun _ => rfl⟩⟩
  | cons m ms ih =>
    intro D0 ts h c hc
    have hm := h 0 m rfl
    simp only [List.map_cons, List.sum_cons] at hc
    obtain ⟨cs, c1, c2, c3⟩ := ih (D0 + 1) (fun i => ts (i + 1)) (fun i m' h' => by
      rw [show D0 + 1 + i + 1 = D0 + (i + 1) + 1 by omega]; exact h (i + 1) m' (by simpa using h')) (c.drop m.numCoeffs) (by simp; omega)
    refine ⟨fun i => Nat.casesOn i (c.take m.numCoeffs) cs, ?_, ?_, fun x hx => ?_⟩
    · rw [List.length_cons, List.range_succ_eq_map]
      simp only [List.map_cons, List.map_map, List.flatten_cons, Function.comp_def]
      rw [c1]
      exact List.take_append_drop _ _
    · intro i hi
      cases i with
      | zero =>
        change (c.take m.numCoeffs).length = _
        rw [← hm.coeffs, List.length_take]; omega
      | succ i => exact c2 i (by simpa using hi)
    · simp only [List.length_cons] at hx
      obtain ⟨d1, d2⟩ := c3 x (by omega)
      have hf : Fits m (c.take m.numCoeffs) (x.take m.inputDim) := ⟨by simp; omega, by simp [hm.inputs]; omega⟩
      have hagree : ∀ d < D0 + 0 + 1, coords (x.take m.inputDim) d = coords x d := fun d hd => by
        rw [hm.inputs]; exact coords_take_lt x hd
      constructor
      · rw [stacked, d1, hm.value _ _ hf, discretised_agree (by omega) hagree, unitDensity_agree (by omega) hagree, List.length_cons,
          List.range_succ_eq_map]
        simp only [List.map_cons, List.map_map, Function.comp_def, List.singleton_append]
        congr 1
        refine List.map_congr_left fun i _ => ?_
        rw [show D0 + 1 + i + 1 = D0 + (i + 1) + 1 by omega]
      · intro hcd
        rw [stackedLogDet, d2 hcd, hm.logDet hcd _ _ hf, diagD_agree (by omega) hagree, List.length_cons, Finset.sum_range_succ', add_comm]
        congr 1
        refine Finset.sum_congr rfl fun i _ => ?_
        rw [show D0 + 1 + i + 1 = D0 + (i + 1) + 1 by omega]

theorem totalOrder_unique {n p : Nat} {ts ts' : List (List Nat)} (h : IsTotalOrder n p ts) (h' : IsTotalOrder n p ts') : ts = ts' := by
  have hn : ∀ {l : List (List Nat)}, l.Pairwise (· < ·) → l.Nodup := fun h => h.imp fun hab => ne_of_lt hab
  have hp : ts.Perm ts' := (List.perm_ext_iff_of_nodup (hn h.1) (hn h'.1)).2 fun v => (h.2 v).trans (h'.2 v).symm
  exact hp.eq_of_pairwise (fun a b _ _ h1 h2 => absurd (h1.trans h2) (lt_irrefl _)) h.1 h'.1

/-- **C111.** What `Evaluate` and pulled-back densities of a map built by `CreateTriangular` have to do with the exact triangular map with the same basis,
multi-indices and coefficients. -/
structure Spec.Approximates (o : MapOptions) (b : Basis ℝ) {n : Nat} (lead : List ℝ) (ts : Fin n → List (List Nat)) (cs : Fin n → List ℝ)
    (T : CMap) (c : List ℝ) : Prop where
  /-- The exact map is differentiable and one-to-one. -/
  differentiable : Differentiable ℝ (exactTriangular b.eff (positive o.posFuncType) lead ts cs)
  injective : Function.Injective (exactTriangular b.eff (positive o.posFuncType) lead ts cs)
  /-- `Evaluate` returns normally with `n` numbers, whatever the buffer contained. -/
  outputs : ∀ y : Fin n → ℝ, (fn T c (lead ++ List.ofFn y)).length = n
  evaluates : ∀ (y : Fin n → ℝ) (out : List ℝ), out.length = n → T.eval c (lead ++ List.ofFn y) out = .ok (fn T c (lead ++ List.ofFn y))
  /-- Every output is within `ε` of the exact one when the integrand is within `ε/2` of a polynomial of the degree of the rule. -/
  values : ∀ (y : Fin n → ℝ) (i : Fin n) (ε : ℝ),
    PolyNear (quadDegree o + 1) (unitDensity b.eff (positive o.posFuncType) 0 (lead.length + i + 1) (ts i) (cs i) (coords (lead ++ List.ofFn y))) ε →
    |(fn T c (lead ++ List.ofFn y)).getD i 0 - exactTriangular b.eff (positive o.posFuncType) lead ts cs y i| ≤ ε
  /-- The correction in a pulled-back density is the determinant of the Jacobian of the exact map. -/
  density : o.contDeriv = true → ∀ (d P : Density), HasDensity d → Pullback.new T d c = .ok P → ∀ (y : Fin n → ℝ) (out : Option ℝ),
    0 < (fderiv ℝ (exactTriangular b.eff (positive o.posFuncType) lead ts cs) y).det ∧
    P.logDensity (lead ++ List.ofFn y) out = .ok (some (logp d (fn T c (lead ++ List.ofFn y))
      + Real.log (fderiv ℝ (exactTriangular b.eff (positive o.posFuncType) lead ts cs) y).det))
  /-- The mass a pulled-back density gives to a set is the mass of its image under the exact map, up to the change in the reference density. -/
  mass : o.contDeriv = true → ∀ (d P : Density), HasDensity d → Pullback.new T d c = .ok P → ∀ (B : Set (Fin n → ℝ)) (δ : ℝ), MeasurableSet B →
    (∀ y ∈ B, |logp d (fn T c (lead ++ List.ofFn y)) - logp d (List.ofFn (exactTriangular b.eff (positive o.posFuncType) lead ts cs y))| ≤ δ) →
    ENNReal.ofReal (Real.exp (-δ)) * lawOf (densityOn d [] n) (exactTriangular b.eff (positive o.posFuncType) lead ts cs '' B)
        ≤ lawOf (densityOn P lead n) B ∧
      lawOf (densityOn P lead n) B
        ≤ ENNReal.ofReal (Real.exp δ) * lawOf (densityOn d [] n) (exactTriangular b.eff (positive o.posFuncType) lead ts cs '' B)

theorem lawOf_le {n : Nat} {f h : (Fin n → ℝ) → ℝ} {B : Set (Fin n → ℝ)} (hB : MeasurableSet B) {k : ℝ} (hk : 0 ≤ k)
    (hfh : ∀ y ∈ B, f y ≤ k * h y) : lawOf f B ≤ ENNReal.ofReal k * lawOf h B := by
  rw [lawOf, lawOf, withDensity_apply _ hB, withDensity_apply _ hB, ← lintegral_const_mul' _ _ ENNReal.ofReal_ne_top]
  refine setLIntegral_mono' hB fun y hy => ?_
  rw [← ENNReal.ofReal_mul hk]
  exact ENNReal.ofReal_le_ofReal (hfh y hy)

theorem approximates_of_selected {o : MapOptions} {inputDim outputDim p : Nat} {b : Basis ℝ} {quad : Nat → QProg} {mesh : (ℝ → ℝ) → List (ℝ × ℝ)}
    (hsel : Selected o p b quad mesh) (h0 : 0 < outputDim) (h1 : outputDim ≤ inputDim) (h2 : inputDim < 2 ^ 32) (hB : GoodBasis o p) :
    ∃ ts : Fin outputDim → List (List Nat),
      (∀ i : Fin outputDim, IsTotalOrder (inputDim - outputDim + i + 1) p (ts i)) ∧ ∀ mem work, ∃ T,
      createTriangular inputDim outputDim p o mem work = .ok (T, zeros T.numCoeffs) ∧ ∀ c : List ℝ, c.length = T.numCoeffs →
        ∃ cs, Slices ts cs c ∧ ∀ lead : List ℝ, lead.length = inputDim - outputDim → Approximates o b lead ts cs T c := by
  have h := fun mem work => triangular_of_selected hsel h0 h1 h2 mem work
  have hb := hsel.isBasis
  have hmesh := hsel.isMesh
  obtain ⟨T0, comps0, -, -, -, -, -, -, -, l0, i0, -⟩ := h (fun _ => none) []
  have hts : ∀ i : Fin outputDim, ∃ ts, IsTotalOrder (inputDim - outputDim + i + 1) p ts := fun i => by
    obtain ⟨ts, h, -⟩ := i0 i _ (List.getElem?_eq_getElem (by omega))
    exact ⟨ts, h⟩
  choose ts hts using hts
  refine ⟨ts, hts, fun mem work => ?_⟩
  obtain ⟨T, comps, -, -, t1, t2, t3, -, t4, t5, t6, t7, t8, t9, -⟩ := h mem work
  refine ⟨T, t1, fun c hc => ?_⟩
  let tsN : Nat → List (List Nat) := fun i => if hi : i < outputDim then ts ⟨i, hi⟩ else []
  obtain ⟨cs, c1, c2, c3⟩ := stacked_slices (o := o) (b := b) (mesh := mesh) comps (inputDim - outputDim) tsN (fun i m hm => by
    obtain ⟨ts', g1, g2⟩ := t6 i m hm
    have hi : i < outputDim := by
      have := (List.getElem?_eq_some_iff.1 hm).1; omega
    simp only [tsN, dif_pos hi]
    rwa [← totalOrder_unique g1 (hts ⟨i, hi⟩)]) c (by rw [hc, t4])
  have htsN : ∀ i : Fin outputDim, tsN i = ts i := fun i => by simp [tsN]
  refine ⟨fun i => cs i, ⟨?_, fun i => by rw [c2 i (by omega), htsN]⟩, fun lead hlead => ?_⟩
  · rw [← c1, t5]
    congr 1
    exact List.ext_getElem (by simp) fun i h1 h2 => by simp
  have hbs : ∀ m ≤ p, ContDiff ℝ 1 (b.eff.val m) := fun m hm => isBasis_contDiff hb hB.bounds m hm
  have hps : ∀ i, ∀ t ∈ ts i, ∀ m ∈ t, m ≤ p := fun i t ht m hm => by
    have := ((hts i).2 t).1 ht
    exact (List.single_le_sum (by simp) m hm).trans this.2
  have hg := positive_contDiff o.posFuncType 1
  have hpos := positive_pos' o.posFuncType
  have hfit : ∀ y : Fin outputDim → ℝ, Fits T c (lead ++ List.ofFn y) := fun y => ⟨hc, by simp [t2]; omega⟩
  have hdet : ∀ y, 0 < (fderiv ℝ (exactTriangular b.eff (positive o.posFuncType) lead ts fun i => cs i) y).det := fun y => by
    rw [exact_det hbs hps _ hg]; exact prod_pos fun i _ => hpos _
  have hdens : o.contDeriv = true → ∀ (d P : Density), HasDensity d → Pullback.new T d c = .ok P → ∀ (y : Fin outputDim → ℝ) (out : Option ℝ),
    P.logDensity (lead ++ List.ofFn y) out = .ok (some (logp d (fn T c (lead ++ List.ofFn y))
      + Real.log (fderiv ℝ (exactTriangular b.eff (positive o.posFuncType) lead ts fun i => cs i) y).det)) := by
    intro hcd d P hd hP y out
    obtain ⟨hdim, rfl⟩ := pull_new.mp hP
    refine (pull_logDensity t7 (t9 hcd).1 hd hdim (hfit y) out).trans ?_
    rw [(t9 hcd).2 _ _ (hfit y), (c3 _ (by simp; omega)).2 hcd, exact_det hbs hps _ hg, Real.log_prod fun i _ => (hpos _).ne', t5,
      Finset.sum_range]
    simp only [htsN, hlead]
  refine ⟨exact_differentiable hbs hps _ hg, exact_injective hbs hps _ hg hpos, fun y => (t7 _ _ (hfit y)).1.trans t3,
    fun y out ho => (t7 _ _ (hfit y)).2 out (by rw [t3, ho]), fun y i ε hn => ?_, fun hcd d P hd hP y out => ⟨hdet y, hdens hcd d P hd hP y out⟩,
    fun hcd d P hd hP B δ hBm hδ => ?_⟩
  · rw [t8 _ _ (hfit y), (c3 _ (by simp; omega)).1, exactTriangular, monotone_eq_unit]
    have hi : (i : Nat) < comps.length := by omega
    rw [List.getD_eq_getElem?_getD, List.getElem?_map, List.getElem?_range hi, Option.map_some, Option.getD_some, htsN, discretised, hlead,
      add_sub_add_left_eq_sub]
    rw [hlead] at hn
    refine mesh_near hmesh ?_ hn _
    have := (density_partial (lead := lead) hbs (hps i) (inputDim - outputDim + i) (cs i) hg).1.comp
      (f := fun s : ℝ => (y, s * coords (lead ++ List.ofFn y) (inputDim - outputDim + i))) (by fun_prop)
    exact continuous_const.mul this
  · have hlp : ∀ y, logp P (lead ++ List.ofFn y) = logp d (fn T c (lead ++ List.ofFn y))
        + Real.log (fderiv ℝ (exactTriangular b.eff (positive o.posFuncType) lead ts fun i => cs i) y).det := fun y => by
      rw [logp, hdens hcd d P hd hP]; rfl
    have hm := exact_mass (lead := lead) hbs hps (fun i => cs i) hg hpos hBm (densityOn d [] outputDim)
    rw [← hm]
    have hP' : ∀ y, densityOn P lead outputDim y = Real.exp (logp d (fn T c (lead ++ List.ofFn y)))
        * ∏ i : Fin outputDim, positive o.posFuncType (diagD b.eff (lead.length + i + 1) (ts i) (cs i) (coords (lead ++ List.ofFn y))) := fun y => by
      rw [densityOn, hlp, Real.exp_add, Real.exp_log (hdet y), exact_det hbs hps _ hg]
    have hpp : ∀ y : Fin outputDim → ℝ, 0 ≤ ∏ i : Fin outputDim, positive o.posFuncType (diagD b.eff (lead.length + i + 1) (ts i) (cs i) (coords (lead ++ List.ofFn y))) :=
      fun y => prod_nonneg fun i _ => (hpos _).le
    constructor
    · have := lawOf_le (k := Real.exp δ) (f := fun y => (∏ i : Fin outputDim, positive o.posFuncType (diagD b.eff (lead.length + i + 1) (ts i) (cs i)
          (coords (lead ++ List.ofFn y)))) * densityOn d [] outputDim (exactTriangular b.eff (positive o.posFuncType) lead ts (fun i => cs i) y))
        (h := densityOn P lead outputDim) hBm (Real.exp_pos δ).le fun y hy => by
          rw [hP', mul_comm, densityOn, List.nil_append, ← mul_assoc, ← Real.exp_add]
          refine mul_le_mul_of_nonneg_right (Real.exp_le_exp.2 ?_) (hpp y)
          have := (abs_le.1 (hδ y hy)).1; linarith
      calc _ ≤ ENNReal.ofReal (Real.exp (-δ)) * (ENNReal.ofReal (Real.exp δ) * lawOf (densityOn P lead outputDim) B) := by gcongr
        _ = _ := by rw [← mul_assoc, ← ENNReal.ofReal_mul (Real.exp_pos _).le, ← Real.exp_add]; simp
    · refine lawOf_le hBm (Real.exp_pos δ).le fun y hy => ?_
      rw [hP', mul_comm (∏ i, _), densityOn, List.nil_append, ← mul_assoc, ← Real.exp_add]
      refine mul_le_mul_of_nonneg_right (Real.exp_le_exp.2 ?_) (hpp y)
      have := (abs_le.1 (hδ y hy)).2; linarith

/-- **C111.** For good options, every order and all coefficients, `CreateTriangular` builds a map that approximates the
exact triangular map in this sense. -/
theorem C111_triangular {o : MapOptions} {inputDim outputDim p : Nat} (h0 : 0 < outputDim) (h1 : outputDim ≤ inputDim)
    (h2 : inputDim < 2 ^ 32) (hB : GoodBasis o p) (hQ : GoodQuad o) :
    ∃ (b : Basis ℝ) (ts : Fin outputDim → List (List Nat)), IsBasisOf o (fun n => n ≤ p) b ∧
      (∀ i : Fin outputDim, IsTotalOrder (inputDim - outputDim + i + 1) p (ts i)) ∧ ∀ mem work, ∃ T,
      createTriangular inputDim outputDim p o mem work = .ok (T, zeros T.numCoeffs) ∧ ∀ c : List ℝ, c.length = T.numCoeffs →
        ∃ cs, Slices ts cs c ∧ ∀ lead : List ℝ, lead.length = inputDim - outputDim → Approximates o b lead ts cs T c := by
  obtain ⟨b, quad, mesh, hsel⟩ := selected le_rfl hB hQ
  obtain ⟨ts, hts, h⟩ := approximates_of_selected hsel h0 h1 h2 hB
  exact ⟨b, ts, hsel.isBasis, hts, h⟩

/-- **C111.** Over the standard normal distribution: where every integrand is within `ε/2` of a polynomial of the degree of the rule and the outputs of
the exact map are at most `R` in size, the pulled-back density gives a set the mass of its image, up to the factor `exp(± n ε (R + ε/2))`, and
at most `exp(n ε (R + ε/2))`. -/
theorem C111_gaussian {o : MapOptions} {b : Basis ℝ} {n : Nat} {lead : List ℝ} {ts : Fin n → List (List Nat)} {cs : Fin n → List ℝ} {T : CMap}
    {c : List ℝ} (h : Approximates o b lead ts cs T c) (hcd : o.contDeriv = true) {P : Density}
    (hP : Pullback.new T (Gaussian.ofDim n).density c = .ok P) {B : Set (Fin n → ℝ)} (hB : MeasurableSet B) {ε R : ℝ}
    (hn : ∀ y ∈ B, ∀ i : Fin n, PolyNear (quadDegree o + 1)
      (unitDensity b.eff (positive o.posFuncType) 0 (lead.length + i + 1) (ts i) (cs i) (coords (lead ++ List.ofFn y))) ε)
    (hR : ∀ y ∈ B, ∀ i, |exactTriangular b.eff (positive o.posFuncType) lead ts cs y i| ≤ R) :
    ENNReal.ofReal (Real.exp (-(n * (ε * (R + ε / 2)))))
        * lawOf (densityOn (Gaussian.ofDim n).density [] n) (exactTriangular b.eff (positive o.posFuncType) lead ts cs '' B)
        ≤ lawOf (densityOn P lead n) B ∧
      lawOf (densityOn P lead n) B ≤ ENNReal.ofReal (Real.exp (n * (ε * (R + ε / 2))))
        * lawOf (densityOn (Gaussian.ofDim n).density [] n) (exactTriangular b.eff (positive o.posFuncType) lead ts cs '' B) ∧
      lawOf (densityOn P lead n) B ≤ ENNReal.ofReal (Real.exp (n * (ε * (R + ε / 2)))) := by
  have hd := C53_density (.dim n)
  have key := h.mass hcd _ P hd.2.1 hP B (n * (ε * (R + ε / 2))) hB fun y hy => by
    have hv := h.values y
    have hlen := h.outputs y
    generalize fn T c (lead ++ List.ofFn y) = v at hv hlen
    have hvf : v = List.ofFn fun i : Fin n => v.getD i 0 := List.ext_getElem (by simp [hlen]) fun i h1 h2 => by
      simp [List.getElem?_eq_getElem h1]
    rw [hvf, std_logp n (by simp), std_logp n (by simp), List.map_ofFn, List.map_ofFn, List.sum_ofFn, List.sum_ofFn]
    simp only [Function.comp]
    rw [sub_sub_sub_cancel_right, ← mul_sub, ← Finset.sum_sub_distrib, abs_mul]
    calc _ ≤ |-(1 / 2 : ℝ)| * ∑ i : Fin n, (2 * (ε * (R + ε / 2))) := by
          refine mul_le_mul_of_nonneg_left ((Finset.abs_sum_le_sum_abs _ _).trans (Finset.sum_le_sum fun i _ => ?_)) (abs_nonneg _)
          have h1 := hv i ε (hn y hy i)
          have h2 := hR y hy i
          generalize exactTriangular b.eff (positive o.posFuncType) lead ts cs y i = w at h1 h2
          rw [show v.getD i 0 ^ 2 - w ^ 2 = (v.getD i 0 - w) * (2 * w + (v.getD i 0 - w)) by ring, abs_mul,
            show 2 * (ε * (R + ε / 2)) = ε * (2 * R + ε) by ring]
          refine mul_le_mul h1 ((abs_add_le _ _).trans ?_) (abs_nonneg _) ((abs_nonneg _).trans h1)
          rw [abs_mul, abs_two]
          linarith
      _ = _ := by rw [abs_neg, abs_of_pos (by norm_num : (0 : ℝ) < 1 / 2)]; simp; ring
  refine ⟨key.1, key.2, key.2.trans ?_⟩
  have hprob : IsProbabilityMeasure (lawOf (densityOn (Gaussian.ofDim n).density [] n)) := by
    obtain ⟨S, -, hS, -⟩ := C100_gaussian (.dim n)
    rw [← hS.2]
    exact Measure.isProbabilityMeasure_map hS.1.aemeasurable
  exact (mul_le_mul_of_nonneg_left prob_le_one bot_le).trans (by rw [mul_one])

/-- One input, order 2, 41 Clenshaw–Curtis points, the exponential: the exact map for the coefficients `(0, 0, 1/2)` is `exp(y) - 3/2`. -/
theorem exp_exact {b : Basis ℝ} {o : MapOptions} (hl : o.basisLB = none) (hu : o.basisUB = none) (ht : o.basisType = .probabilistHermite)
    (hN : o.basisNorm = false) (hg : o.posFuncType = .exp) (hb : IsBasisOf o (fun n => n ≤ 2) b) (x : Nat → ℝ) :
    (∀ t, unitDensity b.eff (positive o.posFuncType) 0 1 [[0], [1], [2]] [0, 0, 1 / 2] x t = x 0 * Real.exp (t * x 0)) ∧
    monotone b.eff (positive o.posFuncType) 0 1 [[0], [1], [2]] [0, 0, 1 / 2] x = Real.exp (x 0) - 3 / 2 := by
  obtain ⟨a, -, -, h1, h2⟩ := hb
  have hv : ∀ y, b.eff.val 2 y = y ^ 2 - 1 := fun y => by
    simp only [Basis.eff, h2 2 le_rfl, hl, hu, extend_none, ht, rawFamily, h1 (.inl hN)]
    rw [Hermite.He_rec, Hermite.He_one, Hermite.He_zero]
    norm_num
    ring
  have he : ∀ z, expandAt b.eff 1 [[0], [1], [2]] [0, 0, 1 / 2] z = 1 / 2 * (z 0 ^ 2 - 1) := fun z => by
    simp [expandAt, expansion, termProd, Finset.sum_range_succ, hv]
  have hdg : ∀ z, diagD b.eff 1 [[0], [1], [2]] [0, 0, 1 / 2] z = z 0 := fun z => by
    have hfun : (fun s => expandAt b.eff 1 [[0], [1], [2]] [0, 0, 1 / 2] (Function.update z (1 - 1) s)) = fun s => 1 / 2 * (s ^ 2 - 1) := by
      funext s; rw [he]; simp
    have hD : HasDerivAt (fun s : ℝ => 1 / 2 * (s ^ 2 - 1)) (z 0) (z 0) :=
      (((hasDerivAt_pow 2 (z 0)).sub_const 1).const_mul (1 / 2)).congr_deriv (by norm_num; ring)
    rw [diagD, partialDeriv, hfun]
    exact hD.deriv
  have hden : ∀ s, density b.eff (positive o.posFuncType) 0 1 [[0], [1], [2]] [0, 0, 1 / 2] x s = Real.exp s := fun s => by
    rw [density, hdg, hg]; simp [positive]
  refine ⟨fun t => by rw [unitDensity, hden], ?_⟩
  rw [monotone, offset, he]
  simp only [hden, integral_exp]
  simp
  ring

/-- Non-vacuity: one input, order 2, unnormalised Hermite polynomials, 41 Clenshaw–Curtis points, the exponential, coefficients `(0, 0, 1/2)`: on `[-7, 7]`
every set has under the pulled-back standard normal density the mass of its image by `exp(y) - 3/2`, up to the factor `exp(±2e-7)`. -/
example (mem : Nat → Option ℝ) (work : List ℝ) : ∃ T P, createTriangular 1 1 2
      { basisNorm := false, quadType := .clenshawCurtis, quadPts := 41, posFuncType := .exp } mem work = .ok (T, zeros T.numCoeffs) ∧
    Pullback.new T (Gaussian.ofDim 1).density [0, 0, 1 / 2] = .ok P ∧ ∀ B : Set (Fin 1 → ℝ), MeasurableSet B → (∀ y ∈ B, |y 0| ≤ 7) →
      ENNReal.ofReal (Real.exp (-2e-7)) * lawOf (densityOn (Gaussian.ofDim 1).density [] 1) ((fun y _ => Real.exp (y 0) - 3 / 2) '' B)
        ≤ lawOf (densityOn P [] 1) B ∧
      lawOf (densityOn P [] 1) B
        ≤ ENNReal.ofReal (Real.exp 2e-7) * lawOf (densityOn (Gaussian.ofDim 1).density [] 1) ((fun y _ => Real.exp (y 0) - 3 / 2) '' B) := by
  obtain ⟨b, ts, hb, hts, h⟩ := C111_triangular (inputDim := 1) (outputDim := 1) (p := 2) (by decide) (by decide) (by decide)
    (o := { basisNorm := false, quadType := .clenshawCurtis, quadPts := 41, posFuncType := .exp })
    ⟨fun l hl => by simp at hl, fun h => by simp [Bounded] at h, fun h => by simp [Bounded] at h, fun _ h => by simp at h⟩
    ⟨by simp, by simp, by simp⟩
  obtain ⟨T, t1, h⟩ := h mem work
  obtain ⟨b', mesh', -, -, h63⟩ := C63_triangular_partial (inputDim := 1) (outputDim := 1) (p := 2) (by decide) (by decide) (by decide)
    (o := { basisNorm := false, quadType := .clenshawCurtis, quadPts := 41, posFuncType := .exp })
    ⟨fun l hl => by simp at hl, fun h => by simp [Bounded] at h, fun h => by simp [Bounded] at h, fun _ h => by simp at h⟩
    ⟨by simp, by simp, by simp⟩
  obtain ⟨T', comps, s1, s2, s3, s4, -⟩ := h63 mem work
  obtain ⟨rfl, -⟩ := Prod.mk.inj (Res.ok.inj (t1.symm.trans s1))
  have hts0 : ∀ i, ts i = [[0], [1], [2]] := fun i => by
    obtain rfl : i = 0 := Subsingleton.elim _ _
    refine totalOrder_unique (hts 0) ⟨by decide, fun v => ?_⟩
    constructor
    · intro hv
      fin_cases hv <;> simp
    · rintro ⟨h1, h2⟩
      obtain ⟨a, rfl⟩ := List.length_eq_one_iff.1 h1
      simp at h2
      interval_cases a <;> simp
  obtain ⟨cs, ⟨f1, f2⟩, h⟩ := h [0, 0, 1 / 2] (by rw [s4]; decide)
  have hcs : ∀ i, cs i = [0, 0, 1 / 2] := fun i => by
    obtain rfl : i = 0 := Subsingleton.elim _ _
    simpa using f1
  have hA := h [] rfl
  have hP : Pullback.new T (Gaussian.ofDim 1).density [0, 0, 1 / 2]
      = .ok { dim := (Gaussian.ofDim 1).density.dim, logDensity := _, inputGrad := _ } := pull_new.mpr ⟨s3, rfl⟩
  refine ⟨T, _, t1, hP, fun B hB h7 => ?_⟩
  have hx := fun y : Fin 1 → ℝ => exp_exact (o := { basisNorm := false, quadType := .clenshawCurtis, quadPts := 41, posFuncType := .exp })
    rfl rfl rfl rfl rfl hb (coords ([] ++ List.ofFn y))
  have hex : exactTriangular b.eff (positive .exp) [] ts cs = fun y _ => Real.exp (y 0) - 3 / 2 := by
    funext y i
    obtain rfl : i = 0 := Subsingleton.elim _ _
    rw [exactTriangular, hts0, hcs]
    exact (hx y).2.trans (by simp [coords])
  have hg := C111_gaussian hA rfl hP hB (ε := 1e-10) (R := 1500) (fun y hy i => by
    obtain rfl : i = 0 := Subsingleton.elim _ _
    rw [hts0, hcs]
    have := funext (hx y).1
    refine (congrArg (fun f => PolyNear 41 f 1e-10) this).mpr ?_
    exact exp_near (by simpa [coords] using h7 y hy)) fun y hy i => by
      change |exactTriangular b.eff (positive .exp) [] ts cs y i| ≤ _
      rw [hex]
      have h1 := (abs_le.1 (h7 y hy)).2
      have h2 : Real.exp (y 0) ≤ 1200 := by
        calc Real.exp (y 0) ≤ Real.exp 7 := Real.exp_le_exp.2 h1
          _ = Real.exp 1 ^ 7 := by rw [← Real.exp_nat_mul]; norm_num
          _ ≤ 2.7182818286 ^ 7 := pow_le_pow_left₀ (Real.exp_pos 1).le Real.exp_one_lt_d9.le 7
          _ ≤ 1200 := by norm_num
      have h3 := Real.exp_pos (y 0)
      rw [abs_le]; constructor <;> linarith
  have hδ : ((1 : Nat) : ℝ) * (1e-10 * (1500 + 1e-10 / 2)) ≤ 2e-7 := by norm_num
  rw [show exactTriangular b.eff (positive _) [] ts cs = _ from hex] at hg
  refine ⟨le_trans ?_ hg.1, hg.2.1.trans ?_⟩
  · gcongr
  · gcongr

/-- Non-vacuity with a bounded basis: unnormalised Hermite polynomials extended beyond -3, adaptive Simpson rule, softplus, two outputs of three inputs. -/
example (mem : Nat → Option ℝ) (work : List ℝ) (x : ℝ) : ∃ b ts T cs, createTriangular 3 2 4 { basisLB := some (-3), basisNorm := false } mem work
      = .ok (T, zeros T.numCoeffs) ∧ Approximates { basisLB := some (-3), basisNorm := false } b (n := 2) [x] ts cs T (zeros T.numCoeffs) := by
  obtain ⟨b, ts, -, -, h⟩ := C111_triangular (inputDim := 3) (outputDim := 2) (p := 4) (by decide) (by decide) (by decide)
    (o := { basisLB := some (-3), basisNorm := false })
    ⟨fun _ _ u hu => by simp at hu, fun _ _ => rfl, fun _ h => by simp at h, fun _ h => by simp at h⟩
    ⟨by simp, by simp, by simp⟩
  obtain ⟨T, t1, h⟩ := h mem work
  obtain ⟨cs, -, h⟩ := h (zeros T.numCoeffs) (by simp [zeros])
  exact ⟨b, ts, T, cs, t1, h [x] rfl⟩

end MParT
