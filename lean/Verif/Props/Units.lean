import Verif.Props.FirstOrder
/-!
# C126: training does not depend on the units of the data
-/
namespace MParT
open Finset Spec MapFactory

/-- Without bounds the functions of a polynomial family are polynomials, one of each degree. -/
theorem poly_basis {o : MapOptions} {p : ℕ} {b : Basis ℝ} (hb : IsBasisOf o (fun n => n ≤ p) b) (hf : o.basisType ≠ .hermiteFunctions) (hlb : o.basisLB = none)
    (hub : o.basisUB = none) : ∃ R : ℕ → Polynomial ℝ, ∀ m, m + 0 ≤ p → ((R m).natDegree = m ∧ R m ≠ 0) ∧ ∀ x, b.eff.val (m + 0) x = (R m).eval x * 1 := by
  obtain ⟨a, ha, -, -, hv⟩ := hb
  obtain ⟨R, hR⟩ := raw_polynomials o.basisType p
  have hw : weightOf o.basisType = (fun _ => 1, fun _ => 0, 0) := by
    cases h : o.basisType <;> first | rfl | exact absurd h hf
  rw [hw] at hR
  simp only [add_zero, mul_one] at hR
  refine ⟨fun m => if m = 0 then 1 else Polynomial.C (a m)⁻¹ * R m, fun m hm => ?_⟩
  by_cases h : m = 0
  · simp [h, Basis.eff]
  · have hi := inv_ne_zero (ha m hm).ne'
    simp only [if_neg h]
    refine ⟨⟨by rw [Polynomial.natDegree_C_mul hi, (hR m hm).1.1], mul_ne_zero (Polynomial.C_ne_zero.2 hi) (hR m hm).1.2⟩, fun x => ?_⟩
    have := (hR m hm).2 x
    simp only [rawBasis] at this
    have hx : WithinBounds o x := by constructor <;> simp [hlb, hub]
    simp only [Basis.eff, add_zero, if_neg h, hv m hm, within_value hx, Polynomial.eval_mul, Polynomial.eval_C, this]
    ring

/-- Expansions over a total-order set in shifted and scaled inputs are expansions over the same set. -/
theorem reps_affine {o : MapOptions} {p : ℕ} {b : Basis ℝ} (hb : IsBasisOf o (fun n => n ≤ p) b) (hf : o.basisType ≠ .hermiteFunctions) (hlb : o.basisLB = none)
    (hub : o.basisUB = none) {D : ℕ} {ts : List (List ℕ)} (hts : IsTotalOrder D p ts) {F : (ℕ → ℝ) → ℝ} (hF : Reps b.eff D ts F) (ρ τ : ℕ → ℝ) :
    Reps b.eff D ts fun X => F fun d => ρ d * X d + τ d := by
  obtain ⟨R, hR⟩ := poly_basis hb hf hlb hub
  obtain ⟨a, hF⟩ := hF
  simp only [hF]
  refine Reps.sum _ fun k hk => Reps.mul _ ?_
  have hm : ts.getD k [] ∈ ts := by
    rw [List.getD_eq_getElem?_getD, List.getElem?_eq_getElem (mem_range.1 hk)]
    exact List.getElem_mem _
  generalize ts.getD k [] = t at hm
  obtain ⟨t1, t2⟩ := (hts.2 t).1 hm
  have e : List.ofFn (fun i : Fin D => t.getD i 0) = t := List.ext_getElem (by simp [t1]) fun i h1 h2 => by simp [h2]
  have hsum : ∑ i : Fin D, t.getD i 0 = t.sum := by
    conv_rhs => rw [← e]
    rw [List.sum_ofFn]
  have hle : ∀ i : Fin D, t.getD i 0 + 0 ≤ p := fun i => (single_le_sum (f := fun i : Fin D => t.getD i 0) (fun _ _ => Nat.zero_le _) (mem_univ i)).trans (hsum.trans_le t2)
  have := Reps.prod (b := b.eff) (w := fun _ => 1) (fun m hm => (hR m hm).1) (fun m hm => (hR m hm).2) (fun v h1 h2 => (hts.2 v).2 ⟨h1, h2⟩)
    (fun i : Fin D => (R (t.getD i 0)).comp (Polynomial.C (ρ i) * Polynomial.X + Polynomial.C (τ i))) (by
      refine le_trans (sum_le_sum fun i _ => ?_) (hsum.trans_le t2)
      rw [add_zero]
      refine Polynomial.natDegree_comp_le.trans ?_
      rw [(hR _ (hle i)).1.1]
      exact (Nat.mul_le_mul_left _ (Polynomial.natDegree_linear_le)).trans (by simp))
  refine Eq.mp (congrArg _ (funext fun X => ?_)) this
  rw [Finset.prod_range]
  refine prod_congr rfl fun i _ => ?_
  have := (hR _ (hle i)).2 (ρ i * X i + τ i)
  rw [add_zero] at this
  rw [this]
  simp

/-- The inputs in other units: each is scaled and shifted. -/
def Spec.rescale (σ τ : ℕ → ℝ) (x : List ℝ) : List ℝ := x.mapIdx fun d v => σ d * v + τ d

/-- Units that may be changed: no scale is 0; those of the inputs from `k` on are positive and their origins stay. -/
structure Spec.UnitChange (k : ℕ) (σ τ : ℕ → ℝ) : Prop where
  scale : ∀ d, σ d ≠ 0
  positive : ∀ d, k ≤ d → 0 < σ d
  origin : ∀ d, k ≤ d → τ d = 0

theorem rescale_length (σ τ : ℕ → ℝ) (x : List ℝ) : (rescale σ τ x).length = x.length := by simp [rescale]

theorem rescale_coords {k : ℕ} {σ τ : ℕ → ℝ} (hu : UnitChange k σ τ) {x : List ℝ} (hx : k ≤ x.length) (d : ℕ) : coords (rescale σ τ x) d = σ d * coords x d + τ d := by
  simp only [coords, rescale, List.getD_eq_getElem?_getD, List.getElem?_mapIdx]
  by_cases h : d < x.length
  · simp [List.getElem?_eq_getElem h]
  · rw [List.getElem?_eq_none (by omega)]
    simp [hu.origin d (by omega)]

/-- The units that undo the change. -/
theorem Spec.UnitChange.inv {k : ℕ} {σ τ : ℕ → ℝ} (hu : UnitChange k σ τ) : UnitChange k (fun d => (σ d)⁻¹) (fun d => -(τ d / σ d)) ∧
    ∀ x, rescale (fun d => (σ d)⁻¹) (fun d => -(τ d / σ d)) (rescale σ τ x) = x := by
  refine ⟨⟨fun d => inv_ne_zero (hu.scale d), fun d hd => inv_pos.2 (hu.positive d hd), fun d hd => by simp [hu.origin d hd]⟩, fun x => ?_⟩
  refine List.ext_getElem (by simp [rescale]) fun i h1 h2 => ?_
  have := hu.scale i
  simp only [rescale, List.getElem_mapIdx]
  field_simp
  ring

/-- One component in other units. -/
theorem comp_units {o : MapOptions} {p : ℕ} {b : Basis ℝ} (hb : IsBasisOf o (fun n => n ≤ p) b) (hB : GoodBasis o p) (hp : 0 < p) (hf : o.basisType ≠ .hermiteFunctions)
    (hlb : o.basisLB = none) (hub : o.basisUB = none) (hexp : o.posFuncType = .exp) {mesh : (ℝ → ℝ) → List (ℝ × ℝ)} (hmesh : ∀ f g, mesh f = mesh g) {k i : ℕ}
    {ts : List (List ℕ)} (hts : IsTotalOrder (k + i + 1) p ts) {σ τ : ℕ → ℝ} (hu : UnitChange k σ τ) (c : List ℝ) : ∃ c' : List ℝ, c'.length = ts.length ∧
      ∀ x : List ℝ, k ≤ x.length → compOutput o b mesh k ts c' i (rescale σ τ x) = compOutput o b mesh k ts c i x ∧
        Real.log (compSlope o b k ts c' i (rescale σ τ x)) = Real.log (compSlope o b k ts c i x) - Real.log (σ (k + i)) := by
  set d := k + i with hd
  have hσ : 0 < σ d := hu.positive d (by omega)
  have hτ : τ d = 0 := hu.origin d (by omega)
  have hF : Reps b.eff (d + 1) ts (expandAt b.eff (d + 1) ts c) := ⟨fun j => c.getD j 0, fun X => rfl⟩
  -- the expansion at the old units, with and without the diagonal input
  have h1 := reps_affine hb hf hlb hub hts hF (fun e => (σ e)⁻¹) (fun e => -(τ e / σ e))
  have h2 := reps_affine hb hf hlb hub hts hF (fun e => if e = d then 0 else (σ e)⁻¹) (fun e => -(τ e / σ e))
  obtain ⟨α, hα0, hα⟩ := degree_one (show IsBasisOf o (fun n => n ≤ 1) b from by
    obtain ⟨a, h1, h2, h3, h4⟩ := hb
    exact ⟨a, fun n hn => h1 n (hn.trans hp), h2, h3, fun n hn => h4 n (hn.trans hp)⟩)
  have hlin : Reps b.eff (d + 1) ts fun X => α * X d := by
    have := Reps.term (b := b.eff) (fun l : Fin (d + 1) => if l = Fin.last _ then 1 else 0)
      ((hts.2 (List.ofFn fun l : Fin (d + 1) => if l = Fin.last _ then 1 else 0)).2
        ⟨by simp, by rw [List.sum_ofFn, sum_ite_eq' univ (Fin.last _), if_pos (mem_univ _)]; exact hp⟩)
    refine Eq.mp (congrArg _ (funext fun X => ?_)) this
    rw [prod_eq_single (Fin.last _) (fun l _ hne => by rw [if_neg hne, eff_zero]) (by simp), if_pos rfl, hα]
    rfl
  obtain ⟨c', hc', hF'⟩ := ((h2.mul (1 - σ d)).add ((h1.mul (σ d)).add (hlin.mul (-(Real.log (σ d) / α))))).expand
  refine ⟨c', hc', fun x hx => ?_⟩
  set X := coords x with hX
  set X' := coords (rescale σ τ x) with hX'
  have hco : ∀ e, X' e = σ e * X e + τ e := fun e => rescale_coords hu hx e
  have hback : ∀ y : ℝ, (fun e => (σ e)⁻¹ * Function.update X' d y e + -(τ e / σ e)) = Function.update X d (y / σ d) := fun y => by
    funext e
    by_cases h : e = d
    · subst h
      rw [Function.update_self, Function.update_self, hτ]
      field_simp
      ring
    · have := hu.scale e
      rw [Function.update_of_ne h, Function.update_of_ne h, hco]
      field_simp
      ring
  have hzero : ∀ y : ℝ, (fun e => (if e = d then 0 else (σ e)⁻¹) * Function.update X' d y e + -(τ e / σ e)) = Function.update X d 0 := fun y => by
    funext e
    by_cases h : e = d
    · subst h
      simp [hτ]
    · have := hu.scale e
      rw [if_neg h, Function.update_of_ne h, Function.update_of_ne h, hco]
      field_simp
      ring
  have hup : ∀ y : ℝ, expandAt b.eff (d + 1) ts c' (Function.update X' d y)
      = (1 - σ d) * expandAt b.eff (d + 1) ts c (Function.update X d 0) + (σ d * expandAt b.eff (d + 1) ts c (Function.update X d (y / σ d)) + -(Real.log (σ d) * y)) := fun y => by
    rw [hF', hback, hzero, Function.update_self]
    field_simp
  have hoff : offset b.eff (d + 1) ts c' X' = offset b.eff (d + 1) ts c X := by
    simp only [offset, Nat.add_sub_cancel, hup, zero_div, mul_zero, neg_zero, add_zero]
    ring
  have hbs : ∀ m ≤ p, Differentiable ℝ (b.eff.val m) := fun m hm => (isBasis_contDiff hb hB.bounds m hm).differentiable one_ne_zero
  have hps : ∀ t ∈ ts, ∀ m ∈ t, m ≤ p := fun t ht m hm => (List.single_le_sum (by simp) m hm).trans ((hts.2 t).1 ht).2
  have hdiff : Differentiable ℝ fun y => expandAt b.eff (d + 1) ts c (Function.update X d y) := by
    simp only [expandAt, expansion, termProd]
    refine Differentiable.fun_sum fun j _ => Differentiable.const_mul ?_ _
    have h1 : (fun y => ∏ e ∈ range (d + 1), b.eff.val ((ts.getD j []).getD e 0) (Function.update X d y e))
        = fun y => (∏ i ∈ range d, b.eff.val ((ts.getD j []).getD i 0) (X i)) * b.eff.val ((ts.getD j []).getD d 0) y := by
      funext y
      rw [prod_range_succ, Function.update_self, prod_congr rfl fun i hi => by rw [Function.update_of_ne (by have := mem_range.1 hi; omega)]]
    rw [h1]
    exact (hbs _ (entry_bound hps j d)).const_mul _
  have hdiag : ∀ s : ℝ, diagD b.eff (d + 1) ts c' (Function.update X' d (σ d * s)) = diagD b.eff (d + 1) ts c (Function.update X d s) - Real.log (σ d) := fun s => by
    simp only [diagD, partialDeriv, Nat.add_sub_cancel, Function.update_idem, Function.update_self, hup]
    have hs : σ d * s / σ d = s := by field_simp
    have g1 := (hdiff s).hasDerivAt
    have g2 : HasDerivAt (fun y : ℝ => y / σ d) (1 / σ d) (σ d * s) := (hasDerivAt_id _).div_const _
    rw [← hs] at g1
    have g3 := (((HasDerivAt.comp (σ d * s) g1 g2).const_mul (σ d)).add ((hasDerivAt_id (σ d * s)).const_mul (Real.log (σ d))).neg).const_add
      ((1 - σ d) * expandAt b.eff (d + 1) ts c (Function.update X d 0))
    rw [hs] at g3
    refine g3.deriv.trans ?_
    field_simp
    ring
  have hg : ∀ s : ℝ, positive o.posFuncType (diagD b.eff (d + 1) ts c' (Function.update X' d (σ d * s)))
      = (σ d)⁻¹ * positive o.posFuncType (diagD b.eff (d + 1) ts c (Function.update X d s)) := fun s => by
    rw [hdiag, hexp]
    simp only [positive]
    rw [Real.exp_sub, Real.exp_log hσ, div_eq_inv_mul]
  have hXd : X' d = σ d * X d := by rw [hco, hτ, add_zero]
  refine ⟨?_, ?_⟩
  · simp only [compOutput, discretised, ← hd, ← hX, ← hX', hoff, add_right_inj]
    rw [hmesh _ (unitDensity b.eff (positive o.posFuncType) 0 (d + 1) ts c X)]
    refine congrArg List.sum (List.map_congr_left fun q _ => ?_)
    simp only [unitDensity, density, Nat.add_sub_cancel, add_zero]
    rw [hXd, show q.1 * (σ d * X d) = σ d * (q.1 * X d) by ring, hg]
    field_simp
  · have h := hg (X d)
    rw [← hXd, Function.update_eq_self, Function.update_eq_self] at h
    simp only [compSlope, ← hd, ← hX, ← hX']
    rw [h, Real.log_mul (inv_ne_zero hσ.ne') (positive_pos' _ _).ne', Real.log_inv]
    ring

section
variable {k n p : ℕ} {o : MapOptions} (h0 : 0 < n) (h2 : k + n < 2 ^ 32) (hp : 0 < p) (hB : GoodBasis o p) (hQ : GoodQuad o) (hcd : o.contDeriv = true)
  (hf : o.basisType ≠ .hermiteFunctions) (hlb : o.basisLB = none) (hub : o.basisUB = none) (hexp : o.posFuncType = .exp) (hcc : o.quadType = .clenshawCurtis)
  {mem : ℕ → Option ℝ} {work : List ℝ} {T : CMap} {w : List ℝ} (hT : createTriangular (k + n) n p o mem work = .ok (T, w)) {σ τ : ℕ → ℝ} (hu : UnitChange k σ τ)
include h0 h2 hp hB hQ hcd hf hlb hub hexp hcc hT hu

/-- **C126.** For all coefficients there are others with which the map computes from the inputs in other units what it computed from those in the old ones; its log-determinant
changes by the logarithms of the scales, and so does its training objective, whatever the data. -/
theorem C126_units {c : List ℝ} (hc : c.length = T.numCoeffs) : ∃ c' : List ℝ, c'.length = T.numCoeffs ∧
    (∀ x : List ℝ, x.length = k + n → fn T c' (rescale σ τ x) = fn T c x ∧ logdet T c' (rescale σ τ x) = logdet T c x - ∑ i : Fin n, Real.log (σ (k + i))) ∧
    ∀ data : List (List ℝ), data ≠ [] → (∀ x ∈ data, x.length = k + n) → ∃ v, KL.objective T (Gaussian.ofDim n).density c data = .ok (some v) ∧
      KL.objective T (Gaussian.ofDim n).density c' (data.map (rescale σ τ)) = .ok (some (v + ∑ i : Fin n, Real.log (σ (k + i)))) := by
  obtain ⟨b, mesh, ts, hb, hm, hts, h⟩ := triangular_splits (k := k) h0 h2 hB hQ hcd
  obtain ⟨T', split, t1, hS⟩ := h mem work
  obtain ⟨rfl, -⟩ := Prod.mk.inj (Res.ok.inj (hT.symm.trans t1))
  have hmesh : ∀ f g, mesh f = mesh g := fun f g => by
    have := hm.2
    rw [hcc] at this
    obtain ⟨⟨R, rfl, -⟩, -⟩ := this
    rfl
  choose cs hl hcs using fun i : Fin n => comp_units hb hB hp hf hlb hub hexp hmesh (hts i) hu (split c i)
  have hsl : Slices ts cs (List.ofFn cs).flatten := ⟨rfl, hl⟩
  have hc' : (List.ofFn cs).flatten.length = T.numCoeffs := by
    rw [slices_length hsl, ← slices_length (hS.slices c hc), hc]
  have hsp : split (List.ofFn cs).flatten = cs := slices_unique (hS.slices _ hc') hsl
  refine ⟨_, hc', fun x hx => ⟨?_, ?_⟩, fun data hne hdata => ⟨_, hS.objective c data hc hne hdata, ?_⟩⟩
  · rw [hS.value _ _ hc' (by rw [rescale_length, hx]), hS.value c x hc hx, hsp]
    exact congrArg _ (funext fun i => (hcs i x (by omega)).1)
  · rw [hS.logDet _ _ hc' (by rw [rescale_length, hx]), hS.logDet c x hc hx, hsp, ← sum_sub_distrib]
    exact sum_congr rfl fun i _ => (hcs i x (by omega)).2
  · rw [hS.objective _ _ hc' (by simpa using hne) (fun x hx => by
      obtain ⟨y, hy, rfl⟩ := List.mem_map.1 hx
      rw [rescale_length, hdata y hy]), hsp]
    have hcost : ∀ i : Fin n, compCost o b mesh k (data.map (rescale σ τ)) i (ts i) (cs i) = compCost o b mesh k data i (ts i) (split c i) + Real.log (σ (k + i)) := fun i => by
      have hav : ∀ f : List ℝ → ℝ, average (data.map (rescale σ τ)) f = average data fun x => f (rescale σ τ x) := fun f => by simp [average, Function.comp_def]
      rw [compCost, compCost, hav, hav, average_congr fun x hx => by rw [(hcs i x (by rw [hdata x hx]; omega)).1],
        average_congr (f := fun x => Real.log (compSlope o b k (ts i) (cs i) i (rescale σ τ x)))
          (g := fun x => Real.log (compSlope o b k (ts i) (split c i) i x) + -Real.log (σ (k + i))) fun x hx => by
            rw [(hcs i x (by rw [hdata x hx]; omega)).2, sub_eq_add_neg], average_add, average_const hne]
      ring
    simp only [hcost, sum_add_distrib]
    congr 2
    ring

/-- **C126.** Training in other units gives the same map: the optimal coefficients for the data in the old units have counterparts that are optimal for the data in the new ones
and compute the same outputs. -/
theorem C126_training {data : List (List ℝ)} (hne : data ≠ []) (hdata : ∀ x ∈ data, x.length = k + n) {c : List ℝ} (hc : MinimisesKL T data c) :
    ∃ c', MinimisesKL T (data.map (rescale σ τ)) c' ∧ ∀ x : List ℝ, x.length = k + n → fn T c' (rescale σ τ x) = fn T c x := by
  have ho : T.outputDim = n := by
    obtain ⟨b, mesh, ts, hb, hm, hts, h⟩ := triangular_splits (k := k) h0 h2 hB hQ hcd
    obtain ⟨T', split, t1, hS⟩ := h mem work
    obtain ⟨rfl, -⟩ := Prod.mk.inj (Res.ok.inj (hT.symm.trans t1))
    exact hS.outputs
  obtain ⟨hl, m, m1, m2⟩ := hc
  rw [ho] at m1 m2
  obtain ⟨c', l', e1, e2⟩ := C126_units h0 h2 hp hB hQ hcd hf hlb hub hexp hcc hT hu hl
  obtain ⟨v, v1, v2⟩ := e2 data hne hdata
  rw [m1] at v1
  cases v1
  refine ⟨c', ⟨l', _, by rw [ho]; exact v2, fun e u le hu' => ?_⟩, fun x hx => (e1 x hx).1⟩
  rw [ho] at hu'
  obtain ⟨hui, hinv⟩ := hu.inv
  obtain ⟨e', le', -, e3⟩ := C126_units h0 h2 hp hB hQ hcd hf hlb hub hexp hcc hT hui le
  obtain ⟨r, r1, r2⟩ := e3 (data.map (rescale σ τ)) (by simpa using hne) (fun x hx => by
    obtain ⟨y, hy, rfl⟩ := List.mem_map.1 hx
    rw [rescale_length, hdata y hy])
  rw [hu'] at r1
  cases r1
  rw [List.map_map, show (rescale (fun d => (σ d)⁻¹) (fun d => -(τ d / σ d)) ∘ rescale σ τ) = id from funext hinv, List.map_id] at r2
  have := m2 e' _ le' r2
  simp only [Real.log_inv, sum_neg_distrib] at this
  linarith

end

/-- The map of `pair_trained`, optimal for the samples -1 and 1, in units a thousand times smaller. -/
example : ∃ T w c c', createTriangular 1 1 2 pairOptions (fun _ => none) [] = .ok (T, w) ∧ MinimisesKL T [[-1], [1]] c ∧ MinimisesKL T [[-1000], [1000]] c' ∧
    ∀ x : List ℝ, x.length = 0 + 1 → fn T c' (rescale (fun _ => 1000) (fun _ => 0) x) = fn T c x := by
  obtain ⟨T, w, c, t, hc, hB, hQ⟩ := pair_trained
  obtain ⟨c', h1, h2⟩ := C126_training (k := 0) (n := 1) one_pos (by norm_num) two_pos hB hQ rfl (by decide) rfl rfl rfl rfl t
    (σ := fun _ => 1000) (τ := fun _ => 0) ⟨fun _ => by norm_num, fun _ _ => by norm_num, fun _ _ => rfl⟩ (data := [[-1], [1]]) (by simp) (by simp) hc
  refine ⟨T, w, c, c', t, hc, ?_, h2⟩
  have e : List.map (rescale (fun _ => 1000) (fun _ => 0)) [[-1], [1]] = [[-1000], [(1000 : ℝ)]] := by simp [rescale]
  rwa [e] at h1

end MParT
