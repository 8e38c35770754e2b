import Verif.Props.Overfitting
/-!
# C122: what training achieves for maps of every order
-/
namespace MParT
open Finset Spec MapFactory

/-- What output `i` of a triangular map computes. -/
noncomputable def compOutput (o : MapOptions) (b : Basis ℝ) (mesh : (ℝ → ℝ) → List (ℝ × ℝ)) (k : ℕ) (ts : List (List ℕ)) (c : List ℝ) (i : ℕ) (x : List ℝ) : ℝ :=
  discretised b.eff (positive o.posFuncType) 0 (k + i + 1) ts c (coords x) (mesh (unitDensity b.eff (positive o.posFuncType) 0 (k + i + 1) ts c (coords x)))

/-- The slope of output `i` in its diagonal input. -/
noncomputable def compSlope (o : MapOptions) (b : Basis ℝ) (k : ℕ) (ts : List (List ℕ)) (c : List ℝ) (i : ℕ) (x : List ℝ) : ℝ :=
  positive o.posFuncType (diagD b.eff (k + i + 1) ts c (coords x))

/-- The contribution of output `i` to the objective. -/
noncomputable def compCost (o : MapOptions) (b : Basis ℝ) (mesh : (ℝ → ℝ) → List (ℝ × ℝ)) (k : ℕ) (data : List (List ℝ)) (i : ℕ) (ts : List (List ℕ)) (c : List ℝ) : ℝ :=
  1 / 2 * average data (fun x => compOutput o b mesh k ts c i x ^ 2) - average data fun x => Real.log (compSlope o b k ts c i x)

/-- The values and the objective of a triangular map, component by component. -/
structure Splits (o : MapOptions) (b : Basis ℝ) (mesh : (ℝ → ℝ) → List (ℝ × ℝ)) (k : ℕ) {n : ℕ} (ts : Fin n → List (List ℕ)) (split : List ℝ → Fin n → List ℝ) (T : CMap) :
    Prop where
  outputs : T.outputDim = n
  slices : ∀ c : List ℝ, c.length = T.numCoeffs → Slices ts (split c) c
  value : ∀ c x : List ℝ, c.length = T.numCoeffs → x.length = k + n → fn T c x = List.ofFn fun i : Fin n => compOutput o b mesh k (ts i) (split c i) i x
  logDet : ∀ c x : List ℝ, c.length = T.numCoeffs → x.length = k + n → logdet T c x = ∑ i : Fin n, Real.log (compSlope o b k (ts i) (split c i) i x)
  objective : ∀ (c : List ℝ) (data : List (List ℝ)), c.length = T.numCoeffs → data ≠ [] → (∀ x ∈ data, x.length = k + n) →
    KL.objective T (Gaussian.ofDim n).density c data = .ok (some (∑ i : Fin n, compCost o b mesh k data i (ts i) (split c i) + n / 2 * Real.log (2 * Real.pi)))

theorem splits_of_selected {o : MapOptions} {k n p : ℕ} {b : Basis ℝ} {quad : ℕ → QProg} {mesh : (ℝ → ℝ) → List (ℝ × ℝ)} (hsel : Selected o p b quad mesh) (h0 : 0 < n)
    (h2 : k + n < 2 ^ 32) (hcd : o.contDeriv = true) : ∃ ts : Fin n → List (List ℕ), (∀ i : Fin n, IsTotalOrder (k + i + 1) p (ts i)) ∧
      ∀ mem work, ∃ T split, createTriangular (k + n) n p o mem work = .ok (T, zeros T.numCoeffs) ∧ Splits o b mesh k ts split T := by
  have h := fun mem work => triangular_of_selected (inputDim := k + n) (outputDim := n) hsel h0 (by omega) h2 mem work
  simp only [Nat.add_sub_cancel] at h
  obtain ⟨T0, comps0, -, -, -, -, -, -, -, l0, i0, -⟩ := h (fun _ => none) []
  have hts : ∀ i : Fin n, ∃ ts, IsTotalOrder (k + i + 1) p ts := fun i => by
    obtain ⟨ts, h, -⟩ := i0 i _ (List.getElem?_eq_getElem (by omega))
    exact ⟨ts, h⟩
  choose ts hts using hts
  refine ⟨ts, hts, fun mem work => ?_⟩
  obtain ⟨T, comps, -, -, t1, t2, t3, -, t4, t5, t6, t7, t8, t9, -⟩ := h mem work
  let tsN : ℕ → List (List ℕ) := fun i => if hi : i < n then ts ⟨i, hi⟩ else []
  have htsN : ∀ i : Fin n, tsN i = ts i := fun i => by simp [tsN]
  have hsl : ∀ c : List ℝ, ∃ cs : Fin n → List ℝ, c.length = T.numCoeffs → Slices ts cs c ∧ ∀ x : List ℝ, x.length = k + n →
      fn T c x = (List.ofFn fun i : Fin n => compOutput o b mesh k (ts i) (cs i) i x) ∧
      logdet T c x = ∑ i : Fin n, Real.log (compSlope o b k (ts i) (cs i) i x) := fun c => by
    by_cases hc : c.length = T.numCoeffs
    · obtain ⟨cs, c1, c2, c3⟩ := stacked_slices (o := o) (b := b) (mesh := mesh) comps k tsN (fun i m hm => by
        obtain ⟨ts', g1, g2⟩ := t6 i m hm
        have hi : i < n := by
          have := (List.getElem?_eq_some_iff.1 hm).1; omega
        simp only [tsN, dif_pos hi]
        rwa [← totalOrder_unique g1 (hts ⟨i, hi⟩)]) c (by rw [hc, t4])
      refine ⟨fun i => cs i, fun _ => ⟨⟨?_, fun i => by rw [c2 i (by omega), htsN]⟩, fun x hx => ?_⟩⟩
      · rw [← c1, t5]
        congr 1
        exact List.ext_getElem (by simp) fun i h1 h2 => by simp
      · have hf : Fits T c x := ⟨hc, by rw [hx, t2]⟩
        obtain ⟨e1, e2⟩ := c3 x (by omega)
        rw [t8 c x hf, e1, (t9 hcd).2 c x hf, e2 hcd, t5, Finset.sum_range]
        refine ⟨List.ext_getElem (by simp) fun i h1 h2 => ?_, by simp only [htsN, compSlope]⟩
        have hi : i < n := by simpa using h1
        simp only [List.getElem_map, List.getElem_range, List.getElem_ofFn, compOutput, ← htsN]
    · exact ⟨fun _ => [], fun h => absurd h hc⟩
  choose split hsplit using hsl
  refine ⟨T, split, t1, t3, fun c hc => (hsplit c hc).1, fun c x hc hx => ((hsplit c hc).2 x hx).1, fun c x hc hx => ((hsplit c hc).2 x hx).2,
    fun c data hc hne hx => ?_⟩
  have hd := (C53_density (.dim n)).2.1
  obtain ⟨P, hP⟩ := ((C52_dimensions (m := T) (d := (Gaussian.ofDim n).density) c).1).2 t3
  have hcol : KL.columns (fun x => P.logDensity x (some 0)) data = .ok (data.map fun x => some (logp (Gaussian.ofDim n).density (fn T c x) + logdet T c x)) :=
    KL.columns_ok fun x h => by
      obtain ⟨hdim, rfl⟩ := pull_new.mp hP
      exact pull_logDensity t7 (t9 hcd).1 hd hdim ⟨hc, by rw [hx x h, t2]⟩ (some 0)
  rw [KL.objective, hP, Res.bind_ok, hcol, Res.bind_ok]
  have : (data.map fun x => some (logp (Gaussian.ofDim n).density (fn T c x) + logdet T c x))
    = (data.map fun x => logp (Gaussian.ofDim n).density (fn T c x) + logdet T c x).map some := by simp
  rw [this, KL.sumNegative_eq, KL.average_eq (by simpa using hne), neg_div, ← average]
  congr 2
  rw [average_congr (g := fun x => -1 * ∑ i : Fin n, (1 / 2 * compOutput o b mesh k (ts i) (split c i) i x ^ 2 + -1 * Real.log (compSlope o b k (ts i) (split c i) i x))
    + -(n / 2 * Real.log (2 * Real.pi))) fun x h => by
      obtain ⟨e1, e2⟩ := (hsplit c hc).2 x (hx x h)
      rw [e1, e2, std_logp n (by simp), List.map_ofFn, List.sum_ofFn, sum_add_distrib, ← mul_sum, ← mul_sum]
      simp only [Function.comp]
      ring]
  rw [average_add, average_const hne, average_mul, average_sum]
  simp only [average_add, average_mul, compCost]
  simp only [neg_one_mul, ← sub_eq_add_neg]
  ring

theorem triangular_splits {o : MapOptions} {k n p : ℕ} (h0 : 0 < n) (h2 : k + n < 2 ^ 32) (hB : GoodBasis o p) (hQ : GoodQuad o) (hcd : o.contDeriv = true) :
    ∃ b mesh, ∃ ts : Fin n → List (List ℕ), IsBasisOf o (fun n => n ≤ p) b ∧ IsMeshOf o mesh ∧ (∀ i : Fin n, IsTotalOrder (k + i + 1) p (ts i)) ∧
      ∀ mem work, ∃ T split, createTriangular (k + n) n p o mem work = .ok (T, zeros T.numCoeffs) ∧ Splits o b mesh k ts split T := by
  obtain ⟨b, quad, mesh, hsel⟩ := selected le_rfl hB hQ
  obtain ⟨ts, hts, h⟩ := splits_of_selected hsel h0 h2 hcd
  exact ⟨b, mesh, ts, hsel.isBasis, hsel.isMesh, hts, h⟩

/-! ### Changing the coefficients of one output -/

/-- `c + t e`. -/
noncomputable def combine (N : ℕ) (c : List ℝ) (t : ℝ) (e : List ℝ) : List ℝ := (List.range N).map fun k => c.getD k 0 + t * e.getD k 0

theorem combine_getD {N : ℕ} (c : List ℝ) (t : ℝ) (e : List ℝ) {k : ℕ} (hk : k < N) : (combine N c t e).getD k 0 = c.getD k 0 + t * e.getD k 0 := by
  simp [combine, hk]

theorem expand_combine (b : Basis ℝ) (D : ℕ) (ts : List (List ℕ)) (c : List ℝ) (t : ℝ) (e : List ℝ) (X : ℕ → ℝ) :
    expandAt b D ts (combine ts.length c t e) X = expandAt b D ts c X + t * expandAt b D ts e X := by
  simp only [expandAt, expansion, mul_sum, ← sum_add_distrib]
  refine sum_congr rfl fun k hk => ?_
  rw [combine_getD _ _ _ (mem_range.1 hk)]
  ring

theorem diag_combine {b : Basis ℝ} {d p : ℕ} (hb : ∀ k ≤ p, Differentiable ℝ (b.val k)) {ts : List (List ℕ)} (hts : ∀ t ∈ ts, ∀ m ∈ t, m ≤ p) (c : List ℝ) (t : ℝ) (e : List ℝ)
    (X : ℕ → ℝ) : diagD b (d + 1) ts (combine ts.length c t e) X = diagD b (d + 1) ts c X + t * diagD b (d + 1) ts e X := by
  simp only [diag_formula hb hts, mul_sum, ← sum_add_distrib]
  refine sum_congr rfl fun k hk => ?_
  rw [combine_getD _ _ _ (mem_range.1 hk)]
  ring

/-- At a minimum no change of the coefficients of one output lowers its contribution. -/
theorem cost_le {o : MapOptions} {b : Basis ℝ} {mesh : (ℝ → ℝ) → List (ℝ × ℝ)} {k n : ℕ} {ts : Fin n → List (List ℕ)} {split : List ℝ → Fin n → List ℝ} {T : CMap}
    (hS : Splits o b mesh k ts split T) {data : List (List ℝ)} (hne : data ≠ []) (hdata : ∀ x ∈ data, x.length = k + n) {c : List ℝ} (hc : MinimisesKL T data c) (i : Fin n)
    {e : List ℝ} (he : e.length = (ts i).length) : compCost o b mesh k data i (ts i) (split c i) ≤ compCost o b mesh k data i (ts i) e := by
  obtain ⟨hl, v, v1, v2⟩ := hc
  rw [hS.outputs] at v1 v2
  set cs := Function.update (split c) i e with hcs
  have hsl : Slices ts cs (List.ofFn cs).flatten := ⟨rfl, fun j => by
    by_cases hj : j = i
    · subst hj; rw [hcs, Function.update_self, he]
    · rw [hcs, Function.update_of_ne hj, (hS.slices c hl).2]⟩
  have hc' : (List.ofFn cs).flatten.length = T.numCoeffs := by
    rw [slices_length hsl, ← slices_length (hS.slices c hl), hl]
  have hsp : split (List.ofFn cs).flatten = cs := slices_unique (hS.slices _ hc') hsl
  have h1 := hS.objective _ data hc' hne hdata
  have h2 := v2 _ _ hc' h1
  rw [hS.objective c data hl hne hdata] at v1
  cases v1
  rw [hsp, ← add_sum_erase univ _ (mem_univ i), ← add_sum_erase univ (fun j : Fin n => compCost o b mesh k data j (ts j) (cs j)) (mem_univ i)] at h2
  rw [show ∑ j ∈ univ.erase i, compCost o b mesh k data j (ts j) (cs j) = ∑ j ∈ univ.erase i, compCost o b mesh k data j (ts j) (split c j) from
    sum_congr rfl fun j hj => by rw [hcs, Function.update_of_ne (ne_of_mem_erase hj)], hcs, Function.update_self] at h2
  linarith

theorem slope_zero {A B : ℝ} (hB : 0 ≤ B) (h : ∀ t : ℝ, 0 ≤ t * A + t ^ 2 * B) : A = 0 := by
  have h1 := h (-A / (2 * B + 1))
  have h2 : (0 : ℝ) < 2 * B + 1 := by linarith
  have h3 : -A / (2 * B + 1) * A + (-A / (2 * B + 1)) ^ 2 * B = -(A ^ 2 * (B + 1)) / (2 * B + 1) ^ 2 := by
    field_simp
    ring
  rw [h3, neg_div, Left.nonneg_neg_iff, div_le_iff₀ (by positivity), zero_mul] at h1
  have : A ^ 2 ≤ 0 := by nlinarith [sq_nonneg A]
  exact pow_eq_zero_iff two_ne_zero |>.1 (le_antisymm this (sq_nonneg A))

section
variable {o : MapOptions} {b : Basis ℝ} {mesh : (ℝ → ℝ) → List (ℝ × ℝ)} {k n p : ℕ} {ts : Fin n → List (List ℕ)} {split : List ℝ → Fin n → List ℝ} {T : CMap}
  (hb : IsBasisOf o (fun n => n ≤ p) b) (hB : GoodBasis o p) (hts : ∀ i : Fin n, IsTotalOrder (k + i + 1) p (ts i)) (hS : Splits o b mesh k ts split T)
  {data : List (List ℝ)} (hne : data ≠ []) (hdata : ∀ x ∈ data, x.length = k + n) {c : List ℝ} (hc : MinimisesKL T data c) (i : Fin n)

include hS hne hdata hc in
theorem orthogonal {F : (ℕ → ℝ) → ℝ} (hF : Reps b.eff (k + i + 1) (ts i) F) (hu : ∀ X y, F (Function.update X (k + i) y) = F X) :
    average data (fun x => compOutput o b mesh k (ts i) (split c i) i x * F (coords x)) = 0 := by
  obtain ⟨e, he, hF⟩ := hF.expand
  refine slope_zero (B := 1 / 2 * average data fun x => F (coords x) ^ 2) (by
    have := average_nonneg data (f := fun x => F (coords x) ^ 2) fun x _ => sq_nonneg _
    linarith) fun t => ?_
  have h1 := cost_le hS hne hdata hc i (e := combine (ts i).length (split c i) t e) (by simp [combine])
  have hup : ∀ X y, expandAt b.eff (k + i + 1) (ts i) (combine (ts i).length (split c i) t e) (Function.update X (k + i) y)
      = expandAt b.eff (k + i + 1) (ts i) (split c i) (Function.update X (k + i) y) + t * F X := fun X y => by rw [expand_combine, hF, hu]
  have hd : ∀ X, diagD b.eff (k + i + 1) (ts i) (combine (ts i).length (split c i) t e) X = diagD b.eff (k + i + 1) (ts i) (split c i) X := fun X => by
    simp only [diagD, partialDeriv, Nat.add_sub_cancel, hup]
    rw [deriv_add_const]
  have ho : ∀ X, offset b.eff (k + i + 1) (ts i) (combine (ts i).length (split c i) t e) X = offset b.eff (k + i + 1) (ts i) (split c i) X + t * F X := fun X => hup X 0
  have hunit : ∀ X, unitDensity b.eff (positive o.posFuncType) 0 (k + i + 1) (ts i) (combine (ts i).length (split c i) t e) X
      = unitDensity b.eff (positive o.posFuncType) 0 (k + i + 1) (ts i) (split c i) X := fun X => by
    funext s
    simp only [unitDensity, density, hd]
  have hy : ∀ x, compOutput o b mesh k (ts i) (combine (ts i).length (split c i) t e) i x = compOutput o b mesh k (ts i) (split c i) i x + t * F (coords x) := fun x => by
    simp only [compOutput, discretised, hunit, ho]
    ring
  have hs : ∀ x, compSlope o b k (ts i) (combine (ts i).length (split c i) t e) i x = compSlope o b k (ts i) (split c i) i x := fun x => by
    simp only [compSlope, hd]
  simp only [compCost, hy, hs] at h1
  rw [average_congr (data := data) (f := fun x => (compOutput o b mesh k (ts i) (split c i) i x + t * F (coords x)) ^ 2)
    (g := fun x => compOutput o b mesh k (ts i) (split c i) i x ^ 2 + (2 * t * (compOutput o b mesh k (ts i) (split c i) i x * F (coords x)) + t ^ 2 * F (coords x) ^ 2))
    fun x _ => by ring, average_add, average_add, average_mul, average_mul] at h1
  linarith

include hts in
theorem offset_reps (cs : List ℝ) : Reps b.eff (k + i + 1) (ts i) (offset b.eff (k + i + 1) (ts i) cs) := by
  have := lift_reps (b := b.eff) (eff_zero b) (hts i) (ts₀ := (ts i).map (List.take (k + i))) (fun v hv => by
    obtain ⟨t, ht, rfl⟩ := List.mem_map.1 hv
    obtain ⟨e1, e2⟩ := ((hts i).2 t).1 ht
    refine ⟨by simp [e1], le_trans ?_ e2⟩
    conv_rhs => rw [← List.take_append_drop (k + i) t, List.sum_append]
    omega) fun j => cs.getD j 0 * b.eff.val (((ts i).getD j []).getD (k + i) 0) 0
  refine Eq.mp (congrArg _ (funext fun X => ?_)) this
  rw [List.length_map]
  simp only [offset, expandAt, expansion, termProd, Nat.add_sub_cancel]
  refine sum_congr rfl fun j hj => ?_
  rw [prod_range_succ, Function.update_self, mul_assoc, mul_comm (b.eff.val _ 0)]
  congr 2
  refine prod_congr rfl fun d hd => ?_
  have hd := mem_range.1 hd
  rw [Function.update_of_ne hd.ne]
  congr 1
  have hj := mem_range.1 hj
  simp [List.getD_eq_getElem?_getD, hj, hd]

include hb hB hts hS hne hdata hc in
theorem unit_moment (hp : 0 < p) (hexp : o.posFuncType = .exp) (hmesh : ∀ f g, mesh f = mesh g) :
    average data (fun x => compOutput o b mesh k (ts i) (split c i) i x ^ 2) = 1 := by
  obtain ⟨α, hα0, hα⟩ := degree_one (show IsBasisOf o (fun n => n ≤ 1) b from by
    obtain ⟨a, h1, h2, h3, h4⟩ := hb
    exact ⟨a, fun n hn => h1 n (hn.trans hp), h2, h3, fun n hn => h4 n (hn.trans hp)⟩)
  have hlin : Reps b.eff (k + i + 1) (ts i) fun X => α * X (k + i) := by
    have := Reps.term (b := b.eff) (fun l : Fin (k + i + 1) => if l = Fin.last _ then 1 else 0)
      (((hts i).2 (List.ofFn fun l : Fin (k + i + 1) => if l = Fin.last _ then 1 else 0)).2
        ⟨by simp, by rw [List.sum_ofFn, sum_ite_eq' univ (Fin.last _), if_pos (mem_univ _)]; exact hp⟩)
    refine Eq.mp (congrArg _ (funext fun X => ?_)) this
    rw [prod_eq_single (Fin.last _) (fun l _ hne => by rw [if_neg hne, eff_zero]) (by simp), if_pos rfl, hα]
    rfl
  obtain ⟨e, he, hF⟩ := hlin.expand
  have hbs : ∀ m ≤ p, Differentiable ℝ (b.eff.val m) := fun m hm => (isBasis_contDiff hb hB.bounds m hm).differentiable one_ne_zero
  have hps : ∀ t ∈ ts i, ∀ m ∈ t, m ≤ p := fun t ht m hm => (List.single_le_sum (by simp) m hm).trans (((hts i).2 t).1 ht).2
  have hde : ∀ X, diagD b.eff (k + i + 1) (ts i) e X = α := fun X => by
    simp only [diagD, partialDeriv, Nat.add_sub_cancel, hF, Function.update_self]
    exact ((hasDerivAt_id (X (k + i))).const_mul α).deriv.trans (mul_one _)
  set y := fun x => compOutput o b mesh k (ts i) (split c i) i x with hy
  set f := fun x => offset b.eff (k + i + 1) (ts i) (split c i) (coords x) with hf
  have hcost : ∀ s : ℝ, compCost o b mesh k data i (ts i) (combine (ts i).length (split c i) (s / α) e)
      = 1 / 2 * average data (fun x => (f x + Real.exp s * (y x - f x)) ^ 2) - (average data (fun x => Real.log (compSlope o b k (ts i) (split c i) i x)) + s) := by
    intro s
    have hd : ∀ X, diagD b.eff (k + i + 1) (ts i) (combine (ts i).length (split c i) (s / α) e) X = diagD b.eff (k + i + 1) (ts i) (split c i) X + s := fun X => by
      rw [diag_combine hbs hps, hde, div_mul_cancel₀ _ hα0.ne']
    have hg : ∀ X, positive o.posFuncType (diagD b.eff (k + i + 1) (ts i) (combine (ts i).length (split c i) (s / α) e) X)
        = Real.exp s * positive o.posFuncType (diagD b.eff (k + i + 1) (ts i) (split c i) X) := fun X => by
      rw [hd, hexp]
      simp only [positive]
      rw [Real.exp_add, mul_comm]
    have ho : ∀ X, offset b.eff (k + i + 1) (ts i) (combine (ts i).length (split c i) (s / α) e) X = offset b.eff (k + i + 1) (ts i) (split c i) X := fun X => by
      simp only [offset, expand_combine, hF, Nat.add_sub_cancel, Function.update_self, mul_zero, add_zero]
    have hout : ∀ x, compOutput o b mesh k (ts i) (combine (ts i).length (split c i) (s / α) e) i x = f x + Real.exp s * (y x - f x) := fun x => by
      simp only [hy, hf, compOutput, discretised, ho, unitDensity, density, hg, add_zero, add_sub_cancel_left]
      rw [hmesh _ (unitDensity b.eff (positive o.posFuncType) 0 (k + i + 1) (ts i) (split c i) (coords x)), ← List.sum_map_mul_left]
      congr 3
      funext q
      ring
    have hsl : ∀ x, Real.log (compSlope o b k (ts i) (combine (ts i).length (split c i) (s / α) e) i x) = Real.log (compSlope o b k (ts i) (split c i) i x) + s := fun x => by
      rw [compSlope, hg, Real.log_mul (Real.exp_pos _).ne' (positive_pos' _ _).ne', Real.log_exp, add_comm, compSlope]
    simp only [compCost, hout, hsl, average_add, average_const hne]
  have hmin : ∀ s : ℝ, 0 ≤ (Real.exp s - 1) * average data (fun x => f x * (y x - f x)) + (Real.exp s ^ 2 - 1) / 2 * average data (fun x => (y x - f x) ^ 2) - s := by
    intro s
    have h1 := cost_le hS hne hdata hc i (e := combine (ts i).length (split c i) (s / α) e) (by simp [combine])
    rw [hcost s, compCost] at h1
    rw [average_congr (data := data) (f := fun x => (f x + Real.exp s * (y x - f x)) ^ 2)
      (g := fun x => f x ^ 2 + (2 * Real.exp s * (f x * (y x - f x)) + Real.exp s ^ 2 * (y x - f x) ^ 2)) fun x _ => by ring,
      average_congr (data := data) (f := fun x => compOutput o b mesh k (ts i) (split c i) i x ^ 2)
      (g := fun x => f x ^ 2 + (2 * (f x * (y x - f x)) + (y x - f x) ^ 2)) fun x _ => by simp only [hy]; ring, average_add, average_add, average_add, average_add,
      average_mul, average_mul, average_mul] at h1
    linarith
  have h0 : average data (fun x => y x * f x) = 0 := orthogonal hS hne hdata hc i (offset_reps hts i (split c i)) fun X z => by
    simp [offset]
  set A := average data fun x => f x * (y x - f x) with hA
  set V := average data fun x => (y x - f x) ^ 2 with hV
  have hder : HasDerivAt (fun s : ℝ => (Real.exp s - 1) * A + (Real.exp s ^ 2 - 1) / 2 * V - s) (A + V - 1) 0 := by
    have h1 := Real.hasDerivAt_exp 0
    have := (((h1.sub_const 1).mul_const A).add ((((h1.pow 2).sub_const 1).div_const 2).mul_const V)).sub (hasDerivAt_id (0 : ℝ))
    refine this.congr_deriv ?_
    simp
  have hz : A + V - 1 = 0 := by
    refine IsLocalMin.hasDerivAt_eq_zero (f := fun s : ℝ => (Real.exp s - 1) * A + (Real.exp s ^ 2 - 1) / 2 * V - s) (Filter.Eventually.of_forall fun s => ?_) hder
    simpa using hmin s
  rw [average_congr (g := fun x => y x * f x + (f x * (y x - f x) + (y x - f x) ^ 2)) fun x _ => by simp only [hy]; ring, average_add, average_add, h0]
  linarith

end

section
variable {data : List (List ℝ)} {k n p : ℕ} {o : MapOptions} (h0 : 0 < n) (h2 : k + n < 2 ^ 32) (hB : GoodBasis o p) (hQ : GoodQuad o) (hcd : o.contDeriv = true)
  {mem : ℕ → Option ℝ} {work : List ℝ} {T : CMap} {w : List ℝ} (hT : createTriangular (k + n) n p o mem work = .ok (T, w)) (hne : data ≠ [])
  (hdata : ∀ x ∈ data, x.length = k + n) {c : List ℝ} (hc : MinimisesKL T data c)
include h0 h2 hB hQ hcd hT hne hdata hc

/-- **C122.** Where the training objective is minimal the outputs have mean 0 on the data, for every order, basis, positive function and quadrature. -/
theorem C122_centred (i : Fin n) : average data (fun x => (fn T c x).getD i 0) = 0 := by
  obtain ⟨b, mesh, ts, hb, -, hts, h⟩ := triangular_splits (k := k) h0 h2 hB hQ hcd
  obtain ⟨T', split, t1, hS⟩ := h mem work
  obtain ⟨rfl, -⟩ := Prod.mk.inj (Res.ok.inj (hT.symm.trans t1))
  have h1 : Reps b.eff (k + i + 1) (ts i) fun _ => 1 := by
    have := Reps.term (b := b.eff) (fun _ : Fin (k + i + 1) => 0) (((hts i).2 (List.ofFn fun _ : Fin (k + i + 1) => 0)).2 ⟨by simp, by simp⟩)
    simpa [eff_zero] using this
  rw [← orthogonal hS hne hdata hc i h1 fun _ _ => rfl]
  exact average_congr fun x hx => by rw [hS.value c x hc.1 (hdata x hx)]; simp

/-- **C122.** With a polynomial basis they are uncorrelated with every polynomial, of total degree up to the order of the map, in the inputs before the diagonal one. -/
theorem C122_uncorrelated (hf : o.basisType ≠ .hermiteFunctions) (i : Fin n) (hin : ∀ x ∈ data, ∀ d < k + i, WithinBounds o (coords x d)) {q : MvPolynomial (Fin (k + i)) ℝ}
    (hq : q.totalDegree ≤ p) : average data (fun x => (fn T c x).getD i 0 * MvPolynomial.eval (fun j : Fin (k + i) => coords x j) q) = 0 := by
  obtain ⟨b, mesh, ts, hb, -, hts, h⟩ := triangular_splits (k := k) h0 h2 hB hQ hcd
  obtain ⟨T', split, t1, hS⟩ := h mem work
  obtain ⟨rfl, -⟩ := Prod.mk.inj (Res.ok.inj (hT.symm.trans t1))
  obtain ⟨Q, q1, q2, q3⟩ := poly_expand hb hf (hts i) hq
  rw [← orthogonal hS hne hdata hc i q1 q2]
  refine average_congr fun x hx => ?_
  rw [hS.value c x hc.1 (hdata x hx), q3 _ (hin x hx), show first (k + i) (coords x) = fun j : Fin (k + i) => coords x j from rfl]
  simp

/-- **C122.** With the exponential as positive function and the fixed quadrature they have mean square 1, and the objective is `n/2 (1 + log 2π)` minus the mean of the
log-determinant. -/
theorem C122_unit (hp : 0 < p) (hexp : o.posFuncType = .exp) (hcc : o.quadType = .clenshawCurtis) :
    (∀ i : Fin n, average data (fun x => (fn T c x).getD i 0 ^ 2) = 1) ∧
    KL.objective T (Gaussian.ofDim T.outputDim).density c data = .ok (some (n / 2 * (1 + Real.log (2 * Real.pi)) - average data fun x => logdet T c x)) := by
  obtain ⟨b, mesh, ts, hb, hm, hts, h⟩ := triangular_splits (k := k) h0 h2 hB hQ hcd
  obtain ⟨T', split, t1, hS⟩ := h mem work
  obtain ⟨rfl, -⟩ := Prod.mk.inj (Res.ok.inj (hT.symm.trans t1))
  have hmesh : ∀ f g, mesh f = mesh g := fun f g => by
    have := hm.2
    rw [hcc] at this
    obtain ⟨⟨R, rfl, -⟩, -⟩ := this
    rfl
  have hu := fun i => unit_moment hb hB hts hS hne hdata hc i hp hexp hmesh
  refine ⟨fun i => (average_congr fun x hx => ?_).trans (hu i), ?_⟩
  · rw [hS.value c x hc.1 (hdata x hx)]; simp
  · rw [hS.outputs, hS.objective c data hc.1 hne hdata]
    simp only [compCost, hu, sum_sub_distrib, sum_const, card_univ, Fintype.card_fin, nsmul_eq_mul]
    rw [← average_sum, average_congr (g := fun x => logdet T c x) fun x hx => (hS.logDet c x hc.1 (hdata x hx)).symm]
    congr 2
    ring

end

/-- Options of the example: unnormalised Hermite polynomials, the exponential and the rule with one point. -/
def pairOptions : MapOptions := { basisType := .probabilistHermite, posFuncType := .exp, quadType := .clenshawCurtis, quadPts := 1, contDeriv := true, basisNorm := false }

/-- A map of order two whose objective, on the samples -1 and 1, is minimal with coefficients 0: the hypotheses of all three theorems are met. -/
theorem pair_trained : ∃ T w c, createTriangular 1 1 2 pairOptions (fun _ => none) [] = .ok (T, w) ∧ MinimisesKL T [[-1], [1]] c ∧ GoodBasis pairOptions 2 ∧ GoodQuad pairOptions := by
  have hB : GoodBasis pairOptions 2 := reaches_good (r := 0) ⟨fun _ => rfl, fun h => absurd h (by decide), by simp [Ordered, pairOptions], by simp [pairOptions], by simp [pairOptions]⟩ 2
  have hQ : GoodQuad pairOptions := ⟨fun _ => by decide, fun h => absurd h (by decide), fun h => absurd rfl h⟩
  obtain ⟨b, mesh, ts, hb, hm, hts, h⟩ := triangular_splits (k := 0) (n := 1) one_pos (by norm_num) hB hQ rfl
  obtain ⟨T, split, t1, hS⟩ := h (fun _ => none) []
  obtain ⟨⟨R, rfl, hR⟩, hex⟩ : (∃ R : List (ℝ × ℝ), mesh = (fun _ => R) ∧ R.length = 1) ∧ ExactTo 0 mesh := hm.2
  obtain ⟨⟨t, v⟩, rfl⟩ := List.length_eq_one_iff.1 hR
  have hv : v = 1 := by simpa using hex (fun _ => 0) (Polynomial.C 1) (by simp)
  subst hv
  have hbs : ∀ m ≤ 2, Differentiable ℝ (b.eff.val m) := fun m hm => (isBasis_contDiff hb hB.bounds m hm).differentiable one_ne_zero
  have hps : ∀ t ∈ ts 0, ∀ m ∈ t, m ≤ 2 := fun t ht m hm => (List.single_le_sum (by simp) m hm).trans (((hts 0).2 t).1 ht).2
  obtain ⟨α, -, hα⟩ := degree_one (show IsBasisOf pairOptions (fun n => n ≤ 1) b from by
    obtain ⟨a, h1, h2, h3, h4⟩ := hb
    exact ⟨a, fun n hn => h1 n (hn.trans one_le_two), h2, h3, fun n hn => h4 n (hn.trans one_le_two)⟩)
  have hsym : ∀ m ≤ 2, ∀ s, deriv (b.eff.val m) s + deriv (b.eff.val m) (-s) = 2 * deriv (b.eff.val m) 0 := by
    intro m hm s
    interval_cases m
    · rw [show b.eff.val 0 = fun _ => 1 from funext (eff_zero b)]
      simp
    · rw [show b.eff.val 1 = fun x => α * x from funext hα]
      have : ∀ s, deriv (fun x : ℝ => α * x) s = α := fun s => ((hasDerivAt_id s).const_mul α).deriv.trans (mul_one _)
      rw [this, this, this]
      ring
    · obtain ⟨a, -, -, h3, h4⟩ := hb
      have hv : b.eff.val 2 = fun x => x ^ 2 - 1 := by
        funext x
        rw [show b.eff.val 2 x = b.val 2 x from by simp [Basis.eff], h4 2 le_rfl, h3 (.inl rfl) 2]
        simp [extend, linearize, pairOptions, rawFamily, He]
        ring
      have : ∀ s, deriv (fun x : ℝ => x ^ 2 - 1) s = 2 * s := fun s => (((hasDerivAt_id s).pow 2).sub_const 1).deriv.trans (by simp)
      rw [hv, this, this, this]
      ring
  set δ : List ℝ → ℝ → ℝ := fun e s => ∑ j ∈ range (ts 0).length, e.getD j 0 * deriv (b.eff.val (((ts 0).getD j []).getD 0 0)) s with hδ
  have hmid : ∀ e s, δ e s + δ e (-s) = 2 * δ e 0 := fun e s => by
    simp only [hδ, ← sum_add_distrib, mul_sum]
    refine sum_congr rfl fun j _ => ?_
    rw [← mul_add, hsym _ (entry_bound hps j 0)]
    ring
  have hdiag : ∀ e X, diagD b.eff (0 + 1) (ts 0) e X = δ e (X 0) := fun e X => by
    rw [diag_formula hbs hps]
    simp [hδ]
  have hoff : ∀ e X, offset b.eff (0 + 1) (ts 0) e X = offset b.eff (0 + 1) (ts 0) e 0 := fun e X => by
    simp [offset, expandAt, expansion, termProd]
  have hcost : ∀ e, compCost pairOptions b (fun _ => [(t, 1)]) 0 [[-1], [1]] 0 (ts 0) e
      = 1 / 4 * ((offset b.eff (0 + 1) (ts 0) e 0 - Real.exp (δ e (-t))) ^ 2 + (offset b.eff (0 + 1) (ts 0) e 0 + Real.exp (δ e t)) ^ 2) - δ e 0 := fun e => by
    have hpos : positive pairOptions.posFuncType = Real.exp := rfl
    have h1 := hmid e 1
    simp only [compCost, average, compOutput, compSlope, discretised, unitDensity, density, hpos, Real.log_exp, hoff e (coords _)]
    rw [show (0 + 0 + 1 : ℕ) = 0 + 1 from rfl]
    simp only [hdiag]
    simp [coords]
    linarith
  have hzero : ∀ j, (split (zeros T.numCoeffs) 0).getD j 0 = 0 := fun j => by
    have := (hS.slices (zeros T.numCoeffs) (by simp [zeros])).1
    simp at this
    rw [this]
    simp only [zeros, List.getD_eq_getElem?_getD, List.getElem?_replicate]
    split <;> rfl
  refine ⟨T, _, zeros T.numCoeffs, t1, ⟨by simp [zeros], _, by rw [hS.outputs]; exact hS.objective _ _ (by simp [zeros]) (by simp) (by simp), fun c' v' hc' hv' => ?_⟩, hB, hQ⟩
  rw [hS.outputs, hS.objective _ _ hc' (by simp) (by simp)] at hv'
  cases hv'
  simp only [univ_unique, Fin.default_eq_zero, sum_singleton, Fin.val_zero, add_le_add_iff_right]
  rw [hcost, hcost]
  have e1 : ∀ s, δ (split (zeros T.numCoeffs) 0) s = 0 := fun s => sum_eq_zero fun j _ => by rw [hzero, zero_mul]
  have e2 : offset b.eff (0 + 1) (ts 0) (split (zeros T.numCoeffs) 0) 0 = 0 := by
    rw [offset, expandAt, expansion]
    exact sum_eq_zero fun j _ => by rw [hzero, zero_mul]
  rw [e1, e1, e1, e2, Real.exp_zero]
  set f := offset b.eff (0 + 1) (ts 0) (split c' 0) 0
  set u := Real.exp (δ (split c' 0) t) with hu
  set z := Real.exp (δ (split c' 0) (-t)) with hz
  have h1 : u * z = Real.exp (δ (split c' 0) 0) ^ 2 := by rw [hu, hz, ← Real.exp_add, hmid, ← Real.exp_nat_mul]; norm_num
  have h2 := Real.add_one_le_exp (2 * δ (split c' 0) 0)
  rw [show Real.exp (2 * δ (split c' 0) 0) = Real.exp (δ (split c' 0) 0) ^ 2 by rw [← Real.exp_nat_mul]; norm_num, ← h1] at h2
  nlinarith [sq_nonneg (2 * f + u - z), sq_nonneg (u - z)]

end MParT
