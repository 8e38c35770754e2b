import Verif.Props.Universal
import Mathlib.Analysis.InnerProductSpace.Projection.FiniteDimensional
import Mathlib.Analysis.InnerProductSpace.PiL2
/-!
# C120: training a map of order one is linear regression
-/
namespace MParT
open Finset Spec MapFactory

/-! ### Maps of order one are affine -/

/-- An affine function of the first `D` coordinates. -/
def IsAffine (D : ℕ) (F : (ℕ → ℝ) → ℝ) : Prop := ∃ (a : ℝ) (β : ℕ → ℝ), ∀ X, F X = a + ∑ j ∈ range D, β j * X j

theorem IsAffine.const (D : ℕ) (a : ℝ) : IsAffine D fun _ => a := ⟨a, fun _ => 0, fun X => by simp⟩

theorem IsAffine.add {D : ℕ} {F G : (ℕ → ℝ) → ℝ} (hF : IsAffine D F) (hG : IsAffine D G) : IsAffine D fun X => F X + G X := by
  obtain ⟨a, β, h⟩ := hF
  obtain ⟨a', β', h'⟩ := hG
  exact ⟨a + a', fun j => β j + β' j, fun X => by simp only [h, h', add_mul, sum_add_distrib]; ring⟩

theorem IsAffine.mul {D : ℕ} {F : (ℕ → ℝ) → ℝ} (v : ℝ) (hF : IsAffine D F) : IsAffine D fun X => v * F X := by
  obtain ⟨a, β, h⟩ := hF
  exact ⟨v * a, fun j => v * β j, fun X => by simp only [h, mul_add, mul_sum, mul_assoc]⟩

theorem IsAffine.sum {D : ℕ} (S : Finset ℕ) {F : ℕ → (ℕ → ℝ) → ℝ} (h : ∀ i ∈ S, IsAffine D (F i)) : IsAffine D fun X => ∑ i ∈ S, F i X := by
  induction S using Finset.induction_on with
  | empty => simpa using IsAffine.const D 0
  | insert i S hi ih =>
    simp only [sum_insert hi]
    exact (h i (by simp)).add (ih fun j hj => h j (by simp [hj]))

theorem degrees_sum {t : List ℕ} {D : ℕ} (h : t.length = D) : t.sum = ∑ d ∈ range D, t.getD d 0 := by
  subst h
  rw [← Fin.sum_univ_eq_sum_range (fun d => t.getD d 0), ← List.sum_ofFn]
  congr 1
  exact List.ext_getElem (by simp) fun i h1 h2 => by simp

/-- The function of degree one is a multiple of its argument, in every family, with and without bounds. -/
theorem degree_one {o : MapOptions} {b : Basis ℝ} (hb : IsBasisOf o (fun n => n ≤ 1) b) : ∃ α > 0, ∀ x, b.eff.val 1 x = α * x := by
  obtain ⟨a, ha, -, -, h⟩ := hb
  obtain ⟨κ, hκ, hr⟩ : ∃ κ > 0, rawFamily o.basisType 1 = fun x => κ * x := by
    cases o.basisType with
    | probabilistHermite => exact ⟨1, one_pos, by funext x; simp [rawFamily, He]⟩
    | physicistHermite => exact ⟨2, two_pos, by funext x; simp [rawFamily, Hp, He, ← mul_assoc]⟩
    | hermiteFunctions => exact ⟨1, one_pos, by funext x; simp [rawFamily, hermiteFn]⟩
  refine ⟨κ / a 1, div_pos hκ (ha 1 le_rfl), fun x => ?_⟩
  have hd : ∀ y, deriv (fun x : ℝ => κ * x / a 1) y = κ / a 1 := fun y =>
    (((hasDerivAt_id y).const_mul κ).div_const (a 1)).deriv.trans (by simp)
  simp only [Basis.eff, if_neg one_ne_zero, h 1 le_rfl, extend, linearize, hr, hd]
  split
  · ring
  · split <;> ring

section
variable {b : Basis ℝ} {α : ℝ} (hα : ∀ x, b.eff.val 1 x = α * x)

theorem eff_zero (b : Basis ℝ) (x : ℝ) : b.eff.val 0 x = 1 := by simp [Basis.eff]

include hα in
theorem term_affine {D : ℕ} {t : List ℕ} (hl : t.length = D) (hs : t.sum ≤ 1) : IsAffine D fun X => ∏ d ∈ range D, b.eff.val (t.getD d 0) (X d) := by
  rw [degrees_sum hl] at hs
  by_cases h : ∀ d ∈ range D, t.getD d 0 = 0
  · refine ⟨1, fun _ => 0, fun X => ?_⟩
    beta_reduce
    rw [prod_congr rfl fun d hd => by rw [h d hd, eff_zero]]
    simp
  · push Not at h
    obtain ⟨j, hj, h0⟩ := h
    have h1 : t.getD j 0 = 1 := by
      have := single_le_sum (f := fun d => t.getD d 0) (fun _ _ => Nat.zero_le _) hj
      have : t.getD j 0 ≤ 1 := this.trans hs
      omega
    have h2 : ∀ d ∈ range D, d ≠ j → t.getD d 0 = 0 := fun d hd hne => by
      have := sum_le_sum_of_subset (f := fun d => t.getD d 0) (show ({j, d} : Finset ℕ) ⊆ range D by
        intro e he
        rcases mem_insert.1 he with rfl | he
        · exact hj
        · rw [mem_singleton.1 he]; exact hd)
      rw [sum_pair (Ne.symm hne), h1] at this
      omega
    refine ⟨0, fun d => if d = j then α else 0, fun X => ?_⟩
    beta_reduce
    rw [prod_eq_single j (fun d hd hne => by rw [h2 d hd hne, eff_zero]) (fun h => absurd hj h), h1, hα]
    simp [mem_range.1 hj]

include hα in
theorem expand_affine {D : ℕ} {ts : List (List ℕ)} (hts : IsTotalOrder D 1 ts) (c : List ℝ) : IsAffine D (expandAt b.eff D ts c) := by
  have : expandAt b.eff D ts c = fun X => ∑ k ∈ range ts.length, c.getD k 0 * ∏ d ∈ range D, b.eff.val ((ts.getD k []).getD d 0) (X d) := rfl
  rw [this]
  refine IsAffine.sum _ fun k hk => (term_affine hα ?_ ?_).mul _
  all_goals
    have hm : ts.getD k [] ∈ ts := by
      rw [List.getD_eq_getElem?_getD, List.getElem?_eq_getElem (mem_range.1 hk)]
      exact List.getElem_mem _
    have := (hts.2 _).1 hm
  · exact this.1
  · exact this.2

include hα in
theorem affine_expand {D : ℕ} {ts : List (List ℕ)} (hts : IsTotalOrder D 1 ts) (h0 : α ≠ 0) (a : ℝ) (β : ℕ → ℝ) :
    ∃ c : List ℝ, c.length = ts.length ∧ ∀ X, expandAt b.eff D ts c X = a + ∑ j ∈ range D, β j * X j := by
  have h : Reps b.eff D ts fun X => a * 1 + ∑ j : Fin D, β j / α * (α * X j) := by
    refine Reps.add (Reps.mul a ?_) (Reps.sum _ fun j _ => Reps.mul _ ?_)
    · have := Reps.term (b := b.eff) (fun _ : Fin D => 0) ((hts.2 (List.ofFn fun _ : Fin D => 0)).2 ⟨by simp, by simp⟩)
      simpa [eff_zero] using this
    · have := Reps.term (b := b.eff) (fun i : Fin D => if i = j then 1 else 0)
        ((hts.2 (List.ofFn fun i : Fin D => if i = j then 1 else 0)).2 ⟨by simp, by simp [List.sum_ofFn]⟩)
      refine Eq.mp (congrArg _ (funext fun X => ?_)) this
      rw [prod_eq_single j (fun i _ hne => by rw [if_neg hne, eff_zero]) (by simp), if_pos rfl, hα]
  obtain ⟨c, h1, h2⟩ := h.expand
  refine ⟨c, h1, fun X => ?_⟩
  rw [h2, mul_one, ← Fin.sum_univ_eq_sum_range (fun j => β j * X j)]
  congr 1
  refine sum_congr rfl fun j _ => ?_
  field_simp
end

theorem affine_parts {b : Basis ℝ} {D : ℕ} {ts : List (List ℕ)} {c : List ℝ} {a : ℝ} {β : ℕ → ℝ} (h : ∀ X, expandAt b (D + 1) ts c X = a + ∑ j ∈ range (D + 1), β j * X j)
    (X : ℕ → ℝ) : offset b (D + 1) ts c X = a + ∑ j ∈ range D, β j * X j ∧ diagD b (D + 1) ts c X = β D := by
  have hu : ∀ y, expandAt b (D + 1) ts c (Function.update X D y) = (a + ∑ j ∈ range D, β j * X j) + β D * y := fun y => by
    rw [h, sum_range_succ, Function.update_self, sum_congr rfl fun j hj => by rw [Function.update_of_ne (mem_range.1 hj).ne], add_assoc]
  refine ⟨(hu 0).trans (by rw [mul_zero, add_zero]), ?_⟩
  rw [diagD, partialDeriv, Nat.add_sub_cancel]
  simp only [hu]
  exact ((((hasDerivAt_id (X D)).const_mul (β D)).const_add _).deriv).trans (mul_one _)

/-- Output `i` of an affine triangular map with slopes `s`, constants `a` and coefficients `β` of the preceding inputs. -/
def Spec.affineOutput {n : ℕ} (k : ℕ) (s a : Fin n → ℝ) (β : Fin n → ℕ → ℝ) (x : List ℝ) (i : Fin n) : ℝ :=
  s i * coords x (k + i) + (a i + ∑ j ∈ range (k + i), β i j * coords x j)

/-- The average over the data. -/
noncomputable def Spec.average (data : List (List ℝ)) (f : List ℝ → ℝ) : ℝ := (data.map f).sum / data.length

/-- With the coefficients `c` the map is the affine triangular map with the given slopes. -/
structure Spec.ActsAs (T : CMap) (c : List ℝ) {n : ℕ} (k : ℕ) (s a : Fin n → ℝ) (β : Fin n → ℕ → ℝ) : Prop where
  value : ∀ x : List ℝ, x.length = k + n → fn T c x = List.ofFn (affineOutput k s a β x)
  logDet : ∀ (x : List ℝ) (out : Option ℝ), x.length = k + n → T.logDet c x out = .ok (some (∑ i, Real.log (s i)))
  objective : ∀ data : List (List ℝ), data ≠ [] → (∀ x ∈ data, x.length = k + n) → KL.objective T (Gaussian.ofDim n).density c data
    = .ok (some (∑ i, (1 / 2 * average data (fun x => affineOutput k s a β x i ^ 2) - Real.log (s i)) + n / 2 * Real.log (2 * Real.pi)))

theorem average_add (data : List (List ℝ)) (f g : List ℝ → ℝ) : average data (fun x => f x + g x) = average data f + average data g := by
  rw [average, average, average, List.sum_map_add, add_div]

theorem average_mul (data : List (List ℝ)) (v : ℝ) (f : List ℝ → ℝ) : average data (fun x => v * f x) = v * average data f := by
  rw [average, average, List.sum_map_mul_left, mul_div_assoc]

theorem average_sum {ι : Type} (data : List (List ℝ)) (S : Finset ι) (f : ι → List ℝ → ℝ) : average data (fun x => ∑ i ∈ S, f i x) = ∑ i ∈ S, average data (f i) := by
  classical
  induction S using Finset.induction_on with
  | empty => simp [average]
  | insert i S hi ih => simp only [sum_insert hi, average_add, ih]

theorem average_congr {data : List (List ℝ)} {f g : List ℝ → ℝ} (h : ∀ x ∈ data, f x = g x) : average data f = average data g := by
  rw [average, average, List.map_congr_left h]

theorem average_const {data : List (List ℝ)} (h : data ≠ []) (v : ℝ) : average data (fun _ => v) = v := by
  have : (data.length : ℝ) ≠ 0 := by simpa using h
  rw [average, List.map_const', List.sum_replicate, nsmul_eq_mul, mul_div_cancel_left₀ _ this]

theorem average_nonneg (data : List (List ℝ)) {f : List ℝ → ℝ} (h : ∀ x ∈ data, 0 ≤ f x) : 0 ≤ average data f :=
  div_nonneg (List.sum_nonneg fun y hy => by obtain ⟨x, hx, rfl⟩ := List.mem_map.1 hy; exact h x hx) (Nat.cast_nonneg _)

theorem average_sq_zero {data : List (List ℝ)} {f : List ℝ → ℝ} (h : average data (fun x => f x ^ 2) ≤ 0) : ∀ x ∈ data, f x = 0 := by
  intro x hx
  have hne : data ≠ [] := List.ne_nil_of_mem hx
  have hpos : (0 : ℝ) < data.length := by exact_mod_cast List.length_pos_iff.2 hne
  rw [average, div_le_iff₀ hpos, zero_mul] at h
  have := List.single_le_sum (l := data.map fun x => f x ^ 2) (fun y hy => by obtain ⟨x, -, rfl⟩ := List.mem_map.1 hy; exact sq_nonneg _) _
    (List.mem_map_of_mem hx)
  exact pow_eq_zero_iff two_ne_zero |>.1 (le_antisymm (this.trans h) (sq_nonneg _))

/-- Maps of order one are the affine triangular maps with positive slopes, exactly, whatever the family, the bounds, the positive function and the quadrature. -/
theorem C120_affine {o : MapOptions} {k n : ℕ} (h0 : 0 < n) (h2 : k + n < 2 ^ 32) (hB : GoodBasis o 1) (hQ : GoodQuad o) (hcd : o.contDeriv = true) (mem : ℕ → Option ℝ)
    (work : List ℝ) : ∃ T, createTriangular (k + n) n 1 o mem work = .ok (T, zeros T.numCoeffs) ∧ T.inputDim = k + n ∧ T.outputDim = n ∧
      (∀ c : List ℝ, c.length = T.numCoeffs → ∃ (s a : Fin n → ℝ) (β : Fin n → ℕ → ℝ), (∀ i, 0 < s i) ∧ ActsAs T c k s a β) ∧
      ∀ (s a : Fin n → ℝ) (β : Fin n → ℕ → ℝ), (∀ i, 0 < s i) → ∃ c : List ℝ, c.length = T.numCoeffs ∧ ActsAs T c k s a β := by
  obtain ⟨b, ts, hb, hts, h⟩ := C112_objective (inputDim := k + n) h0 (by omega) h2 hB hQ hcd
  simp only [Nat.add_sub_cancel] at hts h
  obtain ⟨T, split, t1, hT⟩ := h mem work
  obtain ⟨α, hα0, hα⟩ := degree_one hb
  have hbs : ∀ m ≤ 1, ContDiff ℝ 1 (b.eff.val m) := fun m hm => isBasis_contDiff hb hB.bounds m hm
  have hps : ∀ i, ∀ t ∈ ts i, ∀ m ∈ t, m ≤ 1 := fun i t ht m hm => (List.single_le_sum (by simp) m hm).trans (((hts i).2 t).1 ht).2
  have main : ∀ c : List ℝ, c.length = T.numCoeffs → ∀ (a : Fin n → ℝ) (β : Fin n → ℕ → ℝ),
      (∀ i : Fin n, ∀ X, expandAt b.eff (k + i + 1) (ts i) (split c i) X = a i + ∑ j ∈ range (k + i + 1), β i j * X j) →
      ActsAs T c k (fun i => positive o.posFuncType (β i (k + i))) a β := by
    intro c hc a β hexp
    have hparts := fun i X => affine_parts (hexp i) X
    have hex : ∀ x : List ℝ, x.length = k + n → ∀ i : Fin n, exactImage b.eff (positive o.posFuncType) k ts (split c) x i
        = affineOutput k (fun i => positive o.posFuncType (β i (k + i))) a β x i := fun x hx i => by
      rw [exactImage_eq hx, monotone, (hparts i _).1, affineOutput]
      simp only [density, (hparts i _).2, intervalIntegral.integral_const, smul_eq_mul, Nat.add_sub_cancel]
      ring
    have hval : ∀ x : List ℝ, x.length = k + n → fn T c x = List.ofFn (exactImage b.eff (positive o.posFuncType) k ts (split c) x) := fun x hx => by
      obtain ⟨h1, h2⟩ := hT.images c x hc hx
      refine List.ext_getElem (by simp [h1]) fun i hi hi' => ?_
      have hin : i < n := by omega
      have := h2 ⟨i, hin⟩ 0 ⟨Polynomial.C (coords x (k + i) * (positive o.posFuncType (β ⟨i, hin⟩ (k + i)))), by rw [Polynomial.natDegree_C]; omega, fun t _ _ => by
        simp [unitDensity, density, (hparts ⟨i, hin⟩ _).2]⟩
      rw [List.getD_eq_getElem?_getD, List.getElem?_eq_getElem hi, Option.getD_some, abs_le] at this
      rw [List.getElem_ofFn]
      linarith [this.1, this.2]
    have hlog : ∀ x : List ℝ, x.length = k + n → exactLogDet b.eff (positive o.posFuncType) k ts (split c) x = ∑ i, Real.log (positive o.posFuncType (β i (k + i))) :=
      fun x hx => by
      rw [exactLogDet, exact_det hbs hps _ (positive_contDiff o.posFuncType 1), Real.log_prod fun i _ => (positive_pos' _ _).ne', take_append_tail hx]
      refine sum_congr rfl fun i _ => ?_
      have hk : (x.take k).length = k := by simp [hx]
      rw [hk, (hparts i _).2]
    refine ⟨fun x hx => (hval x hx).trans (congrArg _ (funext (hex x hx))), fun x out hx => by rw [hT.logDet c x out hc hx, hlog x hx], fun data hne hdata => ?_⟩
    obtain ⟨v, v1, v2⟩ := hT.objective (Gaussian.ofDim n).density c data (C53_density (.dim n)).2.1 rfl hc hne hdata
    have v3 := v2 0 fun x hx => by rw [hval x (hdata x hx), sub_self, abs_zero]
    have v4 : v = _ := sub_eq_zero.1 (abs_nonpos_iff.1 v3)
    rw [v1, v4, exactObjective, List.map_congr_left (g := fun x => -((∑ i, 1 / 2 * affineOutput k (fun i => positive o.posFuncType (β i (k + i))) a β x i ^ 2)
      + (n / 2 * Real.log (2 * Real.pi) - ∑ i, Real.log (positive o.posFuncType (β i (k + i)))))) fun x hx => by
        rw [std_logp n (by simp), hlog x (hdata x hx), List.map_ofFn, List.sum_ofFn, ← mul_sum]
        simp only [Function.comp, hex x (hdata x hx)]
        ring]
    have e : -(data.map fun x => -((∑ i, 1 / 2 * affineOutput k (fun i => positive o.posFuncType (β i (k + i))) a β x i ^ 2)
      + (n / 2 * Real.log (2 * Real.pi) - ∑ i, Real.log (positive o.posFuncType (β i (k + i)))))).sum / data.length
      = average data fun x => (∑ i, 1 / 2 * affineOutput k (fun i => positive o.posFuncType (β i (k + i))) a β x i ^ 2)
      + (n / 2 * Real.log (2 * Real.pi) - ∑ i, Real.log (positive o.posFuncType (β i (k + i)))) := by
      have := average_mul data (-1) fun x => (∑ i, 1 / 2 * affineOutput k (fun i => positive o.posFuncType (β i (k + i))) a β x i ^ 2)
        + (n / 2 * Real.log (2 * Real.pi) - ∑ i, Real.log (positive o.posFuncType (β i (k + i))))
      simp only [neg_one_mul] at this
      rw [neg_div, ← average, this, neg_neg]
    rw [e, average_add, average_const hne, average_sum]
    simp only [average_mul, sum_sub_distrib]
    congr 2
    ring
  refine ⟨T, t1, hT.sizes.1, hT.sizes.2, fun c hc => ?_, fun s a β hs => ?_⟩
  · choose a β h using fun i : Fin n => expand_affine hα (hts i) (split c i)
    exact ⟨_, a, β, fun i => positive_pos' _ _, main c hc a β h⟩
  · choose cs hl hcs using fun i : Fin n => affine_expand hα (hts i) hα0.ne' (a i) (Function.update (β i) (k + i) (posInv o.posFuncType (s i)))
    have hsl : Slices ts cs (List.ofFn cs).flatten := ⟨rfl, hl⟩
    have hc : (List.ofFn cs).flatten.length = T.numCoeffs := by
      rw [slices_length hsl, ← slices_length (hT.slices (zeros T.numCoeffs) (by simp [zeros]))]
      simp [zeros]
    have hsplit : split (List.ofFn cs).flatten = cs := slices_unique (hT.slices _ hc) hsl
    have := main _ hc a (fun i => Function.update (β i) (k + i) (posInv o.posFuncType (s i))) (by rw [hsplit]; exact hcs)
    simp only [Function.update_self, positive_posInv _ (hs _)] at this
    refine ⟨_, hc, ?_⟩
    have he : affineOutput k s a (fun i => Function.update (β i) (k + i) (posInv o.posFuncType (s i))) = affineOutput k s a β := by
      funext x i
      rw [affineOutput, affineOutput, sum_congr rfl fun j hj => by rw [Function.update_of_ne (mem_range.1 hj).ne]]
    exact ⟨fun x hx => by rw [this.value x hx, he], this.logDet, fun data h1 h2 => by rw [this.objective data h1 h2, he]⟩

/-! ### Least squares -/

theorem sum_data (data : List (List ℝ)) (f : List ℝ → ℝ) : (data.map f).sum = ∑ i : Fin data.length, f data[i] := by
  rw [← List.sum_ofFn]
  congr 1
  exact List.ext_getElem (by simp) fun i h1 h2 => by simp

/-- The normal equations have a solution. -/
theorem normal_equations (data : List (List ℝ)) (D : ℕ) (w : List ℝ → ℝ) (z : ℕ → List ℝ → ℝ) :
    ∃ θ : ℕ → ℝ, ∀ j < D, average data (fun x => (w x - ∑ l ∈ range D, θ l * z l x) * z j x) = 0 := by
  let L : (Fin D → ℝ) →ₗ[ℝ] EuclideanSpace ℝ (Fin data.length) :=
    { toFun := fun θ => WithLp.toLp 2 fun i => ∑ l : Fin D, θ l * z l data[i]
      map_add' := fun θ θ' => by ext i; simp [add_mul, sum_add_distrib]
      map_smul' := fun a θ => by ext i; simp [mul_sum, mul_assoc] }
  obtain ⟨y, ⟨θ, rfl⟩, r, hr, e⟩ := (LinearMap.range L).exists_add_mem_mem_orthogonal (WithLp.toLp 2 fun i => w data[i])
  refine ⟨fun l => if h : l < D then θ ⟨l, h⟩ else 0, fun j hj => ?_⟩
  have h1 := (Submodule.mem_orthogonal _ _).1 hr (L (Pi.single ⟨j, hj⟩ 1)) ⟨_, rfl⟩
  rw [PiLp.inner_apply] at h1
  rw [average, sum_data, div_eq_zero_iff]
  left
  refine Eq.trans ?_ h1
  refine sum_congr rfl fun i _ => ?_
  have h2 : r i = w data[i] - ∑ l ∈ range D, (if h : l < D then θ ⟨l, h⟩ else 0) * z l data[i] := by
    have := congrArg (fun v : EuclideanSpace ℝ (Fin data.length) => v i) e
    simp only [L, LinearMap.coe_mk, AddHom.coe_mk, PiLp.add_apply] at this
    rw [this, ← Fin.sum_univ_eq_sum_range (fun l => (if h : l < D then θ ⟨l, h⟩ else 0) * z l data[i])]
    simp
  rw [← h2]
  simp [L, Pi.single_apply]

/-- What a whitened output leaves of the square of any other output. -/
theorem average_whitened {data : List (List ℝ)} {D : ℕ} {y : List ℝ → ℝ} (h1 : average data y = 0) (h2 : ∀ j < D, average data (fun x => y x * coords x j) = 0)
    (h3 : average data (fun x => y x ^ 2) = 1) (t p : ℝ) (q : ℕ → ℝ) :
    average data (fun x => (t * y x + (p + ∑ j ∈ range D, q j * coords x j)) ^ 2) = t ^ 2 + average data (fun x => (p + ∑ j ∈ range D, q j * coords x j) ^ 2) := by
  have h4 : average data (fun x => y x * (p + ∑ j ∈ range D, q j * coords x j)) = 0 := by
    have e : ∀ x, y x * (p + ∑ j ∈ range D, q j * coords x j) = p * y x + ∑ j ∈ range D, q j * (y x * coords x j) := fun x => by
      rw [mul_add, mul_sum]
      congr 1
      · ring
      · exact sum_congr rfl fun j _ => by ring
    simp only [e, average_add, average_mul, average_sum, h1, mul_zero, zero_add]
    exact sum_eq_zero fun j hj => by rw [h2 j (mem_range.1 hj), mul_zero]
  have e : ∀ x, (t * y x + (p + ∑ j ∈ range D, q j * coords x j)) ^ 2
      = t ^ 2 * y x ^ 2 + (2 * t * (y x * (p + ∑ j ∈ range D, q j * coords x j)) + (p + ∑ j ∈ range D, q j * coords x j) ^ 2) := fun x => by ring
  simp only [e, average_add, average_mul, h3, h4]
  ring

theorem log_le_half {t : ℝ} (ht : 0 < t) : Real.log t ≤ 1 / 2 * (t ^ 2 - 1) := by
  have := Real.log_le_sub_one_of_pos (pow_pos ht 2)
  rw [Real.log_pow] at this
  push_cast at this
  linarith

theorem log_eq_half {t : ℝ} (ht : 0 < t) (h : 1 / 2 * (t ^ 2 - 1) ≤ Real.log t) : t = 1 := by
  by_contra hne
  have h1 : t ^ 2 ≠ 1 := fun h => hne ((pow_eq_one_iff_of_nonneg ht.le two_ne_zero).1 h)
  have := Real.log_lt_sub_one_of_pos (pow_pos ht 2) h1
  rw [Real.log_pow] at this
  push_cast at this
  linarith

theorem parts_zero {A L B : ℝ} (h : (A - L) + 1 / 2 * B = 0) (hL : L ≤ A) (hB : 0 ≤ B) : A ≤ L ∧ B ≤ 0 := ⟨by linarith, by linarith⟩

/-- On the data the outputs have mean 0 and mean square 1 and are uncorrelated with the preceding inputs. -/
structure Spec.Standardises (data : List (List ℝ)) (k : ℕ) {n : ℕ} (y : List ℝ → Fin n → ℝ) : Prop where
  mean : ∀ i, average data (fun x => y x i) = 0
  unit : ∀ i, average data (fun x => y x i ^ 2) = 1
  uncorrelated : ∀ i : Fin n, ∀ j < k + i, average data (fun x => y x i * coords x j) = 0

/-- On the data, input `D` is an affine function of the inputs before it. -/
def Spec.Redundant (data : List (List ℝ)) (D : ℕ) : Prop := ∃ (a : ℝ) (β : ℕ → ℝ), ∀ x ∈ data, coords x D = a + ∑ j ∈ range D, β j * coords x j

/-- Among all coefficient vectors `c` makes the training objective with standard normal reference smallest. -/
def Spec.MinimisesKL (T : CMap) (data : List (List ℝ)) (c : List ℝ) : Prop :=
  c.length = T.numCoeffs ∧ ∃ v, KL.objective T (Gaussian.ofDim T.outputDim).density c data = .ok (some v) ∧
    ∀ c' v', c'.length = T.numCoeffs → KL.objective T (Gaussian.ofDim T.outputDim).density c' data = .ok (some v') → v ≤ v'

section
variable {data : List (List ℝ)} {k n : ℕ}

/-- What an affine map misses against a standardising one. -/
theorem gap {s a s' a' : Fin n → ℝ} {β β' : Fin n → ℕ → ℝ} (hs : ∀ i, 0 < s i) (hs' : ∀ i, 0 < s' i)
    (h : Standardises data k (affineOutput k s a β)) :
    ∑ i, (1 / 2 * average data (fun x => affineOutput k s' a' β' x i ^ 2) - Real.log (s' i))
      = ∑ i, (1 / 2 * average data (fun x => affineOutput k s a β x i ^ 2) - Real.log (s i))
      + ∑ i, ((1 / 2 * ((s' i / s i) ^ 2 - 1) - Real.log (s' i / s i))
          + 1 / 2 * average data (fun x => (affineOutput k s' a' β' x i - s' i / s i * affineOutput k s a β x i) ^ 2)) := by
  rw [← sum_add_distrib]
  refine sum_congr rfl fun i _ => ?_
  have hL : ∀ x, affineOutput k s' a' β' x i - s' i / s i * affineOutput k s a β x i
      = (a' i - s' i / s i * a i) + ∑ j ∈ range (k + i), (β' i j - s' i / s i * β i j) * coords x j := fun x => by
    have h0 := (hs i).ne'
    simp only [affineOutput, sub_mul, sum_sub_distrib, mul_add, mul_sum, mul_assoc, ← mul_assoc (s' i / s i) (s i), div_mul_cancel₀ _ h0]
    ring
  have hy : ∀ x, affineOutput k s' a' β' x i = s' i / s i * affineOutput k s a β x i
      + ((a' i - s' i / s i * a i) + ∑ j ∈ range (k + i), (β' i j - s' i / s i * β i j) * coords x j) := fun x => by rw [← hL]; ring
  have := average_whitened (D := k + i) (h.mean i) (h.uncorrelated i) (h.unit i) (s' i / s i) (a' i - s' i / s i * a i) (fun j => β' i j - s' i / s i * β i j)
  simp only [hL, h.unit i]
  simp only [hy, this, Real.log_div (hs' i).ne' (hs i).ne']
  ring

theorem gap_nonneg {s s' : Fin n → ℝ} (hs : ∀ i, 0 < s i) (hs' : ∀ i, 0 < s' i) (y y' : List ℝ → Fin n → ℝ) (i : Fin n) :
    0 ≤ (1 / 2 * ((s' i / s i) ^ 2 - 1) - Real.log (s' i / s i)) + 1 / 2 * average data (fun x => (y' x i - s' i / s i * y x i) ^ 2) := by
  have h1 := log_le_half (div_pos (hs' i) (hs i))
  have h2 := average_nonneg data (f := fun x => (y' x i - s' i / s i * y x i) ^ 2) fun x _ => sq_nonneg _
  exact add_nonneg (sub_nonneg.2 h1) (mul_nonneg (by norm_num) h2)

/-- When no input is redundant there is an affine map that standardises. -/
theorem exists_standardising (hne : ∀ i : Fin n, ¬ Redundant data (k + i)) : ∃ (s a : Fin n → ℝ) (β : Fin n → ℕ → ℝ), (∀ i, 0 < s i) ∧ Standardises data k (affineOutput k s a β) := by
  choose θ hθ using fun i : Fin n => normal_equations data (k + i + 1) (fun x => coords x (k + i)) fun l x => if l = 0 then 1 else coords x (l - 1)
  have hsum : ∀ (i : Fin n) (x : List ℝ), ∑ l ∈ range (k + i + 1), θ i l * (if l = 0 then 1 else coords x (l - 1)) = θ i 0 + ∑ j ∈ range (k + i), θ i (j + 1) * coords x j := fun i x => by
    rw [sum_range_succ']
    simp [add_comm]
  simp only [hsum] at hθ
  set r : List ℝ → Fin n → ℝ := fun x i => coords x (k + i) - (θ i 0 + ∑ j ∈ range (k + i), θ i (j + 1) * coords x j) with hr
  have hm : ∀ i, 0 < average data (fun x => r x i ^ 2) := fun i => by
    by_contra hcon
    have := average_sq_zero (f := fun x => r x i) (not_lt.1 hcon)
    exact hne i ⟨θ i 0, fun j => θ i (j + 1), fun x hx => sub_eq_zero.1 (this x hx)⟩
  have hy : ∀ x i, affineOutput k (fun i => (√(average data (fun x => r x i ^ 2)))⁻¹) (fun i => -(√(average data (fun x => r x i ^ 2)))⁻¹ * θ i 0)
      (fun i j => -(√(average data (fun x => r x i ^ 2)))⁻¹ * θ i (j + 1)) x i = (√(average data (fun x => r x i ^ 2)))⁻¹ * r x i := fun x i => by
    have e : ∑ j ∈ range (k + i), -(√(average data (fun x => r x i ^ 2)))⁻¹ * θ i (j + 1) * coords x j
        = -(√(average data (fun x => r x i ^ 2)))⁻¹ * ∑ j ∈ range (k + i), θ i (j + 1) * coords x j := by
      rw [mul_sum]
      exact sum_congr rfl fun j _ => by ring
    rw [affineOutput, e]
    simp only [hr]
    ring
  refine ⟨_, fun i => -(√(average data (fun x => r x i ^ 2)))⁻¹ * θ i 0, fun i j => -(√(average data (fun x => r x i ^ 2)))⁻¹ * θ i (j + 1), fun i => inv_pos.2 (Real.sqrt_pos.2 (hm i)), ⟨fun i => ?_, fun i => ?_, fun i j hj => ?_⟩⟩
  · simp only [hy, average_mul]
    have := hθ i 0 (by omega)
    simp only [if_true, mul_one] at this
    rw [this, mul_zero]
  · simp only [hy, mul_pow, average_mul]
    rw [inv_pow, Real.sq_sqrt (hm i).le, inv_mul_cancel₀ (hm i).ne']
  · simp only [hy, mul_assoc, average_mul]
    have := hθ i (j + 1) (by omega)
    simp only [Nat.succ_ne_zero, if_false, Nat.add_sub_cancel] at this
    rw [this, mul_zero]

theorem Spec.Standardises.congr {y y' : List ℝ → Fin n → ℝ} (h : Standardises data k y) (e : ∀ x ∈ data, ∀ i, y x i = y' x i) : Standardises data k y' := by
  refine ⟨fun i => ?_, fun i => ?_, fun i j hj => ?_⟩
  · rw [← h.mean i]; exact average_congr fun x hx => (e x hx i).symm
  · rw [← h.unit i]; exact average_congr fun x hx => by rw [e x hx i]
  · rw [← h.uncorrelated i j hj]; exact average_congr fun x hx => by rw [e x hx i]

/-- Outputs of a standardising affine map are uncorrelated. -/
theorem Spec.Standardises.outputs {s a : Fin n → ℝ} {β : Fin n → ℕ → ℝ} (hst : Standardises data k (affineOutput k s a β)) (i j : Fin n) :
    average data (fun x => affineOutput k s a β x i * affineOutput k s a β x j) = if i = j then 1 else 0 := by
  have hlt : ∀ i j : Fin n, j < i → average data (fun x => affineOutput k s a β x i * affineOutput k s a β x j) = 0 := by
    intro i j hij
    have e : ∀ x, affineOutput k s a β x i * affineOutput k s a β x j
        = s j * (affineOutput k s a β x i * coords x (k + j)) + (a j * affineOutput k s a β x i + ∑ l ∈ range (k + j), β j l * (affineOutput k s a β x i * coords x l)) := by
      intro x
      conv_lhs => rw [affineOutput.eq_def k s a β x j, mul_add, mul_add, mul_sum]
      rw [sum_congr rfl fun l _ => show affineOutput k s a β x i * (β j l * coords x l) = β j l * (affineOutput k s a β x i * coords x l) by ring]
      ring
    simp only [e, average_add, average_mul, average_sum]
    have hij' : (j : ℕ) < i := hij
    rw [hst.mean, hst.uncorrelated i (k + j) (by omega), sum_eq_zero fun l hl => by rw [hst.uncorrelated i l (by have := mem_range.1 hl; omega), mul_zero]]
    ring
  rcases lt_trichotomy i j with h | h | h
  · rw [if_neg h.ne, ← hlt j i h]
    exact average_congr fun x _ => mul_comm _ _
  · subst h
    rw [if_pos rfl, ← hst.unit i]
    exact average_congr fun x _ => (sq _).symm
  · rw [if_neg h.ne', hlt i j h]

variable {o : MapOptions} (h0 : 0 < n) (h2 : k + n < 2 ^ 32) (hB : GoodBasis o 1) (hQ : GoodQuad o) (hcd : o.contDeriv = true) {mem : ℕ → Option ℝ} {work : List ℝ}
  {T : CMap} {w : List ℝ} (hT : createTriangular (k + n) n 1 o mem work = .ok (T, w)) (hne : data ≠ []) (hdata : ∀ x ∈ data, x.length = k + n)
include h0 h2 hB hQ hcd hT

theorem built : T.outputDim = n ∧
      (∀ c : List ℝ, c.length = T.numCoeffs → ∃ (s a : Fin n → ℝ) (β : Fin n → ℕ → ℝ), (∀ i, 0 < s i) ∧ ActsAs T c k s a β) ∧
      ∀ (s a : Fin n → ℝ) (β : Fin n → ℕ → ℝ), (∀ i, 0 < s i) → ∃ c : List ℝ, c.length = T.numCoeffs ∧ ActsAs T c k s a β := by
  obtain ⟨T', t1, -, t2⟩ := C120_affine (k := k) h0 h2 hB hQ hcd mem work
  obtain ⟨rfl, -⟩ := Prod.mk.inj (Res.ok.inj (t1.symm.trans hT))
  exact t2

include hne hdata

/-- **C120.** When an input is, on the data, an affine function of the inputs before it, the training objective of a map of order one falls below every bound. -/
theorem C120_unbounded {i : Fin n} (hi : Redundant data (k + i)) (M : ℝ) :
    ∃ c v, c.length = T.numCoeffs ∧ KL.objective T (Gaussian.ofDim T.outputDim).density c data = .ok (some v) ∧ v < M := by
  obtain ⟨t0, -, t2⟩ := built h0 h2 hB hQ hcd hT
  obtain ⟨a, β, hi⟩ := hi
  rw [t0]
  set K := ∑ j : Fin n, (if j = i then 0 else 1 / 2 * average data fun x => coords x (k + j) ^ 2) + n / 2 * Real.log (2 * Real.pi) with hK
  obtain ⟨c, c1, c2⟩ := t2 (fun j => if j = i then Real.exp (K - M + 1) else 1) (fun j => if j = i then -(Real.exp (K - M + 1) * a) else 0)
    (fun j l => if j = i then -(Real.exp (K - M + 1) * β l) else 0) fun j => by
      show 0 < if j = i then _ else _
      split
      · exact Real.exp_pos _
      · exact one_pos
  refine ⟨c, _, c1, c2.objective data hne hdata, ?_⟩
  have e : ∀ j : Fin n, (1 / 2 * average data (fun x => affineOutput k (fun j => if j = i then Real.exp (K - M + 1) else 1) (fun j => if j = i then -(Real.exp (K - M + 1) * a) else 0)
      (fun j l => if j = i then -(Real.exp (K - M + 1) * β l) else 0) x j ^ 2) - Real.log (if j = i then Real.exp (K - M + 1) else 1))
      = (if j = i then 0 else 1 / 2 * average data fun x => coords x (k + j) ^ 2) - if j = i then K - M + 1 else 0 := by
    intro j
    by_cases hj : j = i
    · subst hj
      simp only [if_true, Real.log_exp]
      rw [average_congr (g := fun _ => 0) fun x hx => ?_, average_const hne]
      · ring
      · simp only [affineOutput, if_true, hi x hx, mul_add, mul_sum, neg_mul, sum_neg_distrib, mul_assoc]
        ring
    · simp [hj, affineOutput]
  rw [sum_congr rfl fun j _ => e j, sum_sub_distrib]
  simp only [sum_ite_eq', mem_univ, if_true]
  rw [sub_add_eq_add_sub, ← hK]
  linarith

/-- **C120.** The coefficients of a map of order one minimise the training objective exactly if, on the data, its outputs have mean 0 and mean square 1 and are uncorrelated with
the preceding inputs. -/
theorem C120_minimisers {c : List ℝ} (hc : c.length = T.numCoeffs) : MinimisesKL T data c ↔ Standardises data k fun x (i : Fin n) => (fn T c x).getD i 0 := by
  obtain ⟨t0, t1, t2⟩ := built h0 h2 hB hQ hcd hT
  obtain ⟨s, a, β, hs, hact⟩ := t1 c hc
  have hval : ∀ x ∈ data, ∀ i : Fin n, (fn T c x).getD i 0 = affineOutput k s a β x i := fun x hx i => by
    rw [hact.value x (hdata x hx)]
    simp
  rw [show (Standardises data k fun x (i : Fin n) => (fn T c x).getD i 0) ↔ Standardises data k (affineOutput k s a β) from
    ⟨fun h => h.congr hval, fun h => h.congr fun x hx i => (hval x hx i).symm⟩]
  rw [MinimisesKL, t0]
  constructor
  · rintro ⟨-, v, v1, v2⟩
    rw [hact.objective data hne hdata] at v1
    cases v1
    have hred : ∀ i : Fin n, ¬ Redundant data (k + i) := fun i hi => by
      obtain ⟨c', v', e1, e2, e3⟩ := C120_unbounded h0 h2 hB hQ hcd hT hne hdata hi
        (∑ i, (1 / 2 * average data (fun x => affineOutput k s a β x i ^ 2) - Real.log (s i)) + n / 2 * Real.log (2 * Real.pi))
      rw [t0] at e2
      exact absurd (v2 c' v' e1 e2) (not_le.2 e3)
    obtain ⟨s₀, a₀, β₀, hs₀, hst⟩ := exists_standardising hred
    obtain ⟨c₀, d1, d2⟩ := t2 s₀ a₀ β₀ hs₀
    have h3 := v2 c₀ _ d1 (d2.objective data hne hdata)
    rw [gap (a' := a) (β' := β) hs₀ hs hst] at h3
    have h4 : ∀ i, _ := gap_nonneg (data := data) hs₀ hs (affineOutput k s₀ a₀ β₀) (affineOutput k s a β)
    have h5 := (sum_eq_zero_iff_of_nonneg fun i _ => h4 i).1 (le_antisymm (by
      rw [add_right_comm, add_le_iff_nonpos_right] at h3
      exact h3) (sum_nonneg fun i _ => h4 i))
    refine hst.congr fun x hx i => ?_
    have h6 := h5 i (mem_univ i)
    have h7 := log_le_half (div_pos (hs i) (hs₀ i))
    have h8 := average_nonneg data (f := fun x => (affineOutput k s a β x i - s i / s₀ i * affineOutput k s₀ a₀ β₀ x i) ^ 2) fun x _ => sq_nonneg _
    have hsplit := parts_zero h6 h7 h8
    have h9 := log_eq_half (div_pos (hs i) (hs₀ i)) hsplit.1
    have h10 := average_sq_zero (f := fun x => affineOutput k s a β x i - s i / s₀ i * affineOutput k s₀ a₀ β₀ x i) hsplit.2 x hx
    rw [h9, one_mul] at h10
    linarith
  · intro hst
    refine ⟨hc, _, hact.objective data hne hdata, fun c' v' hc' hv' => ?_⟩
    obtain ⟨s', a', β', hs', hact'⟩ := t1 c' hc'
    rw [hact'.objective data hne hdata] at hv'
    cases hv'
    rw [gap (a' := a') (β' := β') hs hs' hst]
    have := sum_nonneg fun i (_ : i ∈ univ) => gap_nonneg (data := data) hs hs' (affineOutput k s a β) (affineOutput k s' a' β') i
    rw [add_right_comm]
    exact le_add_of_nonneg_right this

/-- **C120.** A minimiser exists exactly if, on the data, none of the last `n` inputs is an affine function of the inputs before it. -/
theorem C120_exists : (∃ c, MinimisesKL T data c) ↔ ∀ i : Fin n, ¬ Redundant data (k + i) := by
  constructor
  · rintro ⟨c, -, v, -, v2⟩ i hi
    obtain ⟨c', v', e1, e2, e3⟩ := C120_unbounded h0 h2 hB hQ hcd hT hne hdata hi v
    exact absurd (v2 c' v' e1 e2) (not_le.2 e3)
  · intro hred
    obtain ⟨t0, t1, t2⟩ := built h0 h2 hB hQ hcd hT
    obtain ⟨s₀, a₀, β₀, hs₀, hst⟩ := exists_standardising hred
    obtain ⟨c₀, d1, d2⟩ := t2 s₀ a₀ β₀ hs₀
    refine ⟨c₀, (C120_minimisers h0 h2 hB hQ hcd hT hne hdata d1).2 (hst.congr fun x hx i => ?_)⟩
    rw [d2.value x (hdata x hx)]
    simp

omit h0 h2 hB hQ hcd hT hdata in
/-- An affine function that vanishes on the data is zero when no input is redundant. -/
theorem affine_zero : ∀ {D : ℕ} {p : ℝ} {q : ℕ → ℝ}, (∀ j < D, ¬ Redundant data j) → (∀ x ∈ data, p + ∑ j ∈ range D, q j * coords x j = 0) → p = 0 ∧ ∀ j < D, q j = 0
  | 0, p, q, _, h => by
    obtain ⟨x, hx⟩ := List.exists_mem_of_ne_nil _ hne
    exact ⟨by simpa using h x hx, fun j hj => absurd hj (Nat.not_lt_zero j)⟩
  | D + 1, p, q, hred, h => by
    simp only [sum_range_succ] at h
    have hq : q D = 0 := by
      by_contra hq
      refine hred D D.lt_succ_self ⟨-p / q D, fun j => -q j / q D, fun x hx => ?_⟩
      have e : ∑ j ∈ range D, -q j / q D * coords x j = -(∑ j ∈ range D, q j * coords x j) / q D := by
        rw [neg_div, sum_div, ← sum_neg_distrib]
        exact sum_congr rfl fun j _ => by ring
      rw [e, ← add_div, eq_div_iff hq]
      linarith [h x hx]
    obtain ⟨h1, h2⟩ := affine_zero (D := D) (p := p) (q := q) (fun j hj => hred j (hj.trans D.lt_succ_self)) fun x hx => by simpa [hq] using h x hx
    exact ⟨h1, fun j hj => (Nat.lt_succ_iff_lt_or_eq.1 hj).elim (h2 j) fun e => e ▸ hq⟩

/-- **C120.** All minimisers have the same outputs on the data and the same log-determinant, and if none of the inputs is an affine function of the inputs before it on the
data, they are the same function: what is trained does not depend on the optimiser or on the starting point. -/
theorem C120_unique {c c' : List ℝ} (hc : MinimisesKL T data c) (hc' : MinimisesKL T data c') : (∀ x ∈ data, fn T c x = fn T c' x) ∧
    (∀ (x : List ℝ) (out : Option ℝ), x.length = k + n → T.logDet c x out = T.logDet c' x out) ∧
    ((∀ j < k, ¬ Redundant data j) → ∀ x : List ℝ, x.length = k + n → fn T c x = fn T c' x) := by
  obtain ⟨t0, t1, -⟩ := built h0 h2 hB hQ hcd hT
  have hred := (C120_exists h0 h2 hB hQ hcd hT hne hdata).1 ⟨c, hc⟩
  obtain ⟨s, a, β, hs, hact⟩ := t1 c hc.1
  obtain ⟨s', a', β', hs', hact'⟩ := t1 c' hc'.1
  have hst : Standardises data k (affineOutput k s a β) := ((C120_minimisers h0 h2 hB hQ hcd hT hne hdata hc.1).1 hc).congr fun x hx i => by
    rw [hact.value x (hdata x hx)]
    simp
  obtain ⟨-, v', e', m'⟩ := hc'
  rw [t0] at e' m'
  rw [hact'.objective data hne hdata] at e'
  cases e'
  have h3 := m' c _ hc.1 (hact.objective data hne hdata)
  rw [gap (a' := a') (β' := β') hs hs' hst] at h3
  have h4 : ∀ i, _ := gap_nonneg (data := data) hs hs' (affineOutput k s a β) (affineOutput k s' a' β')
  have h5 := (sum_eq_zero_iff_of_nonneg fun i _ => h4 i).1 (le_antisymm (by
    rw [add_right_comm, add_le_iff_nonpos_right] at h3
    exact h3) (sum_nonneg fun i _ => h4 i))
  have h6 : ∀ i, s' i = s i ∧ ∀ x ∈ data, affineOutput k s' a' β' x i = affineOutput k s a β x i := fun i => by
    have h7 := log_le_half (div_pos (hs' i) (hs i))
    have h8 := average_nonneg data (f := fun x => (affineOutput k s' a' β' x i - s' i / s i * affineOutput k s a β x i) ^ 2) fun x _ => sq_nonneg _
    have hsplit := parts_zero (h5 i (mem_univ i)) h7 h8
    have h9 := log_eq_half (div_pos (hs' i) (hs i)) hsplit.1
    refine ⟨(div_eq_one_iff_eq (hs i).ne').1 h9, fun x hx => ?_⟩
    have h10 := average_sq_zero (f := fun x => affineOutput k s' a' β' x i - s' i / s i * affineOutput k s a β x i) hsplit.2 x hx
    rw [h9, one_mul] at h10
    linarith
  refine ⟨fun x hx => ?_, fun x out hx => ?_, fun hk x hx => ?_⟩
  · rw [hact.value x (hdata x hx), hact'.value x (hdata x hx)]
    congr 1
    funext i
    exact ((h6 i).2 x hx).symm
  · rw [hact.logDet x out hx, hact'.logDet x out hx]
    simp only [fun i => (h6 i).1]
  · rw [hact.value x hx, hact'.value x hx]
    congr 1
    funext i
    obtain ⟨z1, z2⟩ := affine_zero hne (D := k + i) (p := a' i - a i) (q := fun j => β' i j - β i j) (fun j hj => by
      by_cases hjk : j < k
      · exact hk j hjk
      · have := hred ⟨j - k, by omega⟩
        rwa [show k + (j - k) = j by omega] at this) fun y hy => by
      have := (h6 i).2 y hy
      simp only [affineOutput, (h6 i).1] at this
      simp only [sub_mul, sum_sub_distrib]
      linarith
    simp only [affineOutput, (h6 i).1, sub_eq_zero.1 z1]
    rw [sum_congr rfl fun j hj => by rw [← sub_eq_zero.1 (z2 j (mem_range.1 hj))]]

/-- **C120.** At a minimiser the outputs are uncorrelated, and the objective is `n/2 (1 + log 2π)` minus the log-determinant. -/
theorem C120_value {c : List ℝ} (hc : MinimisesKL T data c) :
    (∀ i j : Fin n, average data (fun x => (fn T c x).getD i 0 * (fn T c x).getD j 0) = if i = j then 1 else 0) ∧
    ∀ (x : List ℝ) (out : Option ℝ), x.length = k + n → ∃ l, T.logDet c x out = .ok (some l) ∧
      KL.objective T (Gaussian.ofDim T.outputDim).density c data = .ok (some (n / 2 * (1 + Real.log (2 * Real.pi)) - l)) := by
  obtain ⟨t0, t1, -⟩ := built h0 h2 hB hQ hcd hT
  obtain ⟨s, a, β, hs, hact⟩ := t1 c hc.1
  have hval : ∀ x ∈ data, ∀ i : Fin n, (fn T c x).getD i 0 = affineOutput k s a β x i := fun x hx i => by
    rw [hact.value x (hdata x hx)]
    simp
  have hst : Standardises data k (affineOutput k s a β) := ((C120_minimisers h0 h2 hB hQ hcd hT hne hdata hc.1).1 hc).congr hval
  refine ⟨fun i j => ?_, fun x out hx => ⟨_, hact.logDet x out hx, ?_⟩⟩
  · rw [average_congr fun x hx => by rw [hval x hx i, hval x hx j]]
    exact hst.outputs i j
  · rw [t0, hact.objective data hne hdata]
    simp only [hst.unit, sum_sub_distrib, sum_const, card_univ, Fintype.card_fin, nsmul_eq_mul]
    congr 2
    ring

end

/-! ### The Gaussian approximation -/

/-- The mean of the data. -/
noncomputable def Spec.sampleMean (data : List (List ℝ)) (n : ℕ) (i : Fin n) : ℝ := average data fun x => coords x i

/-- The covariance matrix of the data. -/
noncomputable def Spec.sampleCov (data : List (List ℝ)) (n : ℕ) : Matrix (Fin n) (Fin n) ℝ :=
  fun i j => average data fun x => (coords x i - sampleMean data n i) * (coords x j - sampleMean data n j)

theorem quad_form {n : ℕ} (A : Matrix (Fin n) (Fin n) ℝ) (v : Fin n → ℝ) :
    ∑ i, ∑ j, v i * (A.transpose * A) i j * v j = ∑ i, (∑ j, A i j * v j) ^ 2 := by
  simp only [sq, Matrix.mul_apply, Matrix.transpose_apply, mul_sum, sum_mul]
  rw [sum_comm]
  conv_rhs => rw [sum_comm]
  refine sum_congr rfl fun q _ => ?_
  rw [sum_comm]
  exact sum_congr rfl fun i _ => sum_congr rfl fun p _ => by ring

/-- The density of a standardising affine map is normal with the mean and the covariance of the data. -/
theorem Spec.Standardises.normal {data : List (List ℝ)} (hne : data ≠ []) {n : ℕ} {s a : Fin n → ℝ} {β : Fin n → ℕ → ℝ} (hs : ∀ i, 0 < s i)
    (hst : Standardises data 0 (affineOutput 0 s a β)) (x : List ℝ) :
    -(1 / 2) * ∑ i, affineOutput 0 s a β x i ^ 2 - 1 / 2 * (n * Real.log (2 * Real.pi)) + ∑ i, Real.log (s i)
      = normalLogDensity (sampleMean data n) (sampleCov data n) (colVec n x) := by
  set A : Matrix (Fin n) (Fin n) ℝ := fun i j => if j < i then β i j else if j = i then s i else 0 with hA
  have hlin : ∀ x i, affineOutput 0 s a β x i = ∑ j, A i j * coords x j + a i := by
    intro x i
    have e1 : ∀ j, A i j * coords x j = (if j < i then β i j * coords x j else 0) + if j = i then s i * coords x i else 0 := fun j => by
      simp only [hA]
      rcases lt_trichotomy j i with h | h | h
      · simp [h, h.ne]
      · simp [h]
      · simp [h.ne', h.not_gt]
    have e2 : ∑ j : Fin n, (if j < i then β i j * coords x j else 0) = ∑ j ∈ range i, β i j * coords x j := by
      rw [← sum_filter]
      refine sum_bij' (fun j _ => (j : ℕ)) (fun j hj => ⟨j, (mem_range.1 hj).trans i.2⟩) ?_ ?_ ?_ ?_ ?_
      · intro j hj
        exact mem_range.2 (mem_filter.1 hj).2
      · intro j hj
        exact mem_filter.2 ⟨mem_univ _, mem_range.1 hj⟩
      · intros; rfl
      · intros; rfl
      · intros; rfl
    simp only [e1, sum_add_distrib, e2, affineOutput, zero_add, sum_ite_eq', mem_univ, if_true]
    ring
  have ha : ∀ i, a i = -∑ j, A i j * sampleMean data n j := by
    intro i
    have := hst.mean i
    simp only [hlin, average_add, average_sum, average_mul, average_const hne] at this
    simp only [sampleMean]
    linarith
  have hcen : ∀ x i, affineOutput 0 s a β x i = ∑ j, A i j * (coords x j - sampleMean data n j) := fun x i => by
    rw [hlin, ha]
    simp only [mul_sub, sum_sub_distrib]
    ring
  have hone : A * sampleCov data n * A.transpose = 1 := by
    ext i l
    have := hst.outputs i l
    rw [average_congr (g := fun x => ∑ m : Fin n, (∑ j : Fin n, A i j * ((coords x j - sampleMean data n j) * (coords x m - sampleMean data n m))) * A l m) fun x _ => by
      rw [hcen, hcen, sum_mul_sum, sum_comm]
      refine sum_congr rfl fun m _ => ?_
      rw [sum_mul]
      exact sum_congr rfl fun j _ => by ring] at this
    rw [Matrix.one_apply, ← this, average_sum]
    simp only [Matrix.mul_apply, Matrix.transpose_apply]
    refine sum_congr rfl fun m _ => ?_
    rw [show (fun x : List ℝ => (∑ j, A i j * ((coords x j - sampleMean data n j) * (coords x m - sampleMean data n m))) * A l m)
      = fun x => A l m * ∑ j, A i j * ((coords x j - sampleMean data n j) * (coords x m - sampleMean data n m)) from funext fun x => mul_comm _ _,
      average_mul, average_sum, mul_comm]
    simp only [average_mul]
    rfl
  have hinv : (sampleCov data n)⁻¹ = A.transpose * A := by
    refine Matrix.inv_eq_right_inv ?_
    rw [Matrix.mul_assoc] at hone
    rw [← Matrix.mul_assoc]
    exact mul_eq_one_comm.1 hone
  have hdetA : A.det = ∏ i, s i := by
    rw [Matrix.det_of_isLowerTriangular A fun i j hij => ?_]
    · exact prod_congr rfl fun i _ => by simp [hA]
    · have hij : i < j := hij
      simp [hA, hij.not_gt, hij.ne']
  have hdet : Real.log (sampleCov data n).det = -2 * ∑ i, Real.log (s i) := by
    have h1 := congrArg Matrix.det hone
    rw [Matrix.det_mul, Matrix.det_mul, Matrix.det_transpose, Matrix.det_one, hdetA] at h1
    have hp : 0 < ∏ i, s i := prod_pos fun i _ => hs i
    have h3 : (sampleCov data n).det = ((∏ i, s i) ^ 2)⁻¹ := eq_inv_of_mul_eq_one_left (by rw [← h1]; ring)
    rw [h3, Real.log_inv, Real.log_pow, Real.log_prod fun i _ => (hs i).ne']
    push_cast
    ring
  have hq : ∑ i, ∑ j, (colVec n x i - sampleMean data n i) * (A.transpose * A) i j * (colVec n x j - sampleMean data n j)
      = ∑ i, affineOutput 0 s a β x i ^ 2 := by
    simp only [hcen]
    exact quad_form A fun j => coords x j - sampleMean data n j
  rw [normalLogDensity, hinv, hdet, hq]
  ring

/-- The density of an affine map. -/
theorem acts_logDensity {o : MapOptions} {k n p : ℕ} (h0 : 0 < n) (h2 : k + n < 2 ^ 32) (hB : GoodBasis o p) (hQ : GoodQuad o) (hcd : o.contDeriv = true)
    {mem : ℕ → Option ℝ} {work : List ℝ} {T : CMap} {w : List ℝ} (hT : createTriangular (k + n) n p o mem work = .ok (T, w)) {c : List ℝ} (hc : c.length = T.numCoeffs)
    {s a : Fin n → ℝ} {β : Fin n → ℕ → ℝ} (hact : ActsAs T c k s a β) :
    ∃ P, Pullback.new T (Gaussian.ofDim n).density c = .ok P ∧ ∀ (x : List ℝ) (out : Option ℝ), x.length = k + n →
      P.logDensity x out = .ok (some (-(1 / 2) * ∑ i, affineOutput k s a β x i ^ 2 - 1 / 2 * (n * Real.log (2 * Real.pi)) + ∑ i, Real.log (s i))) := by
  obtain ⟨b, mesh, -, -, h63⟩ := C63_triangular_partial (inputDim := k + n) (outputDim := n) h0 (by omega) h2 hB hQ
  obtain ⟨T', comps, s1, s2, s3, -, -, -, -, s7, -, s9, -⟩ := h63 mem work
  obtain ⟨rfl, -⟩ := Prod.mk.inj (Res.ok.inj (hT.symm.trans s1))
  refine ⟨_, pull_new.2 ⟨s3, rfl⟩, fun x out hx => ?_⟩
  have hf : Fits T c x := ⟨hc, by rw [hx, s2]⟩
  refine (pull_logDensity s7 (s9 hcd).1 (C53_density (.dim n)).2.1 s3 hf out).trans ?_
  have hl := hact.logDet x none hx
  rw [(s9 hcd).1 c x hf] at hl
  rw [Option.some.inj (Res.ok.inj hl), hact.value x hx, std_logp n (by simp), List.map_ofFn, List.sum_ofFn]
  rfl

/-- **C120.** A square map of order one, trained to the minimum of its objective, pulls the standard normal density back to the normal density with the mean and the covariance
matrix of the data. -/
theorem C120_gaussian {data : List (List ℝ)} {n : ℕ} {o : MapOptions} (h0 : 0 < n) (h2 : n < 2 ^ 32) (hB : GoodBasis o 1) (hQ : GoodQuad o) (hcd : o.contDeriv = true)
    {mem : ℕ → Option ℝ} {work : List ℝ} {T : CMap} {w : List ℝ} (hT : createTriangular n n 1 o mem work = .ok (T, w)) (hne : data ≠ [])
    (hdata : ∀ x ∈ data, x.length = n) {c : List ℝ} (hc : MinimisesKL T data c) :
    ∃ P, Pullback.new T (Gaussian.ofDim n).density c = .ok P ∧ ∀ (x : List ℝ) (out : Option ℝ), x.length = n →
      P.logDensity x out = .ok (some (normalLogDensity (sampleMean data n) (sampleCov data n) (colVec n x))) := by
  have hT0 : createTriangular (0 + n) n 1 o mem work = .ok (T, w) := by rw [zero_add]; exact hT
  have hdata0 : ∀ x ∈ data, x.length = 0 + n := fun x hx => by rw [zero_add]; exact hdata x hx
  obtain ⟨t0, t1, -⟩ := built (k := 0) h0 (by omega) hB hQ hcd hT0
  obtain ⟨s, a, β, hs, hact⟩ := t1 c hc.1
  have hst : Standardises data 0 (affineOutput 0 s a β) := ((C120_minimisers (k := 0) h0 (by omega) hB hQ hcd hT0 hne hdata0 hc.1).1 hc).congr fun x hx i => by
    rw [hact.value x (hdata0 x hx)]
    simp
  obtain ⟨P, hP, hl⟩ := acts_logDensity (k := 0) h0 (by omega) hB hQ hcd hT0 hc.1 hact
  exact ⟨P, hP, fun x out hx => by rw [hl x out (by omega), hst.normal hne hs]⟩

/-- **C120.** The density of a trained map with more inputs than outputs is the conditional density of the normal distribution with the mean and the covariance of the data: the
joint density of all inputs divided by the marginal density of the first ones. -/
theorem C120_conditional {data : List (List ℝ)} {k n : ℕ} {o : MapOptions} (h0 : 0 < n) (h2 : k + n < 2 ^ 32) (hB : GoodBasis o 1) (hQ : GoodQuad o) (hcd : o.contDeriv = true)
    {mem : ℕ → Option ℝ} {work : List ℝ} {T : CMap} {w : List ℝ} (hT : createTriangular (k + n) n 1 o mem work = .ok (T, w)) (hne : data ≠ [])
    (hdata : ∀ x ∈ data, x.length = k + n) (hk : ∀ j < k, ¬ Redundant data j) {c : List ℝ} (hc : MinimisesKL T data c) :
    ∃ P, Pullback.new T (Gaussian.ofDim n).density c = .ok P ∧ ∀ (x : List ℝ) (out : Option ℝ), x.length = k + n →
      P.logDensity x out = .ok (some (normalLogDensity (sampleMean data (k + n)) (sampleCov data (k + n)) (colVec (k + n) x)
        - normalLogDensity (sampleMean data k) (sampleCov data k) (colVec k x))) := by
  obtain ⟨t0, t1, -⟩ := built h0 h2 hB hQ hcd hT
  obtain ⟨s, a, β, hs, hact⟩ := t1 c hc.1
  have hst : Standardises data k (affineOutput k s a β) := ((C120_minimisers h0 h2 hB hQ hcd hT hne hdata hc.1).1 hc).congr fun x hx i => by
    rw [hact.value x (hdata x hx)]
    simp
  obtain ⟨s₁, a₁, β₁, hs₁, hst₁⟩ := exists_standardising (k := 0) (n := k) fun i => by rw [zero_add]; exact hk i i.2
  have e1 : ∀ x (i : Fin k), affineOutput 0 (Fin.append s₁ s) (Fin.append a₁ a) (Fin.append β₁ β) x (Fin.castAdd n i) = affineOutput 0 s₁ a₁ β₁ x i := fun x i => by
    simp [affineOutput]
  have e2 : ∀ x (i : Fin n), affineOutput 0 (Fin.append s₁ s) (Fin.append a₁ a) (Fin.append β₁ β) x (Fin.natAdd k i) = affineOutput k s a β x i := fun x i => by
    simp [affineOutput]
  have hs₂ : ∀ i, 0 < Fin.append s₁ s i := fun i => by
    refine Fin.addCases (fun i => ?_) (fun i => ?_) i
    · rw [Fin.append_left]; exact hs₁ i
    · rw [Fin.append_right]; exact hs i
  have hst₂ : Standardises data 0 (affineOutput 0 (Fin.append s₁ s) (Fin.append a₁ a) (Fin.append β₁ β)) := by
    refine ⟨fun i => ?_, fun i => ?_, fun i j hj => ?_⟩
    · refine Fin.addCases (fun i => ?_) (fun i => ?_) i
      · simp only [e1]; exact hst₁.mean i
      · simp only [e2]; exact hst.mean i
    · refine Fin.addCases (fun i => ?_) (fun i => ?_) i
      · simp only [e1]; exact hst₁.unit i
      · simp only [e2]; exact hst.unit i
    · revert hj
      refine Fin.addCases (fun i hj => ?_) (fun i hj => ?_) i
      · simp only [e1]; exact hst₁.uncorrelated i j hj
      · simp only [e2]; exact hst.uncorrelated i j (by simpa using hj)
  obtain ⟨P, hP, hl⟩ := acts_logDensity h0 h2 hB hQ hcd hT hc.1 hact
  refine ⟨P, hP, fun x out hx => ?_⟩
  rw [hl x out hx, ← hst₂.normal hne hs₂, ← hst₁.normal hne hs₁]
  simp only [Fin.sum_univ_add, e1, e2, Fin.append_left, Fin.append_right]
  congr 2
  push_cast
  ring

/-- The square map of order one on two inputs with the default options, trained on three points in general position: its objective has a minimiser, and the density there is
normal with the mean and the covariance of the data. -/
example : ∃ T w c P, createTriangular 2 2 1 {} (fun _ => none) [] = .ok (T, w) ∧ MinimisesKL T [[0, 0], [1, 2], [2, 1]] c ∧
    Pullback.new T (Gaussian.ofDim 2).density c = .ok P ∧ ∀ (x : List ℝ) (out : Option ℝ), x.length = 2 →
      P.logDensity x out = .ok (some (normalLogDensity (sampleMean [[0, 0], [1, 2], [2, 1]] 2) (sampleCov [[0, 0], [1, 2], [2, 1]] 2) (colVec 2 x))) := by
  obtain ⟨hB, hQ⟩ := good_default 1 (by norm_num)
  obtain ⟨b, mesh, -, -, h63⟩ := C63_triangular_partial (inputDim := 2) (outputDim := 2) (by norm_num) le_rfl (by norm_num) hB hQ
  obtain ⟨T, -, s1, -⟩ := h63 (fun _ => none) []
  obtain ⟨c, hc⟩ := (C120_exists (data := [[0, 0], [1, 2], [2, 1]]) (k := 0) (n := 2) (by norm_num) (by norm_num) hB hQ rfl s1 (by simp) (by simp)).2 fun i => by
    rintro ⟨a, β, h⟩
    simp only [List.mem_cons, List.not_mem_nil, or_false, forall_eq_or_imp, forall_eq] at h
    fin_cases i
    · simp [coords] at h
      linarith [h.1, h.2.1]
    · simp [coords] at h
      linarith [h.1, h.2.1, h.2.2]
  obtain ⟨P, h1, h2⟩ := C120_gaussian (n := 2) (by norm_num) (by norm_num) hB hQ rfl s1 (by simp) (by simp) hc
  exact ⟨T, _, c, P, s1, hc, h1, h2⟩

/-- The same map trained on three points of a line: the objective has no minimiser and is unbounded below. -/
example : ∃ T w, createTriangular 2 2 1 {} (fun _ => none) [] = .ok (T, w) ∧ (¬ ∃ c, MinimisesKL T [[0, 1], [1, 3], [2, 5]] c) ∧
    ∀ M, ∃ c v, c.length = T.numCoeffs ∧ KL.objective T (Gaussian.ofDim T.outputDim).density c [[0, 1], [1, 3], [2, 5]] = .ok (some v) ∧ v < M := by
  obtain ⟨hB, hQ⟩ := good_default 1 (by norm_num)
  obtain ⟨b, mesh, -, -, h63⟩ := C63_triangular_partial (inputDim := 2) (outputDim := 2) (by norm_num) le_rfl (by norm_num) hB hQ
  obtain ⟨T, -, s1, -⟩ := h63 (fun _ => none) []
  have hr : Redundant [[0, 1], [1, 3], [2, 5]] (0 + ((1 : Fin 2) : ℕ)) := ⟨1, fun _ => 2, by
    simp [coords]
    norm_num⟩
  refine ⟨T, _, s1, fun h => ?_, C120_unbounded (k := 0) (n := 2) (by norm_num) (by norm_num) hB hQ rfl s1 (by simp) (by simp) hr⟩
  exact (C120_exists (k := 0) (n := 2) (by norm_num) (by norm_num) hB hQ rfl s1 (by simp) (by simp)).1 h 1 hr

/-- A conditional map: one output, one input the map is conditioned on. -/
example : ∃ T w c, createTriangular 2 1 1 {} (fun _ => none) [] = .ok (T, w) ∧ MinimisesKL T [[0, 0], [1, 2], [2, 1]] c ∧
    ∃ P, Pullback.new T (Gaussian.ofDim 1).density c = .ok P ∧ ∀ (x : List ℝ) (out : Option ℝ), x.length = 1 + 1 →
      P.logDensity x out = .ok (some (normalLogDensity (sampleMean [[0, 0], [1, 2], [2, 1]] 2) (sampleCov [[0, 0], [1, 2], [2, 1]] 2) (colVec 2 x)
        - normalLogDensity (sampleMean [[0, 0], [1, 2], [2, 1]] 1) (sampleCov [[0, 0], [1, 2], [2, 1]] 1) (colVec 1 x))) := by
  obtain ⟨hB, hQ⟩ := good_default 1 (by norm_num)
  obtain ⟨b, mesh, -, -, h63⟩ := C63_triangular_partial (inputDim := 2) (outputDim := 1) (by norm_num) (by norm_num) (by norm_num) hB hQ
  obtain ⟨T, -, s1, -⟩ := h63 (fun _ => none) []
  obtain ⟨c, hc⟩ := (C120_exists (data := [[0, 0], [1, 2], [2, 1]]) (k := 1) (n := 1) (by norm_num) (by norm_num) hB hQ rfl s1 (by simp) (by simp)).2 fun i => by
    rintro ⟨a, β, h⟩
    fin_cases i
    simp [coords] at h
    linarith [h.1, h.2.1, h.2.2]
  refine ⟨T, _, c, s1, hc, C120_conditional (k := 1) (n := 1) (by norm_num) (by norm_num) hB hQ rfl s1 (by simp) (by simp) (fun j hj => ?_) hc⟩
  obtain rfl : j = 0 := by omega
  rintro ⟨a, β, h⟩
  simp [coords] at h
  linarith [h.1, h.2.1]

end MParT
