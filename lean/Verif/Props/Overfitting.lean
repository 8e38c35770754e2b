import Verif.Props.Regression
/-!
# C121: maps of high order overfit
-/
namespace MParT
open Finset Spec MapFactory

/-- Output `i` is the slope times the diagonal input plus a function of the inputs before it. -/
def shiftOutput {n : ℕ} (k : ℕ) (s : Fin n → ℝ) (Q : Fin n → (ℕ → ℝ) → ℝ) (x : List ℝ) (i : Fin n) : ℝ := s i * coords x (k + i) + Q i (coords x)

theorem shift_parts {b : Basis ℝ} {D : ℕ} {ts : List (List ℕ)} {c : List ℝ} {β : ℝ} {Q : (ℕ → ℝ) → ℝ} (hQ : ∀ X y, Q (Function.update X D y) = Q X)
    (h : ∀ X, expandAt b (D + 1) ts c X = Q X + β * X D) (X : ℕ → ℝ) : offset b (D + 1) ts c X = Q X ∧ diagD b (D + 1) ts c X = β := by
  have hu : ∀ y, expandAt b (D + 1) ts c (Function.update X D y) = Q X + β * y := fun y => by rw [h, hQ, Function.update_self]
  refine ⟨(hu 0).trans (by rw [mul_zero, add_zero]), ?_⟩
  rw [diagD, partialDeriv, Nat.add_sub_cancel]
  simp only [hu]
  exact ((((hasDerivAt_id (X D)).const_mul β).const_add _).deriv).trans (mul_one _)

/-- The objective of maps with constant slopes. -/
theorem shift_objective {o : MapOptions} {k n p : ℕ} {b : Basis ℝ} {ts : Fin n → List (List ℕ)} {split : List ℝ → Fin n → List ℝ} {T : CMap}
    (hb : IsBasisOf o (fun n => n ≤ p) b) (hB : GoodBasis o p) (hts : ∀ i : Fin n, IsTotalOrder (k + i + 1) p (ts i)) (hT : Trains o b k ts split T)
    {c : List ℝ} (hc : c.length = T.numCoeffs) {β : Fin n → ℝ} {Q : Fin n → (ℕ → ℝ) → ℝ} (hQ : ∀ i X y, Q i (Function.update X (k + i) y) = Q i X)
    (hexp : ∀ i : Fin n, ∀ X, expandAt b.eff (k + i + 1) (ts i) (split c i) X = Q i X + β i * X (k + i)) {data : List (List ℝ)} (hne : data ≠ [])
    (hdata : ∀ x ∈ data, x.length = k + n) : KL.objective T (Gaussian.ofDim n).density c data
      = .ok (some (∑ i, (1 / 2 * average data (fun x => shiftOutput k (fun i => positive o.posFuncType (β i)) Q x i ^ 2) - Real.log (positive o.posFuncType (β i)))
        + n / 2 * Real.log (2 * Real.pi))) := by
  have hbs : ∀ m ≤ p, ContDiff ℝ 1 (b.eff.val m) := fun m hm => isBasis_contDiff hb hB.bounds m hm
  have hps : ∀ i, ∀ t ∈ ts i, ∀ m ∈ t, m ≤ p := fun i t ht m hm => (List.single_le_sum (by simp) m hm).trans (((hts i).2 t).1 ht).2
  have hparts := fun i X => shift_parts (hQ i) (hexp i) X
  have hex : ∀ x : List ℝ, x.length = k + n → ∀ i : Fin n, exactImage b.eff (positive o.posFuncType) k ts (split c) x i
      = shiftOutput k (fun i => positive o.posFuncType (β i)) Q x i := fun x hx i => by
    rw [exactImage_eq hx, monotone, (hparts i _).1, shiftOutput]
    simp only [density, (hparts i _).2, intervalIntegral.integral_const, smul_eq_mul, Nat.add_sub_cancel]
    ring
  have hval : ∀ x : List ℝ, x.length = k + n → fn T c x = List.ofFn (exactImage b.eff (positive o.posFuncType) k ts (split c) x) := fun x hx => by
    obtain ⟨h1, h2⟩ := hT.images c x hc hx
    refine List.ext_getElem (by simp [h1]) fun i hi hi' => ?_
    have hin : i < n := by omega
    have := h2 ⟨i, hin⟩ 0 ⟨Polynomial.C (coords x (k + i) * (positive o.posFuncType (β ⟨i, hin⟩))), by rw [Polynomial.natDegree_C]; omega, fun t _ _ => by
      simp [unitDensity, density, (hparts ⟨i, hin⟩ _).2]⟩
    rw [List.getD_eq_getElem?_getD, List.getElem?_eq_getElem hi, Option.getD_some, abs_le] at this
    rw [List.getElem_ofFn]
    linarith [this.1, this.2]
  have hlog : ∀ x : List ℝ, x.length = k + n → exactLogDet b.eff (positive o.posFuncType) k ts (split c) x = ∑ i, Real.log (positive o.posFuncType (β i)) :=
    fun x hx => by
    rw [exactLogDet, exact_det hbs hps _ (positive_contDiff o.posFuncType 1), Real.log_prod fun i _ => (positive_pos' _ _).ne', take_append_tail hx]
    refine sum_congr rfl fun i _ => ?_
    have hk : (x.take k).length = k := by simp [hx]
    rw [hk, (hparts i _).2]
  obtain ⟨v, v1, v2⟩ := hT.objective (Gaussian.ofDim n).density c data (C53_density (.dim n)).2.1 rfl hc hne hdata
  have v3 := v2 0 fun x hx => by rw [hval x (hdata x hx), sub_self, abs_zero]
  have v4 : v = _ := sub_eq_zero.1 (abs_nonpos_iff.1 v3)
  rw [v1, v4, exactObjective, List.map_congr_left (g := fun x => -((∑ i, 1 / 2 * shiftOutput k (fun i => positive o.posFuncType (β i)) Q x i ^ 2)
    + (n / 2 * Real.log (2 * Real.pi) - ∑ i, Real.log (positive o.posFuncType (β i))))) fun x hx => by
      rw [std_logp n (by simp), hlog x (hdata x hx), List.map_ofFn, List.sum_ofFn, ← mul_sum]
      simp only [Function.comp, hex x (hdata x hx)]
      ring]
  have e : -(data.map fun x => -((∑ i, 1 / 2 * shiftOutput k (fun i => positive o.posFuncType (β i)) Q x i ^ 2)
    + (n / 2 * Real.log (2 * Real.pi) - ∑ i, Real.log (positive o.posFuncType (β i))))).sum / data.length
    = average data fun x => (∑ i, 1 / 2 * shiftOutput k (fun i => positive o.posFuncType (β i)) Q x i ^ 2)
    + (n / 2 * Real.log (2 * Real.pi) - ∑ i, Real.log (positive o.posFuncType (β i))) := by
    have := average_mul data (-1) fun x => (∑ i, 1 / 2 * shiftOutput k (fun i => positive o.posFuncType (β i)) Q x i ^ 2)
      + (n / 2 * Real.log (2 * Real.pi) - ∑ i, Real.log (positive o.posFuncType (β i)))
    simp only [neg_one_mul] at this
    rw [neg_div, ← average, this, neg_neg]
  rw [e, average_add, average_const hne, average_sum]
  simp only [average_mul, sum_sub_distrib]
  congr 2
  ring

/-- An expansion in the inputs before the last is one in all of them. -/
theorem lift_reps {b : Basis ℝ} (h0 : ∀ x, b.val 0 x = 1) {D p : ℕ} {ts ts₀ : List (List ℕ)} (hts : IsTotalOrder (D + 1) p ts)
    (hts₀ : ∀ v ∈ ts₀, v.length = D ∧ v.sum ≤ p) (a : ℕ → ℝ) :
    Reps b (D + 1) ts fun X => ∑ k ∈ range ts₀.length, a k * ∏ d ∈ range D, b.val ((ts₀.getD k []).getD d 0) (X d) := by
  refine Reps.sum _ fun k hk => Reps.mul _ ?_
  have hm : ts₀.getD k [] ∈ ts₀ := by
    rw [List.getD_eq_getElem?_getD, List.getElem?_eq_getElem (mem_range.1 hk)]
    exact List.getElem_mem _
  obtain ⟨h1, h2⟩ := hts₀ _ hm
  generalize ts₀.getD k [] = v at h1 h2
  have hl : List.ofFn (fun i : Fin (D + 1) => v.getD i 0) = v ++ [0] := by
    refine List.ext_getElem (by simp [h1]) fun i hi hi' => ?_
    rw [List.getElem_ofFn]
    rcases Nat.lt_or_ge i D with h | h
    · rw [List.getElem_append_left (by omega), List.getD_eq_getElem?_getD, List.getElem?_eq_getElem (by simp only; omega), Option.getD_some]
    · rw [List.getElem_append_right (by omega), List.getD_eq_getElem?_getD, List.getElem?_eq_none (by simp only; omega)]
      simp
  have := Reps.term (b := b) (fun i : Fin (D + 1) => v.getD i 0) ((hts.2 _).2 (by rw [hl]; simp [h1, h2]))
  refine Eq.mp (congrArg _ (funext fun X => ?_)) this
  rw [Fin.prod_univ_eq_prod_range (fun d => b.val (v.getD d 0) (X d)) (D + 1), prod_range_succ,
    List.getD_eq_getElem?_getD (i := D), List.getElem?_eq_none (by omega), Option.getD_none, h0, mul_one]

/-- The multi-indices of the inputs before the last. -/
theorem below_order {D p : ℕ} {ts : List (List ℕ)} (hts : IsTotalOrder (D + 1) p ts) : ∃ ts₀ : List (List ℕ), ∀ v, v ∈ ts₀ ↔ v.length = D ∧ v.sum ≤ p := by
  refine ⟨(ts.filter fun t => t.getD D 0 = 0).map (List.take D), fun v => ⟨fun h => ?_, fun ⟨h1, h2⟩ => ?_⟩⟩
  · obtain ⟨t, ht, rfl⟩ := List.mem_map.1 h
    obtain ⟨e1, e2⟩ := (hts.2 t).1 (List.mem_filter.1 ht).1
    refine ⟨by simp [e1], le_trans ?_ e2⟩
    conv_rhs => rw [← List.take_append_drop D t, List.sum_append]
    omega
  · refine List.mem_map.2 ⟨v ++ [0], List.mem_filter.2 ⟨(hts.2 _).2 (by simp [h1, h2]), ?_⟩, ?_⟩
    · simp [← h1]
    · simp [← h1]

/-- The numbers a basis function takes at within the bounds are those of the family. -/
def Spec.WithinBounds (o : MapOptions) (y : ℝ) : Prop := (∀ l ∈ o.basisLB, l ≤ y) ∧ ∀ u ∈ o.basisUB, y ≤ u

theorem within_value {o : MapOptions} {y : ℝ} (hy : WithinBounds o y) (f : ℝ → ℝ) : extend o.basisLB o.basisUB f y = f y := by
  rw [extend, linearize, if_neg, if_neg]
  · rcases e : o.basisUB with _ | u
    · simp
    · simpa using hy.2 u e
  · rcases e : o.basisLB with _ | l
    · simp
    · simpa using hy.1 l e

/-- Polynomials in the inputs before the last, of total degree up to the order, are expansions where the inputs are within the bounds. -/
theorem poly_expand {o : MapOptions} {p D : ℕ} {b : Basis ℝ} (hb : IsBasisOf o (fun n => n ≤ p) b) (hf : o.basisType ≠ .hermiteFunctions) {ts : List (List ℕ)}
    (hts : IsTotalOrder (D + 1) p ts) {q : MvPolynomial (Fin D) ℝ} (hq : q.totalDegree ≤ p) :
    ∃ Q : (ℕ → ℝ) → ℝ, Reps b.eff (D + 1) ts Q ∧ (∀ X y, Q (Function.update X D y) = Q X) ∧
      ∀ X, (∀ d < D, WithinBounds o (X d)) → Q X = MvPolynomial.eval (first D X) q := by
  obtain ⟨a, ha, -, -, hv⟩ := hb
  obtain ⟨ts₀, hts₀⟩ := below_order hts
  obtain ⟨R, hR⟩ := raw_polynomials o.basisType p
  have hw : weightOf o.basisType = (fun _ => 1, fun _ => 0, 0) := by
    cases h : o.basisType <;> first | rfl | exact absurd h hf
  rw [hw] at hR
  simp only [add_zero, mul_one] at hR
  set b₁ : Basis ℝ := ⟨fun m x => if m = 0 then 1 else rawFamily o.basisType m x / a m, fun _ _ => 0, fun _ _ => 0⟩ with hb₁
  set R₁ : ℕ → Polynomial ℝ := fun m => if m = 0 then 1 else Polynomial.C (a m)⁻¹ * R m with hR₁
  have hin : ∀ m ≤ p, ∀ y, WithinBounds o y → b.eff.val m y = b₁.val m y := fun m hm y hy => by
    by_cases h : m = 0
    · simp [hb₁, h, Basis.eff]
    · simp only [Basis.eff, hb₁, if_neg h, hv m hm, within_value hy]
  have hdeg : ∀ m, m + 0 ≤ p → (R₁ m).natDegree = m ∧ R₁ m ≠ 0 := fun m hm => by
    by_cases h : m = 0
    · simp [hR₁, h]
    · have := inv_ne_zero (ha m hm).ne'
      simp only [hR₁, if_neg h]
      exact ⟨by rw [Polynomial.natDegree_C_mul this, (hR m hm).1.1], mul_ne_zero (Polynomial.C_ne_zero.2 this) (hR m hm).1.2⟩
  have hval : ∀ m, m + 0 ≤ p → ∀ x, b₁.val (m + 0) x = (R₁ m).eval x * 1 := fun m hm x => by
    by_cases h : m = 0
    · simp [hb₁, hR₁, h]
    · have := (hR m hm).2 x
      simp only [rawBasis] at this
      simp only [hb₁, hR₁, add_zero, if_neg h, Polynomial.eval_mul, Polynomial.eval_C, this]
      ring
  have hrep : Reps b₁ D ts₀ fun X => ∑ m ∈ q.support, q.coeff m * ∏ i : Fin D, (((Polynomial.X : Polynomial ℝ) ^ m i).eval (X i) * 1) :=
    Reps.sum _ fun m hm => Reps.mul _ (Reps.prod (w := fun _ => 1) hdeg hval (fun v h1 h2 => (hts₀ v).2 ⟨h1, h2⟩) _ (by
      simp only [Polynomial.natDegree_X_pow, add_zero]
      refine le_trans ?_ hq
      have := MvPolynomial.le_totalDegree hm
      rwa [Finsupp.sum_fintype _ _ (fun _ => rfl)] at this))
  obtain ⟨e, he⟩ := hrep
  refine ⟨_, lift_reps (b := b.eff) (eff_zero b) hts (fun v hv => (hts₀ v).1 hv) e, fun X y => ?_, fun X hX => ?_⟩
  · refine sum_congr rfl fun k _ => ?_
    congr 1
    exact prod_congr rfl fun d hd => by rw [Function.update_of_ne (mem_range.1 hd).ne]
  · rw [MvPolynomial.eval_eq']
    have := he X
    simp only [Polynomial.eval_pow, Polynomial.eval_X, mul_one] at this
    refine Eq.trans (sum_congr rfl fun k hk => ?_) this.symm
    congr 1
    refine prod_congr rfl fun d hd => hin _ ?_ _ (hX d (mem_range.1 hd))
    have hm : ts₀.getD k [] ∈ ts₀ := by
      rw [List.getD_eq_getElem?_getD, List.getElem?_eq_getElem (mem_range.1 hk)]
      exact List.getElem_mem _
    exact entry_bound (ts := ts₀) (fun t ht m hmt => (List.single_le_sum (by simp) m hmt).trans ((hts₀ t).1 ht).2) k d

/-- On the data input `D` is a polynomial of total degree up to `p` of the inputs before it. -/
def Spec.Interpolated (data : List (List ℝ)) (D p : ℕ) : Prop :=
  ∃ q : MvPolynomial (Fin D) ℝ, q.totalDegree ≤ p ∧ ∀ x ∈ data, coords x D = MvPolynomial.eval (fun j : Fin D => coords x j) q

/-- **C121.** If on the data some diagonal input is a polynomial, of total degree up to the order of the map, of the inputs before it, then the training objective is below every
bound. -/
theorem C121_unbounded {o : MapOptions} {k n p : ℕ} (h0 : 0 < n) (h2 : k + n < 2 ^ 32) (hp : 0 < p) (hB : GoodBasis o p) (hQ : GoodQuad o) (hcd : o.contDeriv = true)
    (hf : o.basisType ≠ .hermiteFunctions) {mem : ℕ → Option ℝ} {work : List ℝ} {T : CMap} {w : List ℝ} (hT : createTriangular (k + n) n p o mem work = .ok (T, w))
    {data : List (List ℝ)} (hne : data ≠ []) (hdata : ∀ x ∈ data, x.length = k + n) {i : Fin n} (hin : ∀ x ∈ data, ∀ d < k + i, WithinBounds o (coords x d))
    (hi : Interpolated data (k + i) p) (M : ℝ) :
    ∃ c v, c.length = T.numCoeffs ∧ KL.objective T (Gaussian.ofDim T.outputDim).density c data = .ok (some v) ∧ v < M := by
  obtain ⟨b, ts, hb, hts, h⟩ := C112_objective (inputDim := k + n) h0 (by omega) h2 hB hQ hcd
  simp only [Nat.add_sub_cancel] at hts h
  obtain ⟨T', split, t1, hTr⟩ := h mem work
  obtain ⟨rfl, -⟩ := Prod.mk.inj (Res.ok.inj (hT.symm.trans t1))
  obtain ⟨α, hα0, hα⟩ := degree_one (show IsBasisOf o (fun n => n ≤ 1) b from by
    obtain ⟨a, h1, h2, h3, h4⟩ := hb
    exact ⟨a, fun n hn => h1 n (hn.trans hp), h2, h3, fun n hn => h4 n (hn.trans hp)⟩)
  obtain ⟨q, hq, hqd⟩ := hi
  obtain ⟨Q₀, q1, q2, q3⟩ := poly_expand hb hf (hts i) hq
  set K := ∑ j : Fin n, (if j = i then 0 else 1 / 2 * average data fun x => coords x (k + j) ^ 2) + n / 2 * Real.log (2 * Real.pi) with hK
  set s : Fin n → ℝ := fun j => if j = i then Real.exp (K - M + 1) else 1 with hs
  have hs0 : ∀ j, 0 < s j := fun j => by
    simp only [hs]
    split
    · exact Real.exp_pos _
    · exact one_pos
  set Q : Fin n → (ℕ → ℝ) → ℝ := fun j => if j = i then fun X => -s i * Q₀ X else fun _ => 0 with hQd
  have hlin : ∀ j : Fin n, Reps b.eff (k + j + 1) (ts j) fun X => α * X (k + j) := fun j => by
    have := Reps.term (b := b.eff) (fun l : Fin (k + j + 1) => if l = Fin.last _ then 1 else 0)
      (((hts j).2 (List.ofFn fun l : Fin (k + j + 1) => if l = Fin.last _ then 1 else 0)).2 ⟨by simp, by rw [List.sum_ofFn, sum_ite_eq' univ (Fin.last _), if_pos (mem_univ _)]; exact hp⟩)
    refine Eq.mp (congrArg _ (funext fun X => ?_)) this
    rw [prod_eq_single (Fin.last _) (fun l _ hne => by rw [if_neg hne, eff_zero]) (by simp), if_pos rfl, hα]
    rfl
  have hrep : ∀ j : Fin n, Reps b.eff (k + j + 1) (ts j) fun X => Q j X + posInv o.posFuncType (s j) / α * (α * X (k + j)) := fun j => by
    refine Reps.add ?_ (Reps.mul _ (hlin j))
    by_cases hj : j = i
    · subst hj
      simp only [hQd, if_true]
      exact Reps.mul _ q1
    · simp only [hQd, if_neg hj]
      exact Reps.zero
  choose cs hl hcs using fun j => (hrep j).expand
  have hsl : Slices ts cs (List.ofFn cs).flatten := ⟨rfl, hl⟩
  have hc : (List.ofFn cs).flatten.length = T.numCoeffs := by
    rw [slices_length hsl, ← slices_length (hTr.slices (zeros T.numCoeffs) (by simp [zeros]))]
    simp [zeros]
  have hsplit : split (List.ofFn cs).flatten = cs := slices_unique (hTr.slices _ hc) hsl
  have hobj := shift_objective hb hB hts hTr hc (β := fun j => posInv o.posFuncType (s j)) (Q := Q) (fun j X y => by
    by_cases hj : j = i
    · subst hj
      simp only [hQd, if_true, q2]
    · simp only [hQd, if_neg hj]) (fun j X => by
      rw [hsplit, hcs]
      field_simp) hne hdata
  simp only [positive_posInv _ (hs0 _)] at hobj
  refine ⟨_, _, hc, by rw [hTr.sizes.2]; exact hobj, ?_⟩
  have e : ∀ j : Fin n, (1 / 2 * average data (fun x => shiftOutput k s Q x j ^ 2) - Real.log (s j))
      = (if j = i then 0 else 1 / 2 * average data fun x => coords x (k + j) ^ 2) - if j = i then K - M + 1 else 0 := by
    intro j
    by_cases hj : j = i
    · subst hj
      rw [average_congr (g := fun _ => 0) fun x hx => ?_, average_const hne]
      · simp [hs]
      · simp only [shiftOutput, hQd, if_true, hqd x hx, q3 (coords x) (hin x hx)]
        rw [show first (k + j) (coords x) = fun l : Fin (k + j) => coords x l from rfl]
        ring
    · simp [hj, shiftOutput, hs, hQd]
  rw [sum_congr rfl fun j _ => e j, sum_sub_distrib]
  simp only [sum_ite_eq', mem_univ, if_true]
  rw [sub_add_eq_add_sub, ← hK]
  linarith

/-- Any values at `N` different points are those of a polynomial of total degree less than `N`. -/
theorem interpolate_points {D N : ℕ} {v : Fin N → Fin D → ℝ} (hv : Function.Injective v) (y : Fin N → ℝ) :
    ∃ q : MvPolynomial (Fin D) ℝ, q.totalDegree ≤ N - 1 ∧ ∀ m, MvPolynomial.eval (v m) q = y m := by
  classical
  have hsep : ∀ m l : Fin N, ∃ L : MvPolynomial (Fin D) ℝ, L.totalDegree ≤ 1 ∧ (m ≠ l → MvPolynomial.eval (v m) L = 1 ∧ MvPolynomial.eval (v l) L = 0) := fun m l => by
    by_cases h : m = l
    · exact ⟨0, by simp, fun h' => absurd h h'⟩
    · obtain ⟨d, hd⟩ := Function.ne_iff.1 (hv.ne h)
      refine ⟨MvPolynomial.C (v m d - v l d)⁻¹ * (MvPolynomial.X d - MvPolynomial.C (v l d)), ?_, fun _ => ⟨?_, by simp⟩⟩
      · refine (MvPolynomial.totalDegree_mul _ _).trans ?_
        rw [MvPolynomial.totalDegree_C, zero_add]
        refine (MvPolynomial.totalDegree_sub _ _).trans ?_
        simp
      · simp [inv_mul_cancel₀ (sub_ne_zero.2 hd)]
  choose L hL1 hL2 using hsep
  refine ⟨∑ m, MvPolynomial.C (y m) * ∏ l ∈ univ.erase m, L m l, ?_, fun m => ?_⟩
  · refine (MvPolynomial.totalDegree_finsetSum _ _).trans (Finset.sup_le fun m _ => ?_)
    refine (MvPolynomial.totalDegree_mul _ _).trans ?_
    rw [MvPolynomial.totalDegree_C, zero_add]
    refine (MvPolynomial.totalDegree_finsetProd _ _).trans ((sum_le_sum fun l _ => hL1 m l).trans ?_)
    simp
  · rw [map_sum, sum_eq_single m]
    · rw [map_mul, map_prod, MvPolynomial.eval_C, prod_eq_one fun l hl => (hL2 m l (ne_of_mem_erase hl).symm).1, mul_one]
    · intro l _ hl
      rw [map_mul, map_prod, prod_eq_zero (mem_erase.2 ⟨hl.symm, mem_univ m⟩) (hL2 l m hl).2, mul_zero]
    · simp

/-- **C121.** So it is with at most one sample more than the order, if the samples differ in the inputs before a diagonal one. -/
theorem C121_few_samples {o : MapOptions} {k n p : ℕ} (h0 : 0 < n) (h2 : k + n < 2 ^ 32) (hp : 0 < p) (hB : GoodBasis o p) (hQ : GoodQuad o) (hcd : o.contDeriv = true)
    (hf : o.basisType ≠ .hermiteFunctions) {mem : ℕ → Option ℝ} {work : List ℝ} {T : CMap} {w : List ℝ} (hT : createTriangular (k + n) n p o mem work = .ok (T, w))
    {data : List (List ℝ)} (hne : data ≠ []) (hdata : ∀ x ∈ data, x.length = k + n) {i : Fin n} (hin : ∀ x ∈ data, ∀ d < k + i, WithinBounds o (coords x d))
    (hfew : data.length ≤ p + 1) (hdist : (data.map fun x => x.take (k + i)).Nodup) (M : ℝ) :
    ∃ c v, c.length = T.numCoeffs ∧ KL.objective T (Gaussian.ofDim T.outputDim).density c data = .ok (some v) ∧ v < M := by
  refine C121_unbounded h0 h2 hp hB hQ hcd hf hT hne hdata hin ?_ M
  obtain ⟨q, h1, h2⟩ := interpolate_points (v := fun (m : Fin data.length) (d : Fin (k + i)) => coords data[m] d) (fun m m' e => by
    have := List.nodup_iff_injective_getElem.1 hdist (a₁ := ⟨m, by simp⟩) (a₂ := ⟨m', by simp⟩) (by
      simp only [List.getElem_map]
      have l1 := hdata _ (List.getElem_mem m.2)
      have l2 := hdata _ (List.getElem_mem m'.2)
      refine List.ext_getElem (by simp [l1, l2]) fun d hd hd' => ?_
      have hd1 : d < k + i := by simp at hd; omega
      have hi := i.2
      have := congrFun e ⟨d, hd1⟩
      simp only [coords] at this
      rw [List.getElem_take, List.getElem_take]
      rw [List.getD_eq_getElem?_getD, List.getD_eq_getElem?_getD, List.getElem?_eq_getElem (by simp only [Fin.getElem_fin]; omega),
        List.getElem?_eq_getElem (by simp only [Fin.getElem_fin]; omega)] at this
      simpa using this)
    exact Fin.ext (by simpa using congrArg Fin.val this)) fun m => coords data[m] (k + i)
  refine ⟨q, h1.trans (by omega), fun x hx => ?_⟩
  obtain ⟨m, hm, rfl⟩ := List.mem_iff_getElem.1 hx
  exact (h2 ⟨m, hm⟩).symm

/-- The default map of order two on two inputs, trained on three samples: the objective has no minimum. -/
example : ∃ T w, createTriangular 2 2 2 {} (fun _ => none) [] = .ok (T, w) ∧
    ∀ M, ∃ c v, c.length = T.numCoeffs ∧ KL.objective T (Gaussian.ofDim T.outputDim).density c [[0, 0], [1, 2], [2, 1]] = .ok (some v) ∧ v < M := by
  obtain ⟨hB, hQ⟩ := good_default 2 (by norm_num)
  obtain ⟨b, mesh, -, -, h63⟩ := C63_triangular_partial (inputDim := 2) (outputDim := 2) (by norm_num) le_rfl (by norm_num) hB hQ
  obtain ⟨T, -, s1, -⟩ := h63 (fun _ => none) []
  refine ⟨T, _, s1, C121_few_samples (k := 0) (n := 2) (i := 1) (by norm_num) (by norm_num) (by norm_num) hB hQ rfl (by simp) s1 (by simp) (by simp)
    (fun x _ d _ => ⟨by simp, by simp⟩) (by simp) (by simp)⟩

end MParT
