import Verif.Lemmas.Approximation
import Verif.Props.TriangularGradient
import Verif.Lemmas.Independent
/-!
# C118: maps of high enough order come as close as desired to every increasing triangular transformation
-/
namespace MParT
open Finset Spec MapFactory

/-- A function of `d + 1` variables that increases in the last one: it is continuous and has the continuous positive derivative `s'` with respect
to it. -/
structure Spec.IncreasingLast {d : ℕ} (s s' : (Fin (d + 1) → ℝ) → ℝ) : Prop where
  continuous : Continuous s
  slope_continuous : Continuous s'
  slope_pos : ∀ x, 0 < s' x
  slope : ∀ x t, HasDerivAt (fun t => s (Function.update x (Fin.last d) t)) (s' (Function.update x (Fin.last d) t)) t

/-- The first `n` coordinates. -/
def Spec.first (n : ℕ) (X : ℕ → ℝ) : Fin n → ℝ := fun i => X i

theorem first_update {d : ℕ} (X : ℕ → ℝ) (t : ℝ) : first (d + 1) (Function.update X d t) = Function.update (first (d + 1) X) (Fin.last d) t := by
  funext i
  rcases eq_or_ne i (Fin.last d) with rfl | h
  · simp [first]
  · have : (i : ℕ) ≠ d := fun e => h (Fin.ext e)
    simp [first, Function.update_of_ne h, Function.update_of_ne this]

/-- The inverse of the positive function. -/
noncomputable def posInv : PosFuncType → ℝ → ℝ
  | .exp => fun y => Real.log y
  | .softPlus => fun y => Real.log (Real.exp y - 1)

theorem positive_posInv (t : PosFuncType) {y : ℝ} (hy : 0 < y) : positive t (posInv t y) = y := by
  cases t with
  | exp => exact Real.exp_log hy
  | softPlus =>
    have : 0 < Real.exp y - 1 := by linarith [Real.add_one_lt_exp hy.ne']
    simp only [positive, posInv]
    rw [Real.exp_log this, add_sub_cancel, Real.log_exp]

theorem posInv_continuous (t : PosFuncType) {α : Type} [TopologicalSpace α] {f : α → ℝ} (hf : Continuous f) (h0 : ∀ x, 0 < f x) :
    Continuous fun x => posInv t (f x) := by
  cases t with
  | exp => exact hf.log fun x => (h0 x).ne'
  | softPlus =>
    refine ((Real.continuous_exp.comp hf).sub continuous_const).log fun x => ?_
    have := Real.add_one_lt_exp (h0 x).ne'
    have := h0 x
    have h : 0 < Real.exp (f x) - 1 := by linarith
    exact h.ne'

/-- Near the values of a function on a compact set, another function changes little. -/
theorem near_values {α β : Type} [TopologicalSpace α] [PseudoMetricSpace β] {K : Set α} (hK : IsCompact K) {G : α → β} (hG : Continuous G) {h : β → ℝ}
    (hh : Continuous h) {η : ℝ} (hη : 0 < η) : ∃ δ > 0, ∀ x ∈ K, ∀ v, dist v (G x) ≤ δ → |h v - h (G x)| ≤ η := by
  have := (hK.image hG).uniformContinuousAt_of_continuousAt h (fun a _ => hh.continuousAt) (Metric.dist_mem_uniformity hη)
  obtain ⟨δ, hδ, hs⟩ := Metric.mem_uniformity_dist.1 this
  refine ⟨δ / 2, by linarith, fun x hx v hv => ?_⟩
  have := hs (a := G x) (b := v) (by rw [dist_comm]; linarith) ⟨x, hx, rfl⟩
  rw [abs_sub_comm]
  exact le_of_lt this

/-- The function the expansion is to be: the first polynomial where the last variable is 0, with the second one as derivative in the last variable. -/
noncomputable def blend {d : ℕ} (P Q : MvPolynomial (Fin (d + 1)) ℝ) (X : ℕ → ℝ) : ℝ :=
  ∑ m ∈ P.support, P.coeff m * ∏ i : Fin (d + 1), (Fin.snoc (α := fun _ => Polynomial ℝ) (fun i : Fin d => (Polynomial.X : Polynomial ℝ) ^ m i.castSucc)
      (Polynomial.C (0 ^ m (Fin.last d))) i).eval (X i)
    + ∑ m ∈ Q.support, Q.coeff m * ∏ i : Fin (d + 1), (Fin.snoc (α := fun _ => Polynomial ℝ) (fun i : Fin d => (Polynomial.X : Polynomial ℝ) ^ m i.castSucc)
      (Polynomial.C (1 / (m (Fin.last d) + 1 : ℝ)) * Polynomial.X ^ (m (Fin.last d) + 1)) i).eval (X i)

theorem blend_eq {d : ℕ} (P Q : MvPolynomial (Fin (d + 1)) ℝ) (X : ℕ → ℝ) : blend P Q X
    = ∑ m ∈ P.support, P.coeff m * ((∏ i : Fin d, X i ^ m i.castSucc) * 0 ^ m (Fin.last d))
      + ∑ m ∈ Q.support, Q.coeff m * ((∏ i : Fin d, X i ^ m i.castSucc) * (1 / (m (Fin.last d) + 1 : ℝ) * X d ^ (m (Fin.last d) + 1))) := by
  simp only [blend, Fin.prod_univ_castSucc, Fin.snoc_castSucc, Fin.snoc_last]
  simp

theorem eval_split {d : ℕ} (Q : MvPolynomial (Fin (d + 1)) ℝ) (X : ℕ → ℝ) : MvPolynomial.eval (first (d + 1) X) Q
    = ∑ m ∈ Q.support, Q.coeff m * ((∏ i : Fin d, X i ^ m i.castSucc) * X d ^ m (Fin.last d)) := by
  rw [MvPolynomial.eval_eq']
  simp only [Fin.prod_univ_castSucc, first]
  simp

theorem prod_update {d : ℕ} (X : ℕ → ℝ) (t : ℝ) (m : Fin d → ℕ) : ∏ i : Fin d, (Function.update X d t) i ^ m i = ∏ i : Fin d, X i ^ m i :=
  prod_congr rfl fun i _ => by rw [Function.update_of_ne i.2.ne]

theorem blend_zero {d : ℕ} (P Q : MvPolynomial (Fin (d + 1)) ℝ) (X : ℕ → ℝ) :
    blend P Q (Function.update X d 0) = MvPolynomial.eval (first (d + 1) (Function.update X d 0)) P := by
  rw [blend_eq, eval_split]
  simp [prod_update]

theorem blend_slope {d : ℕ} (P Q : MvPolynomial (Fin (d + 1)) ℝ) (X : ℕ → ℝ) (t : ℝ) :
    HasDerivAt (fun t => blend P Q (Function.update X d t)) (MvPolynomial.eval (first (d + 1) (Function.update X d t)) Q) t := by
  simp only [blend_eq, eval_split, prod_update, Function.update_self]
  refine HasDerivAt.const_add _ ?_
  refine HasDerivAt.fun_sum fun m _ => HasDerivAt.const_mul _ (HasDerivAt.const_mul _ ?_)
  have h := (hasDerivAt_pow (m (Fin.last d) + 1) t).const_mul (1 / (m (Fin.last d) + 1 : ℝ))
  have h0 : (m (Fin.last d) + 1 : ℝ) ≠ 0 := by positivity
  convert h using 1
  push_cast
  field_simp

/-! ### Weights -/

/-- What the members of the basis share besides a polynomial: nothing for the polynomial families, the Gaussian for Hermite functions. -/
structure IsWeight (w w' : ℝ → ℝ) : Prop where
  slope : ∀ x, HasDerivAt w (w' x) x
  cont : Continuous w'
  pos : ∀ x, 0 < w x
  le_one : ∀ x, w x ≤ 1
  slope_le_one : ∀ x, |w' x| ≤ 1

theorem weight_one : IsWeight (fun _ => 1) (fun _ => 0) :=
  ⟨fun x => hasDerivAt_const x 1, continuous_const, fun _ => one_pos, fun _ => le_rfl, fun _ => by simp⟩

theorem weight_gauss : IsWeight (fun x => Real.exp (-x ^ 2 / 2)) (fun x => -x * Real.exp (-x ^ 2 / 2)) := by
  refine ⟨fun x => ?_, by fun_prop, fun x => Real.exp_pos _, fun x => Real.exp_le_one_iff.2 (by nlinarith [sq_nonneg x]), fun x => ?_⟩
  · have h : HasDerivAt (fun x : ℝ => -x ^ 2 / 2) (-x) x := by
      refine (((hasDerivAt_pow 2 x).fun_neg).div_const 2).congr_deriv ?_
      simp
      ring
    exact h.exp.congr_deriv (mul_comm _ _)
  · rw [abs_mul, abs_neg, Real.abs_exp, neg_div, Real.exp_neg, ← div_eq_mul_inv, div_le_one (Real.exp_pos _)]
    have h := Real.add_one_le_exp (x ^ 2 / 2)
    have h1 : |x| ≤ x ^ 2 / 2 + 1 := by
      rw [← sq_abs]
      nlinarith [sq_nonneg (|x| - 1)]
    exact h1.trans h

/-- Product of the weights of the variables. -/
def weigh {n : ℕ} (w : ℝ → ℝ) (x : Fin n → ℝ) : ℝ := ∏ i, w (x i)

theorem weigh_pos {w w' : ℝ → ℝ} (hw : IsWeight w w') {n : ℕ} (x : Fin n → ℝ) : 0 < weigh w x := prod_pos fun _ _ => hw.pos _

theorem weigh_le_one {w w' : ℝ → ℝ} (hw : IsWeight w w') {n : ℕ} (x : Fin n → ℝ) : weigh w x ≤ 1 :=
  prod_le_one (fun _ _ => (hw.pos _).le) fun _ _ => hw.le_one _

theorem weigh_cont {w w' : ℝ → ℝ} (hw : IsWeight w w') {n : ℕ} : Continuous (weigh (n := n) w) :=
  continuous_finsetProd _ fun i _ => (Differentiable.continuous fun x => (hw.slope x).differentiableAt).comp (continuous_apply i)

theorem weigh_split (w : ℝ → ℝ) {d : ℕ} (X : ℕ → ℝ) : weigh w (first (d + 1) X) = weigh w (first d X) * w (X d) := by
  rw [weigh, Fin.prod_univ_castSucc]
  rfl

theorem first_below {d : ℕ} (X : ℕ → ℝ) (t : ℝ) : first d (Function.update X d t) = first d X := by
  funext i
  simp [first, Function.update_of_ne i.2.ne]

/-- Derivative in the last variable of the weighted function. -/
noncomputable def blendSlope {d : ℕ} (w w' : ℝ → ℝ) (P Q : MvPolynomial (Fin (d + 1)) ℝ) (X : ℕ → ℝ) : ℝ :=
  weigh w (first d X) * (MvPolynomial.eval (first (d + 1) X) Q * w (X d) + blend P Q X * w' (X d))

theorem weighted_slope {w w' : ℝ → ℝ} (hw : IsWeight w w') {d : ℕ} (P Q : MvPolynomial (Fin (d + 1)) ℝ) (X : ℕ → ℝ) (t : ℝ) :
    HasDerivAt (fun t => blend P Q (Function.update X d t) * weigh w (first (d + 1) (Function.update X d t))) (blendSlope w w' P Q (Function.update X d t)) t := by
  have h := (blend_slope P Q X t).fun_mul ((hw.slope t).const_mul (weigh w (first d X)))
  simp only [weigh_split, first_below, Function.update_self]
  refine h.congr_deriv ?_
  simp only [blendSlope, first_below, Function.update_self]
  ring

/-- A function with a continuous derivative in the last variable is approximated, together with it, by a weighted polynomial. -/
theorem weighted_near {w w' : ℝ → ℝ} (hw : IsWeight w w') {d : ℕ} {f G : (Fin (d + 1) → ℝ) → ℝ} (hf : Continuous f) (hG : Continuous G)
    (hd : ∀ x t, HasDerivAt (fun t => f (Function.update x (Fin.last d) t)) (G (Function.update x (Fin.last d) t)) t) (r : ℝ) {δ : ℝ} (hδ : 0 < δ) :
    ∃ P Q : MvPolynomial (Fin (d + 1)) ℝ, ∀ X : ℕ → ℝ, (∀ i ≤ d, |X i| ≤ r) →
      |blend P Q (Function.update X d 0) * weigh w (first (d + 1) (Function.update X d 0)) - f (first (d + 1) (Function.update X d 0))| ≤ δ ∧
      |blendSlope w w' P Q X - G (first (d + 1) X)| ≤ δ := by
  have hwc : Continuous w := Differentiable.continuous fun x => (hw.slope x).differentiableAt
  set η := δ / (2 + |r|) with hη
  have hr2 : 0 < 2 + |r| := by positivity
  have hη0 : 0 < η := by positivity
  have hηδ : η * (2 + |r|) = δ := by rw [hη]; field_simp
  have hηle : η ≤ δ := by nlinarith [abs_nonneg r]
  set B : (Fin (d + 1) → ℝ) → ℝ := fun x => (G x - f x * w' (x (Fin.last d)) / w (x (Fin.last d))) / weigh w x with hB
  have hBc : Continuous B := (hG.sub ((hf.mul (hw.cont.comp (continuous_apply _))).div (hwc.comp (continuous_apply _)) fun x => (hw.pos _).ne')).div
    (weigh_cont hw) fun x => (weigh_pos hw x).ne'
  obtain ⟨P, hP⟩ := polynomial_near (hf.div (weigh_cont hw) fun x => (weigh_pos hw x).ne') r hη0
  obtain ⟨Q, hQ⟩ := polynomial_near hBc r hη0
  refine ⟨P, Q, fun X hX => ?_⟩
  have hr : 0 ≤ r := (abs_nonneg _).trans (hX 0 (by omega))
  have hbox : ∀ t, |t| ≤ r → ∀ i, |first (d + 1) (Function.update X d t) i| ≤ r := fun t ht i => by
    by_cases h : (i : ℕ) = d
    · simpa [first, h] using ht
    · simpa [first, Function.update_of_ne h] using hX i (by have := i.2; omega)
  have h0 := hP _ (hbox 0 (by simpa using hr))
  rw [← blend_zero P Q X, Pi.div_apply] at h0
  refine ⟨?_, ?_⟩
  · have hp := weigh_pos hw (first (d + 1) (Function.update X d 0))
    have h1 := mul_le_mul h0 (weigh_le_one hw (first (d + 1) (Function.update X d 0))) hp.le hη0.le
    rw [← abs_of_pos hp, ← abs_mul, sub_mul, abs_of_pos hp, div_mul_cancel₀ _ hp.ne', mul_one] at h1
    exact h1.trans hηle
  · -- the difference to `f / weigh` grows by at most `η` per unit in the last variable
    have hu : ∀ t, HasDerivAt (fun t => blend P Q (Function.update X d t) - f (first (d + 1) (Function.update X d t)) / weigh w (first (d + 1) (Function.update X d t)))
        (MvPolynomial.eval (first (d + 1) (Function.update X d t)) Q - B (first (d + 1) (Function.update X d t))) t := fun t => by
      refine (blend_slope P Q X t).fun_sub ?_
      have h1 := hd (first (d + 1) X) t
      simp only [← first_update] at h1
      have hV := weigh_pos hw (first d X)
      have hwt := hw.pos t
      have h2 := h1.fun_div ((hw.slope t).const_mul (weigh w (first d X))) (mul_pos hV hwt).ne'
      simp only [weigh_split, first_below, Function.update_self]
      refine h2.congr_deriv ?_
      have e : first (d + 1) (Function.update X d t) (Fin.last d) = t := by simp [first]
      simp only [hB, weigh_split, first_below, Function.update_self, e]
      field_simp
    have hgrow := (convex_Icc (-r) r).norm_image_sub_le_of_norm_hasDerivWithin_le (fun t _ => (hu t).hasDerivWithinAt) (C := η)
      (fun t ht => hQ _ (hbox t (abs_le.2 ht))) (x := 0) (y := X d) ⟨by linarith, hr⟩ (abs_le.1 (hX d le_rfl))
    rw [Function.update_eq_self, Real.norm_eq_abs, Real.norm_eq_abs, sub_zero] at hgrow
    have hH : |blend P Q X - f (first (d + 1) X) / weigh w (first (d + 1) X)| ≤ η * (1 + |r|) := by
      have h1 : η * |X d| ≤ η * |r| := mul_le_mul_of_nonneg_left ((hX d le_rfl).trans (le_abs_self r)) hη0.le
      have h2 := abs_sub_abs_le_abs_sub (blend P Q X - f (first (d + 1) X) / weigh w (first (d + 1) X))
        (blend P Q (Function.update X d 0) - f (first (d + 1) (Function.update X d 0)) / weigh w (first (d + 1) (Function.update X d 0)))
      linarith
    have hS := hQ (first (d + 1) X) fun i => hX i (by have := i.2; omega)
    have hV := weigh_pos hw (first d X)
    have hV1 := weigh_le_one hw (first d X)
    have hwt := hw.pos (X d)
    have e : first (d + 1) X (Fin.last d) = X d := by simp [first]
    have key : blendSlope w w' P Q X - G (first (d + 1) X) = weigh w (first d X) * ((MvPolynomial.eval (first (d + 1) X) Q - B (first (d + 1) X)) * w (X d)
        + (blend P Q X - f (first (d + 1) X) / weigh w (first (d + 1) X)) * w' (X d)) := by
      simp only [blendSlope, hB, weigh_split, e]
      field_simp
      ring
    rw [key, abs_mul, abs_of_pos hV]
    have h3 : |(MvPolynomial.eval (first (d + 1) X) Q - B (first (d + 1) X)) * w (X d)
        + (blend P Q X - f (first (d + 1) X) / weigh w (first (d + 1) X)) * w' (X d)| ≤ δ := by
      refine (abs_add_le _ _).trans ?_
      rw [abs_mul, abs_mul, abs_of_pos hwt]
      have h4 := mul_le_mul hS (hw.le_one (X d)) hwt.le hη0.le
      have h5 := mul_le_mul hH (hw.slope_le_one (X d)) (abs_nonneg _) (by positivity)
      linarith
    exact (mul_le_mul hV1 h3 (abs_nonneg _) zero_le_one).trans (by rw [one_mul])

/-! ### Expansions -/

/-- Order up to which multi-indices are needed. -/
noncomputable def blendDegree {d : ℕ} (q : ℕ) (P Q : MvPolynomial (Fin (d + 1)) ℝ) : ℕ :=
  ∑ m ∈ P.support, ∑ i : Fin (d + 1), ((Fin.snoc (α := fun _ => Polynomial ℝ) (fun i : Fin d => (Polynomial.X : Polynomial ℝ) ^ m i.castSucc)
      (Polynomial.C (0 ^ m (Fin.last d))) i).natDegree + q)
    + ∑ m ∈ Q.support, ∑ i : Fin (d + 1), ((Fin.snoc (α := fun _ => Polynomial ℝ) (fun i : Fin d => (Polynomial.X : Polynomial ℝ) ^ m i.castSucc)
      (Polynomial.C (1 / (m (Fin.last d) + 1 : ℝ)) * Polynomial.X ^ (m (Fin.last d) + 1)) i).natDegree + q)

/-- From order `q` to `p` the members of the basis are polynomials of degrees 0, 1, … times the weight. -/
def Polynomials (q : ℕ) (w : ℝ → ℝ) (b : Basis ℝ) (p : ℕ) : Prop :=
  ∃ Q : ℕ → Polynomial ℝ, ∀ k, k + q ≤ p → ((Q k).natDegree = k ∧ Q k ≠ 0) ∧ ∀ x, b.val (k + q) x = (Q k).eval x * w x

theorem blend_reps {d p q : ℕ} {w : ℝ → ℝ} (P Q : MvPolynomial (Fin (d + 1)) ℝ) (hp : blendDegree q P Q ≤ p) {b : Basis ℝ} (hb : Polynomials q w b p)
    {ts : List (List ℕ)} (hts : ∀ v : List ℕ, v.length = d + 1 → v.sum ≤ p → v ∈ ts) :
    Reps b (d + 1) ts fun X => blend P Q X * weigh w (first (d + 1) X) := by
  obtain ⟨B, hB⟩ := hb
  rw [blendDegree] at hp
  have h := Reps.add (Reps.sum P.support fun m hm => Reps.mul (P.coeff m) (Reps.prod (b := b) (fun k hk => (hB k hk).1) (fun k hk => (hB k hk).2) hts
      (Fin.snoc (α := fun _ => Polynomial ℝ) (fun i : Fin d => (Polynomial.X : Polynomial ℝ) ^ m i.castSucc) (Polynomial.C (0 ^ m (Fin.last d))))
      ((single_le_sum (f := fun m : Fin (d + 1) →₀ ℕ => ∑ i : Fin (d + 1), ((Fin.snoc (α := fun _ => Polynomial ℝ)
      (fun i : Fin d => (Polynomial.X : Polynomial ℝ) ^ m i.castSucc) (Polynomial.C (0 ^ m (Fin.last d))) i).natDegree + q))
      (fun _ _ => Nat.zero_le _) hm).trans (by omega))))
    (Reps.sum Q.support fun m hm => Reps.mul (Q.coeff m) (Reps.prod (b := b) (fun k hk => (hB k hk).1) (fun k hk => (hB k hk).2) hts
      (Fin.snoc (α := fun _ => Polynomial ℝ) (fun i : Fin d => (Polynomial.X : Polynomial ℝ) ^ m i.castSucc)
      (Polynomial.C (1 / (m (Fin.last d) + 1 : ℝ)) * Polynomial.X ^ (m (Fin.last d) + 1)))
      ((single_le_sum (f := fun m : Fin (d + 1) →₀ ℕ => ∑ i : Fin (d + 1), ((Fin.snoc (α := fun _ => Polynomial ℝ)
      (fun i : Fin d => (Polynomial.X : Polynomial ℝ) ^ m i.castSucc)
      (Polynomial.C (1 / (m (Fin.last d) + 1 : ℝ)) * Polynomial.X ^ (m (Fin.last d) + 1)) i).natDegree + q))
      (fun _ _ => Nat.zero_le _) hm).trans (by omega))))
  obtain ⟨a, ha⟩ := h
  refine ⟨a, fun X => ?_⟩
  rw [← ha X]
  simp only [blend, prod_mul_distrib, add_mul, sum_mul, ← mul_assoc]
  rfl

theorem entry_bound {ts : List (List ℕ)} {p : ℕ} (hts : ∀ t ∈ ts, ∀ m ∈ t, m ≤ p) (k i : ℕ) : (ts.getD k []).getD i 0 ≤ p := by
  rw [List.getD_eq_getElem?_getD, List.getD_eq_getElem?_getD]
  rcases h : ts[k]? with _ | t
  · simp
  · rcases h' : t[i]? with _ | m
    · simp [h']
    · simp only [Option.getD_some, h']
      exact hts t (List.mem_of_getElem? h) m (List.mem_of_getElem? h')

/-- Derivative of an expansion in the last variable, term by term. -/
theorem diag_formula {b : Basis ℝ} {d p : ℕ} (hb : ∀ k ≤ p, Differentiable ℝ (b.val k)) {ts : List (List ℕ)} (hts : ∀ t ∈ ts, ∀ m ∈ t, m ≤ p)
    (c : List ℝ) (X : ℕ → ℝ) : diagD b (d + 1) ts c X = ∑ k ∈ range ts.length, c.getD k 0 *
      ((∏ i ∈ range d, b.val ((ts.getD k []).getD i 0) (X i)) * deriv (b.val ((ts.getD k []).getD d 0)) (X d)) := by
  rw [diagD, partialDeriv, Nat.add_sub_cancel]
  refine HasDerivAt.deriv ?_
  simp only [expandAt, expansion, termProd]
  refine HasDerivAt.fun_sum fun k hk => HasDerivAt.const_mul _ ?_
  have h1 : (fun y => ∏ e ∈ range (d + 1), b.val ((ts.getD k []).getD e 0) (Function.update X d y e))
      = fun y => (∏ i ∈ range d, b.val ((ts.getD k []).getD i 0) (X i)) * b.val ((ts.getD k []).getD d 0) y := by
    funext y
    rw [prod_range_succ, Function.update_self, prod_congr rfl fun i hi => by rw [Function.update_of_ne (by have := mem_range.1 hi; omega)]]
  rw [h1]
  exact ((hb _ (entry_bound hts k d) _).hasDerivAt).const_mul _

/-- In the interval the members of `b` of orders up to `p` are those of `b₀`, with the same derivatives. -/
structure Agrees (r : ℝ) (p : ℕ) (b b₀ : Basis ℝ) : Prop where
  smooth : ∀ k ≤ p, ContDiff ℝ 1 (b.val k)
  smooth₀ : ∀ k ≤ p, Differentiable ℝ (b₀.val k)
  val : ∀ k ≤ p, ∀ x, |x| ≤ r → b.val k x = b₀.val k x ∧ deriv (b.val k) x = deriv (b₀.val k) x

theorem Agrees.expand {r : ℝ} {p d : ℕ} {b b₀ : Basis ℝ} (h : Agrees r p b b₀) {ts : List (List ℕ)} (hts : ∀ t ∈ ts, ∀ m ∈ t, m ≤ p) (c : List ℝ) {X : ℕ → ℝ}
    (hX : ∀ i ≤ d, |X i| ≤ r) : expandAt b (d + 1) ts c X = expandAt b₀ (d + 1) ts c X ∧
    diagD b (d + 1) ts c X = diagD b₀ (d + 1) ts c X := by
  constructor
  · simp only [expandAt, expansion, termProd]
    refine sum_congr rfl fun k _ => ?_
    congr 1
    exact prod_congr rfl fun i hi => (h.val _ (entry_bound hts k i) (X i) (hX i (by have := mem_range.1 hi; omega))).1
  · rw [diag_formula (fun k hk => (h.smooth k hk).differentiable one_ne_zero) hts, diag_formula h.smooth₀ hts]
    refine sum_congr rfl fun k _ => ?_
    rw [(h.val _ (entry_bound hts k d) (X d) (hX d le_rfl)).2]
    congr 2
    exact prod_congr rfl fun i hi => (h.val _ (entry_bound hts k i) (X i) (hX i (by have := mem_range.1 hi; omega))).1

/-- Expansions of high enough order approximate the offset and, through the positive function, the slope. -/
theorem expansion_near {w w' : ℝ → ℝ} (hw : IsWeight w w') (q : ℕ) {d : ℕ} {s s' : (Fin (d + 1) → ℝ) → ℝ} (hs : IncreasingLast s s') (t : PosFuncType) (r : ℝ)
    {η : ℝ} (hη : 0 < η) :
    ∃ N, ∀ p ≥ N, ∀ b b₀ : Basis ℝ, Polynomials q w b₀ p → Agrees r p b b₀ → ∀ ts : List (List ℕ), (∀ v : List ℕ, v ∈ ts ↔ v.length = d + 1 ∧ v.sum ≤ p) →
      ∃ c : List ℝ, c.length = ts.length ∧ (∀ X, Continuous fun τ => diagD b (d + 1) ts c (Function.update X d τ)) ∧ ∀ X : ℕ → ℝ, (∀ i ≤ d, |X i| ≤ r) →
        |offset b (d + 1) ts c X - s (Function.update (first (d + 1) X) (Fin.last d) 0)| ≤ η ∧
        |positive t (diagD b (d + 1) ts c X) - s' (first (d + 1) X)| ≤ η ∧
        |Real.log (positive t (diagD b (d + 1) ts c X)) - Real.log (s' (first (d + 1) X))| ≤ η := by
  have hK : IsCompact (Set.pi Set.univ fun _ : Fin (d + 1) => Set.Icc (-r) r) := isCompact_univ_pi fun _ => isCompact_Icc
  have hG := posInv_continuous t hs.slope_continuous hs.slope_pos
  have hg : Continuous (positive t) := (positive_contDiff t 0).continuous
  obtain ⟨δ₁, hδ₁, k1⟩ := near_values hK hG hg hη
  obtain ⟨δ₂, hδ₂, k2⟩ := near_values hK hG (hg.log fun x => (positive_pos' t x).ne') hη
  have hcont0 : Continuous fun x : Fin (d + 1) → ℝ => s (Function.update x (Fin.last d) 0) :=
    hs.continuous.comp (continuous_id.update _ continuous_const)
  -- the function whose expansion is wanted
  set f : (Fin (d + 1) → ℝ) → ℝ := fun x => s (Function.update x (Fin.last d) 0)
    + ∫ σ in (0 : ℝ)..x (Fin.last d), posInv t (s' (Function.update x (Fin.last d) σ)) with hf
  have hfc : Continuous f := hcont0.add (by
    have h1 : Continuous (Function.uncurry fun (x : Fin (d + 1) → ℝ) (σ : ℝ) => posInv t (s' (Function.update x (Fin.last d) σ))) :=
      hG.comp (continuous_fst.update _ continuous_snd)
    exact intervalIntegral.continuous_parametric_intervalIntegral_of_continuous h1 (continuous_apply _))
  have hfd : ∀ x τ, HasDerivAt (fun τ => f (Function.update x (Fin.last d) τ)) (posInv t (s' (Function.update x (Fin.last d) τ))) τ := fun x τ => by
    simp only [hf, Function.update_idem, Function.update_self]
    refine HasDerivAt.const_add _ ?_
    have h1 : Continuous fun σ : ℝ => posInv t (s' (Function.update x (Fin.last d) σ)) := hG.comp (continuous_const.update _ continuous_id)
    exact intervalIntegral.integral_hasDerivAt_right (h1.intervalIntegrable _ _) (h1.stronglyMeasurableAtFilter _ _) h1.continuousAt
  obtain ⟨P, Q, hPQ⟩ := weighted_near hw hfc hG hfd r (lt_min hη (lt_min hδ₁ hδ₂))
  refine ⟨blendDegree q P Q, fun p hp b b₀ hb hA ts hts => ?_⟩
  obtain ⟨c, hc, he⟩ := (blend_reps P Q hp hb fun v h1 h2 => (hts v).2 ⟨h1, h2⟩).expand
  have hps : ∀ t ∈ ts, ∀ m ∈ t, m ≤ p := fun t ht m hm => (List.single_le_sum (by simp) m hm).trans ((hts t).1 ht).2
  have hdiag : ∀ X, diagD b₀ (d + 1) ts c X = blendSlope w w' P Q X := by
    intro X
    have h1 : expandAt b₀ (d + 1) ts c = fun X => blend P Q X * weigh w (first (d + 1) X) := funext he
    have h2 := (weighted_slope hw P Q X (X d)).deriv
    rw [Function.update_eq_self] at h2
    rw [diagD, partialDeriv, h1, Nat.add_sub_cancel]
    exact h2
  refine ⟨c, hc, fun X => ?_, fun X hX => ?_⟩
  · simp only [diag_formula (fun k hk => (hA.smooth k hk).differentiable one_ne_zero) hps, Function.update_self]
    refine continuous_finsetSum _ fun k _ => continuous_const.mul (Continuous.mul ?_ ((hA.smooth _ (entry_bound hps k d)).continuous_deriv le_rfl))
    have : ∀ τ, (∏ i ∈ range d, b.val ((ts.getD k []).getD i 0) (Function.update X d τ i)) = ∏ i ∈ range d, b.val ((ts.getD k []).getD i 0) (X i) :=
      fun τ => prod_congr rfl fun i hi => by rw [Function.update_of_ne (by have := mem_range.1 hi; omega)]
    simp only [this]
    exact continuous_const
  have hx : ∀ i, |first (d + 1) X i| ≤ r := fun i => hX i (by have := i.2; omega)
  have hmem : first (d + 1) X ∈ Set.pi Set.univ fun _ : Fin (d + 1) => Set.Icc (-r) r := fun i _ => abs_le.1 (hx i)
  obtain ⟨h1, h2⟩ := hPQ X hX
  have hr : 0 ≤ r := (abs_nonneg _).trans (hX 0 (by omega))
  rw [← hdiag X, ← (hA.expand hps c hX).2] at h2
  refine ⟨?_, ?_, ?_⟩
  · have h3 := (hA.expand hps c (X := Function.update X d 0) fun i hi => by
      by_cases e : i = d
      · subst e; simpa using hr
      · rw [Function.update_of_ne e]; exact hX i hi).1
    rw [offset, Nat.add_sub_cancel, h3, he]
    have h4 : f (first (d + 1) (Function.update X d 0)) = s (Function.update (first (d + 1) X) (Fin.last d) 0) := by
      simp [hf, first_update]
    rw [h4] at h1
    exact h1.trans (min_le_left _ _)
  · have := k1 _ hmem _ ((Real.dist_eq _ _).le.trans <| h2.trans ((min_le_right _ _).trans (min_le_left _ _)))
    rwa [positive_posInv t (hs.slope_pos _)] at this
  · have := k2 _ hmem _ ((Real.dist_eq _ _).le.trans <| h2.trans ((min_le_right _ _).trans (min_le_right _ _)))
    rwa [positive_posInv t (hs.slope_pos _)] at this

/-- The integrand of a target at a point, scaled to `[0,1]`. -/
def Spec.targetIntegrand {d : ℕ} (s' : (Fin (d + 1) → ℝ) → ℝ) (X : ℕ → ℝ) (t : ℝ) : ℝ :=
  X d * s' (Function.update (first (d + 1) X) (Fin.last d) (t * X d))

theorem target_value {d : ℕ} {s s' : (Fin (d + 1) → ℝ) → ℝ} (hs : IncreasingLast s s') (X : ℕ → ℝ) :
    Continuous (targetIntegrand s' X) ∧
    s (first (d + 1) X) = s (Function.update (first (d + 1) X) (Fin.last d) 0) + ∫ t in (0 : ℝ)..1, targetIntegrand s' X t := by
  have hc : Continuous (targetIntegrand s' X) :=
    continuous_const.mul (hs.slope_continuous.comp (continuous_const.update _ (continuous_id.mul continuous_const)))
  refine ⟨hc, ?_⟩
  have h : ∀ t, HasDerivAt (fun t => s (Function.update (first (d + 1) X) (Fin.last d) (t * X d))) (targetIntegrand s' X t) t := fun t => by
    have h1 := (hs.slope (first (d + 1) X) (t * X d)).comp t ((hasDerivAt_id t).mul_const (X d))
    rw [one_mul, mul_comm] at h1
    exact h1
  rw [intervalIntegral.integral_eq_sub_of_hasDerivAt (fun t _ => h t) (hc.intervalIntegrable _ _), one_mul, zero_mul]
  have : Function.update (first (d + 1) X) (Fin.last d) (X d) = first (d + 1) X := by
    conv_lhs => rw [show X d = first (d + 1) X (Fin.last d) by simp [first]]
    exact Function.update_eq_self _ _
  rw [this]
  ring

/-- From offset and slope to integrand and value. -/
theorem component_near {d : ℕ} {s s' : (Fin (d + 1) → ℝ) → ℝ} (hs : IncreasingLast s s') {g : ℝ → ℝ} (hg : Continuous g) {r η : ℝ} {b : Basis ℝ}
    {ts : List (List ℕ)} {c : List ℝ} (hc : ∀ X, Continuous fun τ => diagD b (d + 1) ts c (Function.update X d τ))
    (h : ∀ X : ℕ → ℝ, (∀ i ≤ d, |X i| ≤ r) → |offset b (d + 1) ts c X - s (Function.update (first (d + 1) X) (Fin.last d) 0)| ≤ η ∧
        |g (diagD b (d + 1) ts c X) - s' (first (d + 1) X)| ≤ η) {X : ℕ → ℝ} (hX : ∀ i ≤ d, |X i| ≤ r) :
    (∀ t, 0 ≤ t → t ≤ 1 → |unitDensity b g 0 (d + 1) ts c X t - targetIntegrand s' X t| ≤ r * η) ∧
    |monotone b g 0 (d + 1) ts c X - s (first (d + 1) X)| ≤ η + r * η := by
  have h1 : ∀ t, 0 ≤ t → t ≤ 1 → |unitDensity b g 0 (d + 1) ts c X t - targetIntegrand s' X t| ≤ r * η := by
    intro t t0 t1
    have hd := hX d le_rfl
    have h2 := (h (Function.update X d (t * X d)) fun i hi => by
      by_cases e : i = d
      · subst e
        rw [Function.update_self, abs_mul, abs_of_nonneg t0]
        exact (mul_le_of_le_one_left (abs_nonneg _) t1).trans hd
      · rw [Function.update_of_ne e]; exact hX i hi).2
    rw [first_update] at h2
    rw [unitDensity, targetIntegrand, density, Nat.add_sub_cancel, add_zero, ← mul_sub, abs_mul]
    exact mul_le_mul hd h2 (abs_nonneg _) ((abs_nonneg _).trans hd)
  refine ⟨h1, ?_⟩
  obtain ⟨k1, k2⟩ := target_value hs X
  have hu : Continuous (unitDensity b g 0 (d + 1) ts c X) := by
    have : Continuous fun t : ℝ => X d * (g (diagD b (d + 1) ts c (Function.update X d (t * X d))) + 0) :=
      continuous_const.mul ((hg.comp ((hc X).comp (continuous_id.mul continuous_const))).add continuous_const)
    exact this
  have h3 : |(∫ t in (0 : ℝ)..1, unitDensity b g 0 (d + 1) ts c X t) - ∫ t in (0 : ℝ)..1, targetIntegrand s' X t| ≤ r * η := by
    rw [← intervalIntegral.integral_sub (hu.intervalIntegrable _ _) (k1.intervalIntegrable _ _)]
    have := intervalIntegral.norm_integral_le_of_norm_le_const (a := (0 : ℝ)) (b := 1) (C := r * η)
      (f := fun t => unitDensity b g 0 (d + 1) ts c X t - targetIntegrand s' X t) fun t ht => by
        rw [Set.uIoc_of_le zero_le_one] at ht
        exact h1 t ht.1.le ht.2
    simpa using this
  rw [monotone_eq_unit, k2]
  have h4 := (h X hX).1
  rw [show ∀ a b c e : ℝ, a + b - (c + e) = (a - c) + (b - e) by intros; ring]
  exact (abs_add_le _ _).trans (add_le_add h4 h3)

/-- Options with which maps of every order can be built whose basis is not extended linearly within `r` of 0: polynomials without normalisation,
with bounds, if any, beyond `r`; or Hermite functions without bounds. -/
structure Spec.Reaches (o : MapOptions) (r : ℝ) : Prop where
  norm : o.basisType ≠ .hermiteFunctions → o.basisNorm = false
  functions : o.basisType = .hermiteFunctions → o.basisLB = none ∧ o.basisUB = none
  ordered : Ordered o.basisLB o.basisUB
  lower : ∀ l ∈ o.basisLB, l < -r
  upper : ∀ u ∈ o.basisUB, r < u

theorem reaches_good {o : MapOptions} {r : ℝ} (h : Reaches o r) (p : ℕ) : GoodBasis o p :=
  ⟨h.ordered, fun _ e => h.norm e, fun hB e => by rcases hB with hB | hB <;> [exact absurd (h.functions e).1 hB; exact absurd (h.functions e).2 hB],
    fun e hn => absurd ((h.norm e).symm.trans hn) (by decide)⟩

/-- What the members of a family share besides a polynomial, its derivative, and the first order of which this is so. -/
noncomputable def weightOf : BasisType → (ℝ → ℝ) × (ℝ → ℝ) × ℕ
  | .hermiteFunctions => (fun x => Real.exp (-x ^ 2 / 2), fun x => -x * Real.exp (-x ^ 2 / 2), 2)
  | _ => (fun _ => 1, fun _ => 0, 0)

theorem weightOf_weight (t : BasisType) : IsWeight (weightOf t).1 (weightOf t).2.1 := by
  cases t
  · exact weight_one
  · exact weight_one
  · exact weight_gauss

/-- The family without the linear extension. -/
noncomputable def rawBasis (t : BasisType) : Basis ℝ := ⟨rawFamily t, fun _ _ => 0, fun _ _ => 0⟩

theorem raw_polynomials (t : BasisType) (p : ℕ) : Polynomials (weightOf t).2.2 (weightOf t).1 (rawBasis t) p := by
  cases t with
  | probabilistHermite => exact ⟨polyHe, fun k _ => ⟨polyHe_degree k, fun x => by rw [polyHe_eval]; exact (mul_one _).symm⟩⟩
  | physicistHermite => exact ⟨polyHp, fun k _ => ⟨polyHp_degree k, fun x => by rw [polyHp_eval]; exact (mul_one _).symm⟩⟩
  | hermiteFunctions =>
    have hκ : ∀ k : ℕ, (√(2 ^ k * k.factorial * √Real.pi))⁻¹ ≠ 0 := fun k => by
      have := Real.pi_pos
      positivity
    refine ⟨fun k => Polynomial.C (√(2 ^ k * k.factorial * √Real.pi))⁻¹ * polyHp k, fun k _ => ⟨⟨?_, ?_⟩, fun x => ?_⟩⟩
    · rw [Polynomial.natDegree_C_mul (hκ k), (polyHp_degree k).1]
    · exact mul_ne_zero (Polynomial.C_ne_zero.2 (hκ k)) (polyHp_degree k).2
    · rw [Polynomial.eval_mul, Polynomial.eval_C, polyHp_eval]
      show hermiteFn (k + 2) x = _ * Real.exp (-x ^ 2 / 2)
      rw [hermiteFn]
      ring

theorem reaches_agrees {o : MapOptions} {r : ℝ} (h : Reaches o r) {p : ℕ} {b : Basis ℝ} (hb : IsBasisOf o (fun n => n ≤ p) b) :
    Agrees r p b.eff (rawBasis o.basisType) := by
  refine ⟨fun k hk => isBasis_contDiff hb h.ordered k hk, fun k _ => (rawFamily_contDiff _ _ 1).differentiable one_ne_zero, fun k hk x hx => ?_⟩
  obtain ⟨a, -, -, h1, h2⟩ := hb
  have ha := h1 (by by_cases e : o.basisType = .hermiteFunctions <;> [exact Or.inr e; exact Or.inl (h.norm e)])
  by_cases h0 : k = 0
  · have : b.eff.val k = rawFamily o.basisType k := by
      subst h0
      funext y
      cases o.basisType <;> simp [Basis.eff, rawFamily, He, Hp, hermiteFn]
    rw [this]
    exact ⟨rfl, rfl⟩
  · have hv : b.eff.val k = extend o.basisLB o.basisUB (rawFamily o.basisType k) := by
      funext y
      simp only [Basis.eff, if_neg h0, h2 k hk, ha, div_one]
    have hin : ∀ y, (∀ l ∈ o.basisLB, l ≤ y) → (∀ u ∈ o.basisUB, y ≤ u) → extend o.basisLB o.basisUB (rawFamily o.basisType k) y = rawFamily o.basisType k y := by
      intro y hl hu
      rw [extend, linearize, if_neg, if_neg]
      · rcases e : o.basisUB with _ | u
        · simp
        · simpa using hu u e
      · rcases e : o.basisLB with _ | l
        · simp
        · simpa using hl l e
    have hx' := abs_le.1 hx
    have hnear : b.eff.val k =ᶠ[nhds x] rawFamily o.basisType k := by
      have e1 : ∀ᶠ y in nhds x, ∀ l ∈ o.basisLB, l ≤ y := by
        rcases e : o.basisLB with _ | l
        · exact Filter.Eventually.of_forall fun y l hl => by cases hl
        · filter_upwards [lt_mem_nhds (show l < x by linarith [h.lower l e])] with y hy l' hl'
          cases hl'
          exact hy.le
      have e2 : ∀ᶠ y in nhds x, ∀ u ∈ o.basisUB, y ≤ u := by
        rcases e : o.basisUB with _ | u
        · exact Filter.Eventually.of_forall fun y u hu => by cases hu
        · filter_upwards [gt_mem_nhds (show x < u by linarith [h.upper u e])] with y hy u' hu'
          cases hu'
          exact hy.le
      filter_upwards [e1, e2] with y y1 y2
      rw [hv, hin y y1 y2]
    exact ⟨hnear.eq_of_nhds, hnear.deriv_eq⟩

/-- The target transformation of the last `n` of `k + n` coordinates, given the first `k`. -/
def Spec.targetImage {k n : ℕ} (s : (i : Fin n) → (Fin (k + i + 1) → ℝ) → ℝ) (x : List ℝ) (i : Fin n) : ℝ := s i (first _ (coords x))

/-- Logarithm of its Jacobian determinant, the product of the slopes. -/
noncomputable def Spec.targetLogDet {k n : ℕ} (s' : (i : Fin n) → (Fin (k + i + 1) → ℝ) → ℝ) (x : List ℝ) : ℝ :=
  ∑ i, Real.log (s' i (first _ (coords x)))

/-- The conclusion, for one map and one coefficient vector. -/
structure Spec.Imitates (o : MapOptions) {k n : ℕ} (s s' : (i : Fin n) → (Fin (k + i + 1) → ℝ) → ℝ) (r ε : ℝ) (T : CMap) (c : List ℝ) : Prop where
  size : c.length = T.numCoeffs
  /-- In the box, the values are the target's up to `ε` and the error `ε₀` of the quadrature on the target. -/
  value : ∀ x : List ℝ, x.length = k + n → (∀ v ∈ x, |v| ≤ r) → ∀ i : Fin n, ∀ ε₀, PolyNear (quadDegree o + 1) (targetIntegrand (s' i) (coords x)) ε₀ →
    |(fn T c x).getD i 0 - targetImage s x i| ≤ ε₀ + ε
  /-- There the log-determinant is the target's up to `ε`. -/
  logDet : ∀ x : List ℝ, x.length = k + n → (∀ v ∈ x, |v| ≤ r) → ∀ out, ∃ l, T.logDet c x out = .ok (some l) ∧ |l - targetLogDet s' x| ≤ ε

theorem imitates_of_trains {o : MapOptions} {k n p : ℕ} {s s' : (i : Fin n) → (Fin (k + i + 1) → ℝ) → ℝ} (hs : ∀ i, IncreasingLast (s i) (s' i))
    {r ε : ℝ} (ho : Reaches o r) {b : Basis ℝ} (hb : IsBasisOf o (fun n => n ≤ p) b) {ts : Fin n → List (List ℕ)} (hts : ∀ i : Fin n, IsTotalOrder (k + i + 1) p (ts i))
    {split : List ℝ → Fin n → List ℝ} {T : CMap} (hT : Trains o b k ts split T) {η : ℝ} (hη : 0 < η) (e1 : η + 3 * (|r| * η) ≤ ε) (e2 : n * η ≤ ε)
    {cs : Fin n → List ℝ} (hl : ∀ i, (cs i).length = (ts i).length)
    (hcont : ∀ i : Fin n, ∀ X, Continuous fun τ => diagD b.eff (k + i + 1) (ts i) (cs i) (Function.update X (k + i) τ))
    (h : ∀ i : Fin n, ∀ X : ℕ → ℝ, (∀ j ≤ k + i, |X j| ≤ r) →
        |offset b.eff (k + i + 1) (ts i) (cs i) X - s i (Function.update (first (k + i + 1) X) (Fin.last _) 0)| ≤ η ∧
        |positive o.posFuncType (diagD b.eff (k + i + 1) (ts i) (cs i) X) - s' i (first (k + i + 1) X)| ≤ η ∧
        |Real.log (positive o.posFuncType (diagD b.eff (k + i + 1) (ts i) (cs i) X)) - Real.log (s' i (first (k + i + 1) X))| ≤ η) :
    Imitates o s s' r ε T (List.ofFn cs).flatten ∧ split (List.ofFn cs).flatten = cs ∧
    ∀ x : List ℝ, x.length = k + n → (∀ v ∈ x, |v| ≤ r) →
      (∀ i : Fin n, |exactImage b.eff (positive o.posFuncType) k ts cs x i - targetImage s x i| ≤ ε) ∧
      |exactLogDet b.eff (positive o.posFuncType) k ts cs x - targetLogDet s' x| ≤ ε := by
  set c := (List.ofFn cs).flatten with hcdef
  have hsl : Slices ts cs c := ⟨rfl, hl⟩
  have hc : c.length = T.numCoeffs := by
    rw [slices_length hsl, ← slices_length (hT.slices (zeros T.numCoeffs) (by simp [zeros]))]
    simp [zeros]
  have hsplit : split c = cs := slices_unique (hT.slices c hc) hsl
  have hg : Continuous (positive o.posFuncType) := (positive_contDiff o.posFuncType 0).continuous
  have hbs : ∀ m ≤ p, ContDiff ℝ 1 (b.eff.val m) := fun m hm => isBasis_contDiff hb (reaches_good ho p).bounds m hm
  have hps : ∀ i, ∀ t ∈ ts i, ∀ m ∈ t, m ≤ p := fun i t ht m hm => by
    have := ((hts i).2 t).1 ht
    exact (List.single_le_sum (by simp) m hm).trans this.2
  have hbox : ∀ x : List ℝ, x.length = k + n → (∀ v ∈ x, |v| ≤ r) → ∀ i : Fin n, ∀ j ≤ k + (i : ℕ), |coords x j| ≤ r := fun x hx hr i j hj => by
    have hj' : j < x.length := by have := i.2; omega
    rw [coords, List.getD_eq_getElem?_getD, List.getElem?_eq_getElem hj']
    exact hr _ (List.getElem_mem hj')
  have hcomp : ∀ x : List ℝ, x.length = k + n → (∀ v ∈ x, |v| ≤ r) → ∀ i : Fin n, _ := fun x hx hr i =>
    component_near (hs i) hg (hcont i) (fun X hX => ⟨(h i X hX).1, (h i X hX).2.1⟩) (hbox x hx hr i)
  have hrη : r * η ≤ |r| * η := mul_le_mul_of_nonneg_right (le_abs_self r) hη.le
  have hrη0 : 0 ≤ |r| * η := by positivity
  have hexact : ∀ x : List ℝ, x.length = k + n → (∀ v ∈ x, |v| ≤ r) → ∀ i : Fin n,
      |exactImage b.eff (positive o.posFuncType) k ts cs x i - targetImage s x i| ≤ η + r * η := fun x hx hr i => by
    rw [exactImage_eq hx]
    exact (hcomp x hx hr i).2
  have hlog : ∀ x : List ℝ, x.length = k + n → (∀ v ∈ x, |v| ≤ r) → |exactLogDet b.eff (positive o.posFuncType) k ts cs x - targetLogDet s' x| ≤ ε := by
    intro x hx hr
    rw [exactLogDet, exact_det hbs hps _ (positive_contDiff o.posFuncType 1), Real.log_prod fun i _ => (positive_pos' _ _).ne', targetLogDet, ← sum_sub_distrib,
      take_append_tail hx]
    refine (abs_sum_le_sum_abs _ _).trans ((sum_le_card_nsmul _ _ η fun i _ => ?_).trans (by simpa using e2))
    have hk : (x.take k).length = k := by simp [hx]
    rw [hk]
    exact (h i (coords x) (hbox x hx hr i)).2.2
  refine ⟨⟨hc, fun x hx hr i ε₀ hn => ?_, fun x hx hr out => ⟨_, by rw [hT.logDet c x out hc hx, hsplit], hlog x hx hr⟩⟩, hsplit,
    fun x hx hr => ⟨fun i => (hexact x hx hr i).trans (by linarith), hlog x hx hr⟩⟩
  obtain ⟨P, hP, he⟩ := hn
  have h1 := (hT.images c x hc hx).2 i (ε₀ + 2 * (r * η)) ⟨P, hP, fun t t0 t1 => by
    have h2 := (hcomp x hx hr i).1 t t0 t1
    have h3 := he t t0 t1
    rw [hsplit]
    refine (abs_sub_le _ _ _).trans ((add_le_add h2 h3).trans (by linarith))⟩
  rw [hsplit] at h1
  have h2 := hexact x hx hr i
  refine (abs_sub_le _ _ _).trans ((add_le_add h1 h2).trans ?_)
  linarith

theorem imitate {k n : ℕ} (h0 : 0 < n) (h2 : k + n < 2 ^ 32)
    {s s' : (i : Fin n) → (Fin (k + i + 1) → ℝ) → ℝ} (hs : ∀ i, IncreasingLast (s i) (s' i)) (r : ℝ) {ε : ℝ} (hε : 0 < ε) :
    ∃ N, ∀ p ≥ N, ∀ o : MapOptions, Reaches o r → GoodQuad o → o.contDeriv = true → ∃ b ts cs, ∀ mem work, ∃ T split, createTriangular (k + n) n p o mem work = .ok (T, zeros T.numCoeffs) ∧ Trains o b k ts split T ∧
      Imitates o s s' r ε T (List.ofFn cs).flatten ∧ split (List.ofFn cs).flatten = cs ∧
      ∀ x : List ℝ, x.length = k + n → (∀ v ∈ x, |v| ≤ r) →
        (∀ i : Fin n, |exactImage b.eff (positive o.posFuncType) k ts cs x i - targetImage s x i| ≤ ε) ∧
        |exactLogDet b.eff (positive o.posFuncType) k ts cs x - targetLogDet s' x| ≤ ε := by
  obtain ⟨η, hη, e1, e2⟩ : ∃ η > 0, η + 3 * (|r| * η) ≤ ε ∧ n * η ≤ ε := by
    have hp : 0 < 1 + 3 * |r| + n := by positivity
    refine ⟨ε / (1 + 3 * |r| + n), by positivity, ?_, ?_⟩
    · rw [show ε / (1 + 3 * |r| + n) + 3 * (|r| * (ε / (1 + 3 * |r| + n))) = (1 + 3 * |r|) * ε / (1 + 3 * |r| + n) by ring, div_le_iff₀ hp]
      have : (0 : ℝ) ≤ n * ε := by positivity
      linarith
    · rw [mul_div_assoc', div_le_iff₀ hp]
      have : (0 : ℝ) ≤ (1 + 3 * |r|) * ε := by positivity
      linarith
  choose N hN using fun i t u => expansion_near (weightOf_weight u) (weightOf u).2.2 (hs i) t r hη
  refine ⟨univ.sup fun i => N i .exp .probabilistHermite + N i .exp .physicistHermite + N i .exp .hermiteFunctions
    + (N i .softPlus .probabilistHermite + N i .softPlus .physicistHermite + N i .softPlus .hermiteFunctions), fun p hp o ho hQ hcd => ?_⟩
  obtain ⟨b, ts, hb, hts, h⟩ := C112_objective (inputDim := k + n) h0 (by omega) h2 (reaches_good ho p) hQ hcd
  simp only [Nat.add_sub_cancel] at hts h
  have hle : ∀ i, N i o.posFuncType o.basisType ≤ p := fun i => by
    have h1 := (le_sup (f := fun i => N i .exp .probabilistHermite + N i .exp .physicistHermite + N i .exp .hermiteFunctions
      + (N i .softPlus .probabilistHermite + N i .softPlus .physicistHermite + N i .softPlus .hermiteFunctions)) (mem_univ i)).trans hp
    cases o.posFuncType <;> cases o.basisType <;> omega
  have hc := fun i => hN i o.posFuncType o.basisType p (hle i) b.eff _ (raw_polynomials _ p) (reaches_agrees ho hb) (ts i) (hts i).2
  choose cs hl hcont hcs using hc
  refine ⟨b, ts, cs, fun mem work => ?_⟩
  obtain ⟨T, split, t1, t2⟩ := h mem work
  exact ⟨T, split, t1, t2, imitates_of_trains hs ho hb hts t2 hη e1 e2 hl hcont hcs⟩

/-- **C118.** Let each output `i` of a target be a continuous function of the first `k + i + 1` inputs with a continuous positive derivative in the last
of them. For every box and `ε` there is an order from which on the map that `CreateTriangular` builds, whatever the scratch memory, has coefficients
with which, in the box, its log-determinant is within `ε` of the target's and its values are so up to the error of the
quadrature on the target. -/
theorem C118_universal_partial {k n : ℕ} (h0 : 0 < n) (h2 : k + n < 2 ^ 32)
    {s s' : (i : Fin n) → (Fin (k + i + 1) → ℝ) → ℝ} (hs : ∀ i, IncreasingLast (s i) (s' i)) (r : ℝ) {ε : ℝ} (hε : 0 < ε) :
    ∃ N, ∀ p ≥ N, ∀ o : MapOptions, Reaches o r → GoodQuad o → o.contDeriv = true → ∃ c, ∀ mem work, ∃ T,
      createTriangular (k + n) n p o mem work = .ok (T, zeros T.numCoeffs) ∧ Imitates o s s' r ε T c := by
  obtain ⟨N, h⟩ := imitate h0 h2 hs r hε
  refine ⟨N, fun p hp o ho hQ hcd => ?_⟩
  obtain ⟨b, ts, cs, h⟩ := h p hp o ho hQ hcd
  refine ⟨(List.ofFn cs).flatten, fun mem work => ?_⟩
  obtain ⟨T, split, t1, -, t3, -⟩ := h mem work
  exact ⟨T, t1, t3⟩

/-- In a box, the integrands of a target are close to polynomials of one degree. -/
theorem target_near {d : ℕ} {s s' : (Fin (d + 1) → ℝ) → ℝ} (hs : IncreasingLast s s') (r : ℝ) {ε : ℝ} (hε : 0 < ε) :
    ∃ M, ∀ X : ℕ → ℝ, (∀ i ≤ d, |X i| ≤ r) → PolyNear (M + 1) (targetIntegrand s' X) ε := by
  have hG : Continuous fun w : Fin (d + 1 + 1) → ℝ => w (Fin.last d).castSucc *
      s' (Function.update (fun i : Fin (d + 1) => w i.castSucc) (Fin.last d) (w (Fin.last _) * w (Fin.last d).castSucc)) :=
    (continuous_apply _).mul (hs.slope_continuous.comp ((continuous_pi fun i => continuous_apply _).update _ ((continuous_apply _).mul (continuous_apply _))))
  obtain ⟨Q, hQ⟩ := polynomial_near hG (max r 1) (show 0 < ε / 2 by linarith)
  refine ⟨∑ m ∈ Q.support, m (Fin.last _), fun X hX => ⟨∑ m ∈ Q.support, Polynomial.C (Q.coeff m * ∏ i : Fin (d + 1), X i ^ m i.castSucc) *
    Polynomial.X ^ m (Fin.last _), ?_, fun t t0 t1 => ?_⟩⟩
  · refine Nat.lt_succ_of_le (Polynomial.natDegree_sum_le_of_forall_le _ _ fun m hm => (Polynomial.natDegree_C_mul_X_pow_le _ _).trans ?_)
    exact single_le_sum (f := fun m : Fin (d + 1 + 1) →₀ ℕ => m (Fin.last _)) (fun _ _ => Nat.zero_le _) hm
  · have h := hQ (Fin.snoc (α := fun _ => ℝ) (first (d + 1) X) t) fun i => by
      refine Fin.lastCases ?_ (fun i => ?_) i
      · rw [Fin.snoc_last, abs_of_nonneg t0]; exact t1.trans (le_max_right _ _)
      · rw [Fin.snoc_castSucc]; exact (hX i (by have := i.2; omega)).trans (le_max_left _ _)
    rw [MvPolynomial.eval_eq'] at h
    simp only [Fin.prod_univ_castSucc (n := d + 1), Fin.snoc_castSucc, Fin.snoc_last] at h
    rw [abs_sub_comm, Polynomial.eval_finsetSum]
    refine le_of_eq_of_le ?_ h
    congr 2
    · refine sum_congr rfl fun m _ => ?_
      rw [Polynomial.eval_mul, Polynomial.eval_C, Polynomial.eval_pow, Polynomial.eval_X, mul_assoc]
      rfl

/-- **C118, values.** When besides the order of the map the degree of the quadrature is high enough, values and log-determinant are within `ε` of the
target's everywhere in the box. The number of points is limited (`GoodQuad`), so for targets that vary very quickly no rule may have that degree;
`C118_universal_partial` bounds the error for every rule. -/
theorem C118_values_partial {k n : ℕ} (h0 : 0 < n) (h2 : k + n < 2 ^ 32) {s s' : (i : Fin n) → (Fin (k + i + 1) → ℝ) → ℝ}
    (hs : ∀ i, IncreasingLast (s i) (s' i)) (r : ℝ) {ε : ℝ} (hε : 0 < ε) :
    ∃ N M, ∀ p ≥ N, ∀ o : MapOptions, Reaches o r → GoodQuad o → o.contDeriv = true → M ≤ quadDegree o → ∃ c, ∀ mem work, ∃ T,
      createTriangular (k + n) n p o mem work = .ok (T, zeros T.numCoeffs) ∧ c.length = T.numCoeffs ∧
      ∀ x : List ℝ, x.length = k + n → (∀ v ∈ x, |v| ≤ r) → (∀ i : Fin n, |(fn T c x).getD i 0 - targetImage s x i| ≤ ε) ∧
        ∀ out, ∃ l, T.logDet c x out = .ok (some l) ∧ |l - targetLogDet s' x| ≤ ε := by
  obtain ⟨N, h⟩ := C118_universal_partial h0 h2 hs r (show 0 < ε / 2 by linarith)
  choose M hM using fun i => target_near (hs i) r (show 0 < ε / 2 by linarith)
  refine ⟨N, univ.sup M, fun p hp o ho hQ hcd hq => ?_⟩
  obtain ⟨c, h⟩ := h p hp o ho hQ hcd
  refine ⟨c, fun mem work => ?_⟩
  obtain ⟨T, t1, t2⟩ := h mem work
  refine ⟨T, t1, t2.size, fun x hx hr => ⟨fun i => ?_, fun out => ?_⟩⟩
  · obtain ⟨P, hP, he⟩ := hM i (coords x) fun j hj => by
      have hj' : j < x.length := by have := i.2; omega
      rw [coords, List.getD_eq_getElem?_getD, List.getElem?_eq_getElem hj']
      exact hr _ (List.getElem_mem hj')
    have := t2.value x hx hr i (ε / 2) ⟨P, by have := (le_sup (f := M) (mem_univ i)).trans hq; omega, he⟩
    linarith
  · obtain ⟨l, l1, l2⟩ := t2.logDet x hx hr out
    exact ⟨l, l1, l2.trans (by linarith)⟩

/-- Minus the average log-likelihood of the data when the target carries them to the reference `d`. -/
noncomputable def Spec.targetObjective {k n : ℕ} (s s' : (i : Fin n) → (Fin (k + i + 1) → ℝ) → ℝ) (d : Density) (data : List (List ℝ)) : ℝ :=
  -(data.map fun x => logp d (List.ofFn (targetImage s x)) + targetLogDet s' x).sum / data.length

/-- **C118, training.** For a reference with continuous log-density, every box and `γ` there are an order and an accuracy of the quadrature on the
target from which on the training objective has a value within `γ` of the target's, with coefficients that do not depend on the data. -/
theorem C118_objective_partial {k n : ℕ} (h0 : 0 < n) (h2 : k + n < 2 ^ 32)
    {s s' : (i : Fin n) → (Fin (k + i + 1) → ℝ) → ℝ} (hs : ∀ i, IncreasingLast (s i) (s' i)) {d : Density} (hd : HasDensity d) (hdim : d.dim = n)
    (hcont : Continuous fun y : Fin n → ℝ => logp d (List.ofFn y)) (r : ℝ) {γ : ℝ} (hγ : 0 < γ) :
    ∃ ε₀ > 0, ∃ N, ∀ p ≥ N, ∀ o : MapOptions, Reaches o r → GoodQuad o → o.contDeriv = true → ∃ c, ∀ mem work, ∃ T, createTriangular (k + n) n p o mem work = .ok (T, zeros T.numCoeffs) ∧ c.length = T.numCoeffs ∧
      ∀ data : List (List ℝ), data ≠ [] → (∀ x ∈ data, x.length = k + n ∧ (∀ v ∈ x, |v| ≤ r) ∧
        ∀ i : Fin n, PolyNear (quadDegree o + 1) (targetIntegrand (s' i) (coords x)) ε₀) →
        ∃ v, KL.objective T d c data = .ok (some v) ∧ |v - targetObjective s s' d data| ≤ γ := by
  have hK : IsCompact (Set.pi Set.univ fun _ : Fin (k + n) => Set.Icc (-r) r) := isCompact_univ_pi fun _ => isCompact_Icc
  have hG : Continuous fun (w : Fin (k + n) → ℝ) (i : Fin n) => s i fun j => w ⟨j, by have := i.2; have := j.2; omega⟩ :=
    continuous_pi fun i => (hs i).continuous.comp (continuous_pi fun j => continuous_apply _)
  obtain ⟨δ, hδ, hnear⟩ := near_values hK hG hcont (show 0 < γ / 4 by linarith)
  obtain ⟨N, h⟩ := imitate h0 h2 hs r (lt_min (show 0 < δ / 2 by linarith) (show 0 < γ / 4 by linarith))
  refine ⟨δ / 2, by linarith, N, fun p hp o ho hQ hcd => ?_⟩
  obtain ⟨b, ts, cs, h⟩ := h p hp o ho hQ hcd
  refine ⟨(List.ofFn cs).flatten, fun mem work => ?_⟩
  obtain ⟨T, split, t1, t2, t3, t4, t5⟩ := h mem work
  refine ⟨T, t1, t3.size, fun data hne hdata => ?_⟩
  have hlp : ∀ x ∈ data, ∀ y : Fin n → ℝ, (∀ i, |y i - targetImage s x i| ≤ δ) → |logp d (List.ofFn y) - logp d (List.ofFn (targetImage s x))| ≤ γ / 4 := by
    intro x hx y hy
    obtain ⟨a1, a2, -⟩ := hdata x hx
    refine hnear (fun j => coords x j) (fun j _ => ?_) y ((dist_pi_le_iff hδ.le).2 fun i => ?_)
    · have hj : (j : ℕ) < x.length := by have := j.2; omega
      show x.getD j 0 ∈ Set.Icc (-r) r
      rw [List.getD_eq_getElem?_getD, List.getElem?_eq_getElem hj]
      exact abs_le.1 (a2 _ (List.getElem_mem hj))
    · rw [Real.dist_eq]
      exact hy i
  obtain ⟨v, hv, hobj⟩ := t2.objective d _ data hd hdim t3.size hne fun x hx => (hdata x hx).1
  refine ⟨v, hv, ?_⟩
  have hm1 := min_le_left (δ / 2) (γ / 4)
  have hm2 := min_le_right (δ / 2) (γ / 4)
  have hex : ∀ x ∈ data, |logp d (List.ofFn (exactImage b.eff (positive o.posFuncType) k ts cs x)) - logp d (List.ofFn (targetImage s x))| ≤ γ / 4 :=
    fun x hx => hlp x hx _ fun i => ((t5 x (hdata x hx).1 (hdata x hx).2.1).1 i).trans (by linarith)
  have h1 := hobj (γ / 2) fun x hx => by
    obtain ⟨a1, a2, a3⟩ := hdata x hx
    have hlen := (t2.images _ x t3.size a1).1
    have hvf : fn T (List.ofFn cs).flatten x = List.ofFn fun i : Fin n => (fn T (List.ofFn cs).flatten x).getD i 0 :=
      List.ext_getElem (by simp [hlen]) fun i h1 h2 => by simp [List.getElem?_eq_getElem h1]
    have h3 := hlp x hx _ fun i => (t3.value x a1 a2 i _ (a3 i)).trans (by linarith)
    rw [← hvf] at h3
    have h4 := hex x hx
    rw [t4]
    rw [abs_sub_comm] at h4
    exact (abs_sub_le _ _ _).trans ((add_le_add h3 h4).trans (by linarith))
  rw [t4] at h1
  have h2 : |exactObjective b.eff (positive o.posFuncType) k ts d data cs - targetObjective s s' d data| ≤ γ / 2 :=
    average_close hne fun x hx => by
      have h3 := hex x hx
      have h4 := (t5 x (hdata x hx).1 (hdata x hx).2.1).2
      rw [add_sub_add_comm]
      exact (abs_add_le _ _).trans (by linarith)
  exact (abs_sub_le _ _ _).trans (by linarith)

/-! ### A target -/

/-- The target `(x₀ + x₀³, x₁ (1 + x₀²) + x₀)`. -/
noncomputable def bendTarget (i : Fin 2) (x : Fin (0 + i + 1) → ℝ) : ℝ :=
  if (i : ℕ) = 0 then x (Fin.last _) + x (Fin.last _) ^ 3 else x (Fin.last _) * (1 + x 0 ^ 2) + x 0

/-- Its slopes `(1 + 3 x₀², 1 + x₀²)`. -/
noncomputable def bendSlope (i : Fin 2) (x : Fin (0 + i + 1) → ℝ) : ℝ :=
  if (i : ℕ) = 0 then 1 + 3 * x (Fin.last _) ^ 2 else 1 + x 0 ^ 2

theorem bend_increasing (i : Fin 2) : IncreasingLast (bendTarget i) (bendSlope i) := by
  refine ⟨?_, ?_, fun x => ?_, fun x t => ?_⟩
  · unfold bendTarget
    split_ifs <;> fun_prop
  · unfold bendSlope
    split_ifs <;> fun_prop
  · unfold bendSlope
    split_ifs <;> positivity
  · unfold bendTarget bendSlope
    by_cases h : (i : ℕ) = 0
    · simp only [h, if_true, Function.update_self]
      simpa using (hasDerivAt_id' t).fun_add (hasDerivAt_pow 3 t)
    · have h0 : (0 : Fin (0 + i + 1)) ≠ Fin.last (0 + (i : ℕ)) := fun e => h (by have := congrArg Fin.val e; simpa using this.symm)
      simp only [h, if_false, Function.update_self, Function.update_of_ne h0]
      have := ((hasDerivAt_id t).mul_const (1 + x 0 ^ 2)).add_const (x 0)
      simpa using this

/-- Options that qualify: physicist Hermite polynomials with softplus. -/
def bendOptions : MapOptions := { basisType := .physicistHermite, posFuncType := .softPlus, quadType := .clenshawCurtis, quadPts := 5, contDeriv := true, basisNorm := false }

/-- Five points integrate the slopes of the example exactly. -/
theorem bend_resolved (i : Fin 2) (X : ℕ → ℝ) : PolyNear (quadDegree bendOptions + 1) (targetIntegrand (bendSlope i) X) 0 := by
  by_cases h : (i : ℕ) = 0
  · refine ⟨Polynomial.C (X 0) + Polynomial.C (3 * X 0 ^ 3) * Polynomial.X ^ 2, ?_, fun t _ _ => le_of_eq ?_⟩
    · have h1 := Polynomial.natDegree_C_mul_X_pow_le (3 * X 0 ^ 3) 2
      have h2 := Polynomial.natDegree_add_le (Polynomial.C (X 0)) (Polynomial.C (3 * X 0 ^ 3) * Polynomial.X ^ 2)
      rw [Polynomial.natDegree_C] at h2
      show _ < 5
      omega
    · simp only [targetIntegrand, bendSlope, h, if_true, Function.update_self]
      simp
      ring
  · refine ⟨Polynomial.C (X (0 + i) * (1 + X 0 ^ 2)), ?_, fun t _ _ => le_of_eq ?_⟩
    · rw [Polynomial.natDegree_C]; show _ < 5; omega
    · simp [targetIntegrand, bendSlope, h, first]

theorem bend_options (r : ℝ) : Reaches bendOptions r ∧ GoodQuad bendOptions :=
  ⟨⟨fun _ => rfl, fun h => (by cases h), fun l hl => (by cases hl), fun l hl => (by cases hl), fun l hl => (by cases hl)⟩, ⟨fun _ => by decide, fun h => (by cases h), fun h => absurd rfl h⟩⟩

/-- Maps of two variables built with these options reproduce the example to `10⁻⁶` on the box of radius 10. -/
example : ∃ N, ∀ p ≥ N, ∃ c, ∀ mem work, ∃ T, createTriangular 2 2 p bendOptions mem work = .ok (T, zeros T.numCoeffs) ∧
    ∀ x₀ x₁ : ℝ, |x₀| ≤ 10 → |x₁| ≤ 10 →
      |(fn T c [x₀, x₁]).getD 0 0 - (x₀ + x₀ ^ 3)| ≤ 1e-6 ∧ |(fn T c [x₀, x₁]).getD 1 0 - (x₁ * (1 + x₀ ^ 2) + x₀)| ≤ 1e-6 := by
  obtain ⟨N, h⟩ := C118_universal_partial (k := 0) (n := 2) (by decide) (by decide) bend_increasing 10 (show (0 : ℝ) < 1e-6 by norm_num)
  refine ⟨N, fun p hp => ?_⟩
  obtain ⟨c, h⟩ := h p hp bendOptions (bend_options _).1 (bend_options 0).2 rfl
  refine ⟨c, fun mem work => ?_⟩
  obtain ⟨T, t1, t2⟩ := h mem work
  refine ⟨T, t1, fun x₀ x₁ h0 h1 => ?_⟩
  have hv := fun i => t2.value [x₀, x₁] rfl (by simpa using ⟨h0, h1⟩) i 0 (bend_resolved i _)
  have a0 := hv 0
  have a1 := hv 1
  simp only [zero_add, targetImage, bendTarget, first, coords] at a0 a1
  exact ⟨by simpa using a0, by simpa using a1⟩

/-- The objective with the standard normal reference gets as close to that of the example as desired. -/
example {γ : ℝ} (hγ : 0 < γ) : ∃ N, ∀ p ≥ N, ∃ c, ∀ mem work, ∃ T, createTriangular 2 2 p bendOptions mem work = .ok (T, zeros T.numCoeffs) ∧
    ∃ v, KL.objective T (Gaussian.ofDim 2).density c [[1, 2], [0, -1]] = .ok (some v) ∧
      |v - targetObjective bendTarget bendSlope (Gaussian.ofDim 2).density [[1, 2], [0, -1]]| ≤ γ := by
  have hcont : Continuous fun y : Fin 2 → ℝ => logp (Gaussian.ofDim 2).density (List.ofFn y) := by
    have : (fun y : Fin 2 → ℝ => logp (Gaussian.ofDim 2).density (List.ofFn y)) = _ := funext fun y => std_logp 2 (x := List.ofFn y) (by simp)
    rw [this]
    simp only [List.map_ofFn, List.sum_ofFn, Function.comp]
    fun_prop
  obtain ⟨ε₀, h0, N, h⟩ := C118_objective_partial (k := 0) (n := 2) (by decide) (by decide) bend_increasing (d := (Gaussian.ofDim 2).density)
    (C53_density (.dim 2)).2.1 rfl hcont 2 hγ
  refine ⟨N, fun p hp => ?_⟩
  obtain ⟨c, h⟩ := h p hp bendOptions (bend_options _).1 (bend_options 0).2 rfl
  refine ⟨c, fun mem work => ?_⟩
  obtain ⟨T, t1, -, t2⟩ := h mem work
  refine ⟨T, t1, t2 _ (by simp) fun x hx => ?_⟩
  have hp : ∀ i : Fin 2, PolyNear (quadDegree bendOptions + 1) (targetIntegrand (bendSlope i) (coords x)) ε₀ := fun i => by
    obtain ⟨P, hP, he⟩ := bend_resolved i (coords x)
    exact ⟨P, hP, fun t t0 t1 => (he t t0 t1).trans (by linarith)⟩
  simp only [List.mem_cons, List.not_mem_nil, or_false] at hx
  rcases hx with rfl | rfl
  · exact ⟨rfl, by simp, hp⟩
  · exact ⟨rfl, by simp, hp⟩

/-! ### Beyond the bounds -/

theorem slope_beyond {o : MapOptions} {p : ℕ} {b : Basis ℝ} (hb : IsBasisOf o (fun n => n ≤ p) b) (hO : Ordered o.basisLB o.basisUB) {u : ℝ}
    (hu : o.basisUB = some u) {k : ℕ} (hk : k ≤ p) : ∃ v, ∀ x, u < x → deriv (b.eff.val k) x = v := by
  obtain ⟨a, -, -, -, h2⟩ := hb
  by_cases h0 : k = 0
  · subst h0
    refine ⟨0, fun x _ => ?_⟩
    simp [Basis.eff]
  · set f : ℝ → ℝ := fun x => rawFamily o.basisType k x / a k
    refine ⟨deriv f u, fun x hx => ?_⟩
    have hnear : b.eff.val k =ᶠ[nhds x] fun y => f u + deriv f u * (y - u) := by
      filter_upwards [lt_mem_nhds hx] with y hy
      simp only [Basis.eff, if_neg h0, h2 k hk]
      rw [extend, hu, linearize, if_neg, Option.getD_some, if_pos hy]
      rcases e : o.basisLB with _ | l
      · simp
      · have := hO l e u hu
        simp only [Option.getD_some]
        linarith
    rw [hnear.deriv_eq]
    exact (((hasDerivAt_id' x).sub_const u).const_mul (deriv f u) |>.const_add (f u)).deriv.trans (mul_one _)

/-- **C118 fails beyond the bounds.** A map of one variable built with an upper bound, whatever its order and its coefficients, misses the log-derivative of the
target at one of two points above the bound, if there the target's differs by more than `2 ε`. -/
theorem C118_fails_beyond_bounds {o : MapOptions} {p : ℕ} (hB : GoodBasis o p) (hQ : GoodQuad o) (hcd : o.contDeriv = true) {u : ℝ} (hu : o.basisUB = some u)
    {s' : ℝ → ℝ} {x y ε : ℝ} (hx : u < x) (hy : u < y) (h : 2 * ε < |Real.log (s' x) - Real.log (s' y)|) (mem : Nat → Option ℝ) (work : List ℝ) :
    ∃ T, createTriangular 1 1 p o mem work = .ok (T, zeros T.numCoeffs) ∧ ∀ c : List ℝ, c.length = T.numCoeffs → ∀ out,
      ¬ ∀ z ∈ [x, y], ∃ l, T.logDet c [z] out = .ok (some l) ∧ |l - Real.log (s' z)| ≤ ε := by
  obtain ⟨b, ts, hb, hts, h1⟩ := C112_objective (inputDim := 1) (outputDim := 1) (by decide) (by decide) (by decide) hB hQ hcd
  obtain ⟨T, split, t1, t2⟩ := h1 mem work
  refine ⟨T, t1, fun c hc out hall => ?_⟩
  have hbs : ∀ m ≤ p, ContDiff ℝ 1 (b.eff.val m) := fun m hm => isBasis_contDiff hb hB.bounds m hm
  have hps : ∀ i, ∀ t ∈ ts i, ∀ m ∈ t, m ≤ p := fun i t ht m hm => by
    have := ((hts i).2 t).1 ht
    exact (List.single_le_sum (by simp) m hm).trans this.2
  have hsame : exactLogDet b.eff (positive o.posFuncType) 0 ts (split c) [x] = exactLogDet b.eff (positive o.posFuncType) 0 ts (split c) [y] := by
    have hone : ∀ z, exactLogDet b.eff (positive o.posFuncType) 0 ts (split c) [z]
        = Real.log (positive o.posFuncType (diagD b.eff 1 (ts 0) (split c 0) (coords [z]))) := fun z => by
      rw [exactLogDet, exact_det hbs hps _ (positive_contDiff o.posFuncType 1)]
      simp
    rw [hone, hone]
    congr 2
    rw [diag_formula (d := 0) (fun k hk => (hbs k hk).differentiable one_ne_zero) (hps 0), diag_formula (d := 0) (fun k hk => (hbs k hk).differentiable one_ne_zero) (hps 0)]
    refine sum_congr rfl fun k _ => ?_
    obtain ⟨v, hv⟩ := slope_beyond hb hB.bounds hu (entry_bound (hps 0) k 0)
    rw [hv (coords [x] 0) hx, hv (coords [y] 0) hy]
    simp
  obtain ⟨l, l1, l2⟩ := hall x (by simp)
  obtain ⟨m, m1, m2⟩ := hall y (by simp)
  have e1 := t2.logDet c [x] out hc rfl
  have e2 := t2.logDet c [y] out hc rfl
  rw [l1] at e1
  rw [m1] at e2
  have : l = m := by
    have e1 := Option.some.inj (Res.ok.inj e1)
    have e2 := Option.some.inj (Res.ok.inj e2)
    rw [e1, e2]
    exact hsame
  subst this
  have h3 := abs_sub_le (Real.log (s' x)) l (Real.log (s' y))
  rw [abs_sub_comm (Real.log (s' x)) l] at h3
  linarith

/-- With the bounds -3 and 3, no map of one variable has the slope `1 + 3 x²` of `x + x³` at both 4 and 10. -/
example (p : ℕ) (mem : Nat → Option ℝ) (work : List ℝ) :
    ∃ T, createTriangular 1 1 p { bendOptions with basisLB := some (-3), basisUB := some 3 } mem work = .ok (T, zeros T.numCoeffs) ∧
      ∀ c : List ℝ, c.length = T.numCoeffs → ∀ out,
        ¬ ∀ z ∈ [(4 : ℝ), 10], ∃ l, T.logDet c [z] out = .ok (some l) ∧ |l - Real.log (1 + 3 * z ^ 2)| ≤ 1 / 2 := by
  refine C118_fails_beyond_bounds (s' := fun z => 1 + 3 * z ^ 2) ⟨?_, fun _ _ => rfl, fun _ h => (by cases h), fun _ h => (by cases h)⟩ ⟨fun _ => by decide, fun h => (by cases h), fun h => absurd rfl h⟩
    rfl rfl (by norm_num) (by norm_num) ?_ mem work
  · intro l hl u hu
    cases hl
    cases hu
    norm_num
  · have h1 : Real.log (1 + 3 * (10 : ℝ) ^ 2) - Real.log (1 + 3 * (4 : ℝ) ^ 2) = Real.log (301 / 49) := by
      rw [← Real.log_div (by norm_num) (by norm_num)]
      norm_num
    have h2 : (1 : ℝ) < Real.log (301 / 49) := by
      rw [Real.lt_log_iff_exp_lt (by norm_num)]
      exact Real.exp_one_lt_d9.trans (by norm_num)
    rw [abs_sub_comm, h1, abs_of_pos (by linarith)]
    linarith

/-- Hermite functions and bounds beyond the box qualify as well. -/
example : Reaches { bendOptions with basisType := .hermiteFunctions, basisNorm := true } 10 ∧
    Reaches { bendOptions with basisLB := some (-11), basisUB := some 11 } 10 := by
  refine ⟨⟨fun h => absurd rfl h, fun _ => ⟨rfl, rfl⟩, fun l hl => (by cases hl), fun l hl => (by cases hl), fun l hl => (by cases hl)⟩,
    ⟨fun _ => rfl, fun h => (by cases h), ?_, ?_, ?_⟩⟩
  · intro l hl u hu
    cases hl
    cases hu
    norm_num
  · intro l hl
    cases hl
    norm_num
  · intro u hu
    cases hu
    norm_num

end MParT
