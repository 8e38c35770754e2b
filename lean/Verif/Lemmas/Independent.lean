import Verif.Spec.Factory
import Mathlib.Algebra.Polynomial.Sequence
import Mathlib.Algebra.Polynomial.Roots
import Mathlib.Analysis.Calculus.Deriv.Polynomial
import Mathlib.Analysis.SpecialFunctions.ExpDeriv
import Mathlib.Data.Set.Finite.Lemmas
import Mathlib.Order.Interval.Set.Infinite
/-!
# Linear independence of the bases and of their tensor products
-/
namespace MParT
open Finset Spec Polynomial

/-- Polynomials of different degrees are independent. -/
theorem poly_indep {S : Finset ℕ} {P : ℕ → ℝ[X]} (h0 : ∀ n ∈ S, P n ≠ 0)
    (hd : ∀ n ∈ S, ∀ m ∈ S, (P n).natDegree = (P m).natDegree → n = m) {a : ℕ → ℝ} (h : ∑ n ∈ S, C (a n) * P n = 0) :
    ∀ n ∈ S, a n = 0 := by
  classical
  by_contra hne
  push Not at hne
  obtain ⟨n, hn, han⟩ := hne
  have hdeg : ∀ m ∈ S, a m ≠ 0 → (C (a m) * P m).degree = (P m).natDegree := fun m hm h => by
    rw [degree_C_mul h, degree_eq_natDegree (h0 m hm)]
  have key := degree_sum_eq_of_disjoint (fun n => C (a n) * P n) S fun x ⟨hx, hx0⟩ y ⟨hy, hy0⟩ hxy => by
    have ax : a x ≠ 0 := fun e => hx0 (by simp [e])
    have ay : a y ≠ 0 := fun e => hy0 (by simp [e])
    simp only [Function.onFun, Function.comp, hdeg x hx ax, hdeg y hy ay, ne_eq, Nat.cast_inj]
    exact fun e => hxy (hd x hx y hy e)
  rw [h, degree_zero] at key
  have := (le_sup (f := fun i => (C (a i) * P i).degree) hn).trans key.symm.le
  beta_reduce at this
  rw [hdeg n hn han] at this
  simp at this

/-- A polynomial which vanishes between two numbers is zero. -/
theorem poly_zero {l u : ℝ} (hlu : l < u) {P : ℝ[X]} (h : ∀ x ∈ Set.Ioo l u, P.eval x = 0) : P = 0 :=
  P.eq_zero_of_infinite_isRoot ((Set.Ioo_infinite hlu).mono fun x hx => h x hx)

theorem deriv_add_mul_X {Q : ℝ[X]} (h : derivative Q + X * Q = 0) : Q = 0 := by
  by_contra hQ
  have h1 : (X * Q).natDegree = Q.natDegree + 1 := by rw [natDegree_mul X_ne_zero hQ, natDegree_X, Nat.add_comm]
  have h2 : X * Q = -derivative Q := by rw [eq_neg_iff_add_eq_zero, add_comm]; exact h
  have h3 := natDegree_derivative_le Q
  rw [h2, natDegree_neg] at h1
  omega

/-- A polynomial times `e^{x²/2}` is a polynomial between two numbers only if it is zero. -/
theorem poly_exp {l u : ℝ} (hlu : l < u) : ∀ (n : ℕ) (P Q : ℝ[X]), P.natDegree ≤ n →
    (∀ x ∈ Set.Ioo l u, Q.eval x * Real.exp (x ^ 2 / 2) = P.eval x) → Q = 0 := by
  have step : ∀ P Q : ℝ[X], (∀ x ∈ Set.Ioo l u, Q.eval x * Real.exp (x ^ 2 / 2) = P.eval x) →
      ∀ x ∈ Set.Ioo l u, (derivative Q + X * Q).eval x * Real.exp (x ^ 2 / 2) = (derivative P).eval x := by
    intro P Q h x hx
    have h1 : HasDerivAt (fun y => Q.eval y * Real.exp (y ^ 2 / 2))
        ((derivative Q).eval x * Real.exp (x ^ 2 / 2) + Q.eval x * (Real.exp (x ^ 2 / 2) * (((2 : ℕ) * x ^ (2 - 1)) / 2))) x :=
      (Q.hasDerivAt x).mul (((hasDerivAt_pow 2 x).div_const 2).exp)
    have h2 := (P.hasDerivAt x).congr_of_eventuallyEq
      (Filter.eventually_of_mem (isOpen_Ioo.mem_nhds hx) h)
    rw [← h1.unique h2]
    simp only [eval_add, eval_mul, eval_X]
    ring
  intro n
  induction n with
  | zero =>
    intro P Q hP h
    have hd : derivative P = 0 := by rw [eq_C_of_natDegree_le_zero hP, derivative_C]
    refine deriv_add_mul_X (poly_zero hlu fun x hx => ?_)
    have := step P Q h x hx
    rw [hd, eval_zero] at this
    exact (mul_eq_zero.1 this).resolve_right (Real.exp_pos _).ne'
  | succ n ih =>
    intro P Q hP h
    refine deriv_add_mul_X (ih (derivative P) _ ?_ (step P Q h))
    have := natDegree_derivative_le P
    omega

/-- The polynomial whose values are the Hermite polynomials. -/
noncomputable def polyHe (n : ℕ) : ℝ[X] := (hermite n).map (Int.castRingHom ℝ)

theorem polyHe_eval (n : ℕ) (x : ℝ) : (polyHe n).eval x = He n x := by
  rw [polyHe, eval_map, He, aeval_def]; rfl

theorem polyHe_degree (n : ℕ) : (polyHe n).natDegree = n ∧ polyHe n ≠ 0 := by
  have hm : (polyHe n).Monic := (hermite_monic n).map _
  refine ⟨?_, hm.ne_zero⟩
  rw [polyHe, (hermite_monic n).natDegree_map, natDegree_hermite]

noncomputable def polyHp (n : ℕ) : ℝ[X] := C (√2 ^ n) * (polyHe n).comp (C √2 * X)

theorem polyHp_eval (n : ℕ) (x : ℝ) : (polyHp n).eval x = Hp n x := by
  rw [polyHp, Hp, eval_mul, eval_C, eval_comp, polyHe_eval, eval_mul, eval_C, eval_X]

theorem polyHp_degree (n : ℕ) : (polyHp n).natDegree = n ∧ polyHp n ≠ 0 := by
  have h2 : (√2 : ℝ) ≠ 0 := by positivity
  have hd : (C (√2 : ℝ) * X).natDegree = 1 := natDegree_C_mul_X _ h2
  have hc : (polyHe n).comp (C (√2 : ℝ) * X) ≠ 0 := by
    intro e
    rcases comp_eq_zero_iff.1 e with e | ⟨-, e⟩
    · exact (polyHe_degree n).2 e
    · rw [e, natDegree_C] at hd; omega
  refine ⟨?_, mul_ne_zero (by simpa using h2) hc⟩
  rw [polyHp, natDegree_C_mul (by positivity), natDegree_comp, hd, (polyHe_degree n).1, mul_one]

/-- Between the bounds, which leave some room, functions are not changed by the extension. -/
theorem extend_inside {lb ub : Option ℝ} (h : Ordered lb ub) : ∃ l u : ℝ, l < u ∧ ∀ x ∈ Set.Ioo l u, ∀ f, extend lb ub f x = f x := by
  have key : ∀ l u x : ℝ, ∀ f, l ≤ x → x ≤ u → linearize l u f x = f x := fun l u x f h1 h2 => by
    rw [linearize, if_neg (by linarith), if_neg (by linarith)]
  cases lb with
  | none =>
    cases ub with
    | none => exact ⟨0, 1, one_pos, fun x _ f => key _ _ _ _ le_rfl le_rfl⟩
    | some u => exact ⟨u - 1, u, by linarith, fun x hx f => key _ _ _ _ le_rfl hx.2.le⟩
  | some l =>
    cases ub with
    | none => exact ⟨l, l + 1, by linarith, fun x hx f => key _ _ _ _ hx.1.le le_rfl⟩
    | some u => exact ⟨l, u, h l rfl u rfl, fun x hx f => key _ _ _ _ hx.1.le hx.2.le⟩

/-- No non-trivial combination of the functions of the given orders vanishes everywhere. -/
def Independent (φ : ℕ → ℝ → ℝ) (orders : ℕ → Prop) : Prop :=
  ∀ (S : Finset ℕ) (a : ℕ → ℝ), (∀ n ∈ S, orders n) → (∀ x, ∑ n ∈ S, a n * φ n x = 0) → ∀ n ∈ S, a n = 0

theorem independent_poly {φ : ℕ → ℝ → ℝ} {orders : ℕ → Prop} {l u : ℝ} (hlu : l < u) {P : ℕ → ℝ[X]} {α : ℕ → ℝ}
    (hα : ∀ n, orders n → α n ≠ 0) (hP : ∀ n, (P n).natDegree = n ∧ P n ≠ 0)
    (h : ∀ n, orders n → ∀ x ∈ Set.Ioo l u, φ n x = α n * (P n).eval x) : Independent φ orders := by
  intro S a hS h0 n hn
  have hz : ∑ n ∈ S, C (a n * α n) * P n = 0 := poly_zero hlu fun x hx => by
    rw [eval_finsetSum, ← h0 x]
    refine sum_congr rfl fun m hm => ?_
    rw [eval_mul, eval_C, h m (hS m hm) x hx, mul_assoc]
  have := poly_indep (fun n _ => (hP n).2) (fun n _ m _ e => by rwa [(hP n).1, (hP m).1] at e) hz n hn
  exact (mul_eq_zero.1 this).resolve_right (hα n (hS n hn))

theorem independent_hermiteFn {φ : ℕ → ℝ → ℝ} {orders : ℕ → Prop} {l u : ℝ} (hlu : l < u) {α : ℕ → ℝ}
    (hα : ∀ n, orders n → α n ≠ 0)
    (h : ∀ n, orders n → ∀ x ∈ Set.Ioo l u, φ n x = α n * hermiteFn n x) : Independent φ orders := by
  classical
  intro S a hS h0
  set κ : ℕ → ℝ := fun n => (√(2 ^ n * n.factorial * √Real.pi))⁻¹ with hκ
  have hκ0 : ∀ n, κ n ≠ 0 := fun n => by
    have := Real.pi_pos
    simp only [hκ]
    positivity
  set L : ℝ[X] := ∑ n ∈ S.filter (· < 2), C (a n * α n) * X ^ n with hL
  set R : ℝ[X] := ∑ n ∈ S.filter (¬ · < 2), C (a n * α n * κ (n - 2)) * polyHp (n - 2) with hR
  have hsum : ∀ x ∈ Set.Ioo l u, L.eval x + Real.exp (-x ^ 2 / 2) * R.eval x = 0 := by
    intro x hx
    rw [← h0 x, ← sum_filter_add_sum_filter_not S (· < 2), hL, hR, eval_finsetSum, eval_finsetSum, mul_sum]
    congr 1
    · refine sum_congr rfl fun n hn => ?_
      obtain ⟨hn, h2⟩ := mem_filter.1 hn
      rw [eval_mul, eval_C, h n (hS n hn) x hx, eval_pow, eval_X]
      obtain rfl | rfl : n = 0 ∨ n = 1 := by omega
      · simp [hermiteFn]
      · simp [hermiteFn, mul_assoc]
    · refine sum_congr rfl fun n hn => ?_
      obtain ⟨hn, h2⟩ := mem_filter.1 hn
      obtain ⟨m, rfl⟩ : ∃ m, n = m + 2 := ⟨n - 2, by omega⟩
      rw [eval_mul, eval_C, h _ (hS _ hn) x hx, polyHp_eval, hermiteFn, Nat.add_sub_cancel, hκ]
      ring
  have hL0 : L = 0 := poly_exp hlu _ (-R) L le_rfl fun x hx => by
    have h1 : Real.exp (-x ^ 2 / 2) * Real.exp (x ^ 2 / 2) = 1 := by rw [← Real.exp_add]; simp [neg_div]
    have h2 := hsum x hx
    rw [eval_neg]
    linear_combination Real.exp (x ^ 2 / 2) * h2 - R.eval x * h1
  have hR0 : R = 0 := poly_zero hlu fun x hx => by
    have h2 := hsum x hx
    rw [hL0, eval_zero, zero_add] at h2
    exact (mul_eq_zero.1 h2).resolve_left (Real.exp_pos _).ne'
  intro n hn
  have hα' := hα n (hS n hn)
  by_cases h2 : n < 2
  · have := poly_indep (fun n _ => pow_ne_zero n X_ne_zero) (fun n _ m _ e => by simpa using e) hL0 n (mem_filter.2 ⟨hn, h2⟩)
    exact (mul_eq_zero.1 this).resolve_right hα'
  · have := poly_indep (fun n _ => (polyHp_degree (n - 2)).2) (fun n hn m hm e => by
      have h1 := (mem_filter.1 hn).2
      have h2 := (mem_filter.1 hm).2
      rw [(polyHp_degree _).1, (polyHp_degree _).1] at e
      omega) hR0 n (mem_filter.2 ⟨hn, h2⟩)
    exact (mul_eq_zero.1 ((mul_eq_zero.1 this).resolve_right (hκ0 _))).resolve_right hα'

theorem basis_independent {o : MapOptions} {orders : ℕ → Prop} {b : Basis ℝ} (hO : Ordered o.basisLB o.basisUB)
    (hb : IsBasisOf o orders b) : Independent b.eff.val orders := by
  obtain ⟨l, u, hlu, hin⟩ := extend_inside hO
  obtain ⟨a, ha, -, -, hv⟩ := hb
  set α : ℕ → ℝ := fun n => if n = 0 then 1 else (a n)⁻¹ with hα
  have hα0 : ∀ n, orders n → α n ≠ 0 := fun n hn => by
    simp only [hα]
    split
    · exact one_ne_zero
    · exact inv_ne_zero (ha n hn).ne'
  have hraw : ∀ n, orders n → ∀ x ∈ Set.Ioo l u, rawFamily o.basisType 0 x = 1 → b.eff.val n x = α n * rawFamily o.basisType n x := by
    intro n hn x hx h1
    simp only [Basis.eff, hα]
    split
    · rename_i e; rw [e, h1, mul_one]
    · rw [hv n hn, hin x hx, div_eq_inv_mul]
  cases ht : o.basisType with
  | probabilistHermite =>
    rw [ht] at hraw
    refine independent_poly hlu hα0 polyHe_degree fun n hn x hx => ?_
    rw [hraw n hn x hx (by simp [rawFamily, He]), polyHe_eval]; rfl
  | physicistHermite =>
    rw [ht] at hraw
    refine independent_poly hlu hα0 polyHp_degree fun n hn x hx => ?_
    rw [hraw n hn x hx (by simp [rawFamily, Hp, He]), polyHp_eval]; rfl
  | hermiteFunctions =>
    rw [ht] at hraw
    exact independent_hermiteFn hlu hα0 fun n hn x hx => hraw n hn x hx rfl

/-- Products of independent functions of different variables are independent. -/
theorem tensor_independent {φ : ℕ → ℝ → ℝ} {orders : ℕ → Prop} (hφ : Independent φ orders) : ∀ (D : ℕ) (s : Finset ℕ) (α : ℕ → ℕ → ℕ)
    (c : ℕ → ℝ), (∀ k ∈ s, ∀ d < D, orders (α k d)) → (∀ k ∈ s, ∀ l ∈ s, (∀ d < D, α k d = α l d) → k = l) →
    (∀ x : ℕ → ℝ, ∑ k ∈ s, c k * ∏ d ∈ range D, φ (α k d) (x d) = 0) → ∀ k ∈ s, c k = 0 := by
  classical
  intro D
  induction D with
  | zero =>
    intro s α c _ hinj h0 k hk
    have hs : s = {k} := eq_singleton_iff_unique_mem.2 ⟨hk, fun l hl => hinj l hl k hk (by simp)⟩
    simpa [hs] using h0 fun _ => 0
  | succ D ih =>
    intro s α c ho hinj h0 k hk
    refine ih (s.filter fun j => α j D = α k D) α c (fun j hj d hd => ho j (mem_filter.1 hj).1 d (by omega))
      (fun i hi j hj h => hinj i (mem_filter.1 hi).1 j (mem_filter.1 hj).1 fun d hd => ?_) (fun x => ?_) k (mem_filter.2 ⟨hk, rfl⟩)
    · by_cases e : d = D
      · rw [e, (mem_filter.1 hi).2, (mem_filter.1 hj).2]
      · exact h d (by omega)
    · refine hφ (s.image fun j => α j D) (fun n => ∑ j ∈ s.filter fun j => α j D = n, c j * ∏ d ∈ range D, φ (α j d) (x d))
        (fun n hn => ?_) (fun y => ?_) _ (mem_image_of_mem _ hk)
      · obtain ⟨j, hj, rfl⟩ := mem_image.1 hn
        exact ho j hj D (by omega)
      · have := h0 (Function.update x D y)
        rw [← this]
        rw [← sum_fiberwise_of_maps_to (g := fun j => α j D) (t := s.image fun j => α j D) fun j hj => mem_image_of_mem _ hj]
        refine sum_congr rfl fun n _ => ?_
        rw [sum_mul]
        refine sum_congr rfl fun j hj => ?_
        rw [prod_range_succ, Function.update_self, (mem_filter.1 hj).2, mul_assoc]
        congr 2
        refine prod_congr rfl fun d hd => ?_
        rw [Function.update_of_ne (by have := mem_range.1 hd; omega)]

theorem getD_lt {α : Type} {l : List α} {i : ℕ} {a : α} (h : i < l.length) : l.getD i a = l[i] := by simp [h]

/-- Expansions over different multi-indices determine their coefficients. -/
theorem expandAt_injective {b : Basis ℝ} {orders : ℕ → Prop} (hφ : Independent b.val orders) {D : ℕ} {ts : List (List ℕ)} (hn : ts.Nodup)
    (hD : ∀ t ∈ ts, t.length = D) (ho : ∀ t ∈ ts, ∀ n ∈ t, orders n) {c c' : List ℝ} (hc : c.length = ts.length)
    (hc' : c'.length = ts.length) (h : ∀ x, expandAt b D ts c x = expandAt b D ts c' x) : c = c' := by
  have hlen : ∀ k, (hk : k < ts.length) → (ts.getD k []) = ts[k] := fun k hk => by simp [hk]
  have key := tensor_independent hφ D (range ts.length) (fun k d => (ts.getD k []).getD d 0) (fun k => c.getD k 0 - c'.getD k 0)
    (fun k hk d hd => ?_) (fun k hk l hl e => ?_) (fun x => ?_)
  · refine List.ext_getElem (hc.trans hc'.symm) fun k h1 h2 => ?_
    have := key k (mem_range.2 (hc ▸ h1))
    simp only [getD_lt h1, getD_lt h2] at this
    linarith
  · have hk := mem_range.1 hk
    have hmem : ts[k] ∈ ts := List.getElem_mem hk
    beta_reduce
    rw [hlen k hk, getD_lt (by rw [hD _ hmem]; exact hd)]
    exact ho _ hmem _ (List.getElem_mem _)
  · have hk := mem_range.1 hk
    have hl := mem_range.1 hl
    refine (List.Nodup.getElem_inj_iff hn (hi := hk) (hj := hl)).1 (List.ext_getElem ?_ fun d h1 h2 => ?_)
    · rw [hD _ (List.getElem_mem hk), hD _ (List.getElem_mem hl)]
    · have := e d (by rw [← hD _ (List.getElem_mem hk)]; exact h1)
      simpa only [hlen k hk, hlen l hl, getD_lt h1, getD_lt h2] using this
  · have := h x
    simp only [expandAt, expansion, termProd] at this
    simp only [sub_mul, sum_sub_distrib, this, sub_self]

end MParT
