import Verif.Lemmas.Quadrature
import Mathlib.Analysis.SpecialFunctions.Trigonometric.Chebyshev.Basic
import Mathlib.Analysis.SpecialFunctions.Integrals.Basic
import Mathlib.Analysis.Calculus.Deriv.Polynomial
import Mathlib.Topology.Algebra.Polynomial
/-!
# Clenshaw–Curtis rules: positivity and polynomial exactness
-/
namespace MParT.ClenshawCurtis
open Real Finset Polynomial

theorem denom_eq {j : Nat} (h : j + 1 ≤ 32768) : (denom j : ℝ) = 4 * ((j : ℝ) + 1) ^ 2 - 1 := by
  have h1 : (j + 1) * (j + 1) ≤ 32768 * 32768 := Nat.mul_le_mul h h
  have h0 : 1 ≤ (j + 1) * (j + 1) := Nat.mul_pos (by omega) (by omega)
  have : denom j = 4 * ((j + 1) * (j + 1)) - 1 := by
    rw [denom, mul_assoc]
    generalize (j + 1) * (j + 1) = a at *
    omega
  rw [this, Nat.cast_sub (by omega)]
  push_cast; ring

/-- Twice the trapezoidal sum of `cos(i m π / N)`. -/
noncomputable def trap (N : Nat) (g : Nat → ℝ) : ℝ := ∑ i ∈ range N, (g i + g (i + 1))

theorem ends_sum (N : Nat) (hN : 1 ≤ N) (g : Nat → ℝ) :
    ∑ i ∈ range (N + 1), (if i = 0 ∨ i = N then (1 : ℝ) else 2) * g i = trap N g := by
  obtain ⟨M, rfl⟩ : ∃ M, N = M + 1 := ⟨N - 1, by omega⟩
  rw [trap, sum_add_distrib, sum_range_succ, sum_range_succ']
  have : ∀ k ∈ range M, (if k + 1 = 0 ∨ k + 1 = M + 1 then (1 : ℝ) else 2) * g (k + 1) = g (k + 1) + g (k + 1) := by
    intro k hk
    have := mem_range.mp hk
    rw [if_neg (by omega)]; ring
  rw [sum_congr rfl this, sum_add_distrib, sum_range_succ' g M, sum_range_succ (fun i => g (i + 1)) M]
  simp; ring

theorem trap_add (N : Nat) (g h : Nat → ℝ) : trap N (fun i => g i + h i) = trap N g + trap N h := by
  simp only [trap, ← sum_add_distrib]; exact sum_congr rfl fun _ _ => by ring

theorem trap_smul (N : Nat) (c : ℝ) (g : Nat → ℝ) : trap N (fun i => c * g i) = c * trap N g := by
  simp only [trap, mul_sum]; exact sum_congr rfl fun _ _ => by ring

theorem trap_sum {ι : Type} (N : Nat) (s : Finset ι) (g : ι → Nat → ℝ) :
    trap N (fun i => ∑ j ∈ s, g j i) = ∑ j ∈ s, trap N (g j) := by
  simp only [trap]
  rw [sum_comm]; exact sum_congr rfl fun _ _ => by rw [← sum_add_distrib]

theorem trap_sin (N : Nat) (α : ℝ) :
    sin (α / 2) * trap N (fun i => cos (i * α)) = sin (N * α) * cos (α / 2) := by
  induction N with
  | zero => simp [trap]
  | succ N ih =>
    rw [trap, sum_range_succ, ← trap, mul_add, ih]
    have e1 : cos ((N : ℝ) * α) = cos ((N + 1 / 2) * α - α / 2) := by congr 1; ring
    have e2 : cos (((N + 1 : Nat) : ℝ) * α) = cos ((N + 1 / 2) * α + α / 2) := by congr 1; push_cast; ring
    have e3 : sin ((N : ℝ) * α) = sin ((N + 1 / 2) * α - α / 2) := by congr 1; ring
    have e4 : sin (((N + 1 : Nat) : ℝ) * α) = sin ((N + 1 / 2) * α + α / 2) := by congr 1; push_cast; ring
    rw [e1, e2, e3, e4, cos_sub, cos_add, sin_sub, sin_add]
    ring

/-- Discrete orthogonality. -/
theorem trap_cos (N : Nat) (hN : 1 ≤ N) (m : ℤ) :
    trap N (fun i => cos (i * (m * π / N))) = if (2 * N : ℤ) ∣ m then (2 * N : ℝ) else 0 := by
  have hN0 : (N : ℝ) ≠ 0 := by positivity
  split
  · next h =>
    obtain ⟨c, rfl⟩ := h
    have : ∀ i : Nat, cos (i * (((2 * N * c : ℤ) : ℝ) * π / N)) = 1 := fun i => by
      rw [show (i : ℝ) * (((2 * N * c : ℤ) : ℝ) * π / N) = ((i * c : ℤ) : ℝ) * (2 * π) by push_cast; field_simp]
      exact cos_int_mul_two_pi _
    simp only [trap, this]
    simp; ring
  · next h =>
    have := trap_sin N (m * π / N)
    rw [show (N : ℝ) * (m * π / N) = m * π by field_simp, sin_int_mul_pi, zero_mul] at this
    refine (mul_eq_zero.mp this).resolve_left fun h0 => h ?_
    obtain ⟨n, hn⟩ := sin_eq_zero_iff.mp h0
    refine ⟨n, ?_⟩
    have : (m : ℝ) = 2 * N * n := by
      field_simp at hn
      have hp := pi_pos.ne'
      have : (n * N * 2 : ℝ) = m := by linarith
      linarith
    exact_mod_cast this

theorem wt_sum (N : Nat) (hN : 1 ≤ N) (g : Nat → ℝ) :
    ∑ i ∈ range (N + 1), wt N i * g i = trap N (fun i => rawW N i * g i) / N := by
  rw [← ends_sum N hN, sum_div]
  exact sum_congr rfl fun i _ => by rw [wt]; ring

/-- Weighted sum of a cosine, before simplification. -/
theorem wt_cos (N : Nat) (hN : 1 ≤ N) (k : Nat) :
    ∑ i ∈ range (N + 1), wt N i * cos (i * (k * π / N)) =
      ((if (2 * N : ℤ) ∣ k then (2 * N : ℝ) else 0) - ∑ j ∈ range (N / 2), (if 2 * (j + 1) = N then (1 : ℝ) else 2) / denom j / 2 *
        ((if (2 * N : ℤ) ∣ k + 2 * (j + 1) then (2 * N : ℝ) else 0) + (if (2 * N : ℤ) ∣ k - 2 * (j + 1) then (2 * N : ℝ) else 0))) / N := by
  rw [wt_sum N hN]
  congr 1
  have : (fun i : Nat => rawW N i * cos (i * (k * π / N))) = fun i : Nat => cos (i * ((k : ℤ) * π / N)) +
      (-1) * ∑ j ∈ range (N / 2), (if 2 * (j + 1) = N then (1 : ℝ) else 2) / denom j / 2 *
        (cos (i * (((k + 2 * (j + 1) : ℤ) : ℝ) * π / N)) + cos (i * (((k - 2 * (j + 1) : ℤ) : ℝ) * π / N))) := by
    funext i
    rw [rawW, sub_mul, one_mul, sub_eq_add_neg, neg_eq_neg_one_mul (_ * _), sum_mul]
    congr 1
    congr 1
    refine sum_congr rfl fun j _ => ?_
    have h1 : (i : ℝ) * (((k + 2 * (j + 1) : ℤ) : ℝ) * π / N) = i * (k * π / N) + 2 * ((j : ℝ) + 1) * (i * π / N) := by
      push_cast; ring
    have h2 : (i : ℝ) * (((k - 2 * (j + 1) : ℤ) : ℝ) * π / N) = i * (k * π / N) - 2 * ((j : ℝ) + 1) * (i * π / N) := by
      push_cast; ring
    rw [h1, h2, cos_add, cos_sub]
    ring
  rw [this, trap_add, trap_smul, trap_sum, trap_cos N hN]
  simp only [trap_smul, trap_add, trap_cos N hN]
  ring

theorem wt_cos_eq (N : Nat) (hN : 1 ≤ N) (hb : N ≤ 65536) (k : Nat) (hk : k ≤ N) :
    ∑ i ∈ range (N + 1), wt N i * cos (i * (k * π / N)) = if k % 2 = 0 then 2 / (1 - (k : ℝ) ^ 2) else 0 := by
  have hN0 : (N : ℝ) ≠ 0 := by positivity
  rw [wt_cos N hN]
  have dvd0 : ∀ z : ℤ, -(2 * N : ℤ) < z → z < 2 * N → ((2 * N : ℤ) ∣ z ↔ z = 0) := fun z h1 h2 =>
    ⟨fun h => Int.eq_zero_of_abs_lt_dvd h (abs_lt.mpr ⟨h1, h2⟩), fun h => h ▸ dvd_zero _⟩
  have hplus : ∀ j ∈ range (N / 2), ((2 * N : ℤ) ∣ k + 2 * (j + 1) ↔ (k = N ∧ 2 * (j + 1) = N)) := by
    intro j hj
    have := mem_range.mp hj
    constructor
    · rintro ⟨c, hc⟩
      have h1 : 0 < (2 * N : ℤ) * c := by omega
      have h2 : (2 * N : ℤ) * c ≤ 2 * N := by omega
      have hc1 : c = 1 := by
        have : 0 < c := by
          by_contra h
          have : (2 * N : ℤ) * c ≤ 0 := mul_nonpos_of_nonneg_of_nonpos (by omega) (by omega)
          omega
        have : c < 2 := by
          by_contra h
          have : (2 * N : ℤ) * 2 ≤ 2 * N * c := mul_le_mul_of_nonneg_left (by omega) (by omega)
          omega
        omega
      subst hc1
      omega
    · rintro ⟨h1, h2⟩
      exact ⟨1, by omega⟩
  have hminus : ∀ j ∈ range (N / 2), ((2 * N : ℤ) ∣ k - 2 * (j + 1) ↔ 2 * (j + 1) = k) := by
    intro j hj
    have := mem_range.mp hj
    rw [dvd0 _ (by omega) (by omega)]; omega
  have z0 : ∀ j ∈ range (N / 2), ¬ (k = N ∧ 2 * (j + 1) = N) → ¬ 2 * (j + 1) = k →
      (if 2 * (j + 1) = N then (1 : ℝ) else 2) / denom j / 2 * ((if (2 * N : ℤ) ∣ k + 2 * (j + 1) then (2 * N : ℝ) else 0)
        + (if (2 * N : ℤ) ∣ k - 2 * (j + 1) then (2 * N : ℝ) else 0)) = 0 := by
    intro j hj h1 h2
    rw [if_neg (mt (hplus j hj).mp h1), if_neg (mt (hminus j hj).mp h2), add_zero, mul_zero]
  rcases Nat.eq_zero_or_pos k with rfl | hk0
  · rw [sum_eq_zero]
    · simp; field_simp
    · intro j hj
      exact z0 j hj (by omega) (by omega)
  · rw [if_neg (by rw [dvd0 _ (by omega) (by omega)]; omega)]
    split
    · next hev =>
      rw [sum_eq_single (k / 2 - 1)]
      · rw [if_pos (show (2 * N : ℤ) ∣ k - 2 * ((k / 2 - 1 : Nat) + 1) by
          rw [hminus _ (mem_range.mpr (by omega))]; omega)]
        have hd : (denom (k / 2 - 1) : ℝ) = (k : ℝ) ^ 2 - 1 := by
          rw [denom_eq (by omega)]
          have : (k : ℝ) = 2 * (((k / 2 - 1 : Nat) : ℝ) + 1) := by
            have : k = 2 * ((k / 2 - 1) + 1) := by omega
            exact_mod_cast this
          rw [this]; ring
        have h4 : (4 : ℝ) ≤ (k : ℝ) ^ 2 := by
          have : (2 : ℝ) ≤ k := by exact_mod_cast (by omega : 2 ≤ k)
          nlinarith
        rw [hd]
        have e1 : (k : ℝ) ^ 2 - 1 ≠ 0 := by linarith
        have e2 : 1 - (k : ℝ) ^ 2 ≠ 0 := by linarith
        by_cases hkN : k = N
        · rw [if_pos (by omega), if_pos (by rw [hplus _ (mem_range.mpr (by omega))]; omega)]
          rw [div_eq_div_iff hN0 e2]
          field_simp
          ring
        · rw [if_neg (by omega), if_neg (by rw [hplus _ (mem_range.mpr (by omega))]; omega)]
          rw [div_eq_div_iff hN0 e2]
          field_simp
          ring
      · intro j hj hne
        exact z0 j hj (by omega) (by omega)
      · intro h
        exact absurd (mem_range.mpr (by omega)) h
    · next hod =>
      rw [sum_eq_zero]
      · simp
      · intro j hj
        exact z0 j hj (by omega) (by omega)

/-- Sum of the weights; no bound on the number of points. -/
theorem wt_total (N : Nat) (hN : 1 ≤ N) : ∑ i ∈ range (N + 1), wt N i = 2 := by
  have hN0 : (N : ℝ) ≠ 0 := by positivity
  have := wt_cos N hN 0
  simp only [Nat.cast_zero, zero_mul, zero_div, mul_zero, cos_zero, mul_one, dvd_zero, if_true] at this
  rw [this, sum_eq_zero]
  · rw [sub_zero]; field_simp
  · intro j hj
    have hj := mem_range.mp hj
    have n1 : ¬ (2 * N : ℤ) ∣ ((0 : Nat) : ℤ) + 2 * (j + 1) := by
      intro h; have := Int.le_of_dvd (by omega) h; omega
    have n2 : ¬ (2 * N : ℤ) ∣ ((0 : Nat) : ℤ) - 2 * (j + 1) := by
      intro h
      have := Int.le_of_dvd (by omega) (dvd_neg.mpr h); omega
    simp only [Nat.cast_zero] at n1 n2
    rw [if_neg n1, if_neg n2, add_zero, mul_zero]

theorem integral_T (k : Nat) :
    ∫ x in (-1 : ℝ)..1, (Chebyshev.T ℝ k).eval x = if k % 2 = 0 then 2 / (1 - (k : ℝ) ^ 2) else 0 := by
  rcases Nat.eq_zero_or_pos k with rfl | hk0
  · simp; norm_num
  rcases Nat.eq_or_lt_of_le hk0 with rfl | hk1
  · simp
  have h1 : ((k : ℤ) + 1 : ℝ) ≠ 0 := by positivity
  have h2 : (1 : ℝ) < k := by exact_mod_cast hk1
  have h3 : ((k : ℝ) - 1) ≠ 0 := by linarith
  have h4 : ((k : ℝ) + 1) ≠ 0 := by linarith
  let F : ℝ[X] := Polynomial.C (1 / (2 * ((k : ℝ) + 1))) * Chebyshev.T ℝ (k + 1)
    - Polynomial.C (1 / (2 * ((k : ℝ) - 1))) * Chebyshev.T ℝ (k - 1)
  have hF : ∀ x : ℝ, F.derivative.eval x = (Chebyshev.T ℝ k).eval x := fun x => by
    have e := congrArg (Polynomial.eval x) (Chebyshev.two_mul_T_eq_U_sub_U ℝ ((k : ℤ) - 2))
    simp only [F, derivative_sub, derivative_C_mul, Chebyshev.T_derivative_eq_U, eval_sub, eval_mul, eval_C]
    rw [show ((k : ℤ) - 2 + 2) = k by ring] at e
    rw [show ((k : ℤ) + 1 - 1) = k by ring, show ((k : ℤ) - 1 - 1) = k - 2 by ring]
    simp only [eval_mul, eval_sub] at e
    simp only [Int.cast_add, Int.cast_natCast, Int.cast_one, Int.cast_sub, eval_add, eval_sub, eval_natCast, eval_one,
      Polynomial.eval_ofNat] at e ⊢
    field_simp
    linarith
  have := intervalIntegral.integral_eq_sub_of_hasDerivAt (a := -1) (b := 1) (f := fun x => F.eval x)
    (f' := fun x => (Chebyshev.T ℝ k).eval x) (fun x _ => by rw [← hF x]; exact F.hasDerivAt x)
    ((Chebyshev.T ℝ k).continuous.intervalIntegrable _ _)
  rw [this]
  simp only [F, eval_sub, eval_mul, eval_C, Chebyshev.T_eval_one, Chebyshev.T_eval_neg_one]
  split
  · next h =>
    have o1 : Odd ((k : ℤ) + 1) := by rw [Int.odd_iff]; omega
    have o2 : Odd ((k : ℤ) - 1) := by rw [Int.odd_iff]; omega
    rw [Int.negOnePow_odd _ o1, Int.negOnePow_odd _ o2]
    have : 1 - (k : ℝ) ^ 2 ≠ 0 := by nlinarith
    push_cast
    rw [eq_div_iff this]
    field_simp
    ring
  · next h =>
    have o1 : Even ((k : ℤ) + 1) := by rw [Int.even_iff]; omega
    have o2 : Even ((k : ℤ) - 1) := by rw [Int.even_iff]; omega
    rw [Int.negOnePow_even _ o1, Int.negOnePow_even _ o2]
    simp

theorem T_pt (N k i : Nat) : (Chebyshev.T ℝ k).eval (pt N i) = (-1) ^ k * cos (i * (k * π / N)) := by
  rw [pt, Chebyshev.T_eval_neg, Chebyshev.T_real_cos]
  congr 1
  · rcases Nat.even_or_odd k with h | h
    · rw [Int.negOnePow_even _ (by exact_mod_cast h), h.neg_one_pow]; simp
    · rw [Int.negOnePow_odd _ (by exact_mod_cast h), h.neg_one_pow]; simp
  · congr 1; push_cast; ring

/-- The rule with `N+1` points integrates every polynomial of degree at most `N` exactly. -/
theorem exact (N : Nat) (hN : 1 ≤ N) (hb : N ≤ 65536) (P : ℝ[X]) (hP : P.natDegree ≤ N) :
    ∑ i ∈ range (N + 1), wt N i * P.eval (pt N i) = ∫ x in (-1 : ℝ)..1, P.eval x := by
  have hT : ∀ k ≤ N, ∑ i ∈ range (N + 1), wt N i * (Chebyshev.T ℝ k).eval (pt N i) =
      ∫ x in (-1 : ℝ)..1, (Chebyshev.T ℝ k).eval x := fun k hk => by
    rw [integral_T, ← wt_cos_eq N hN hb k hk, sum_congr rfl fun i _ => by rw [T_pt]]
    rcases Nat.even_or_odd k with h | h
    · rw [h.neg_one_pow]; simp
    · have e := wt_cos_eq N hN hb k hk
      rw [if_neg (by have := Nat.odd_iff.mp h; omega)] at e
      rw [e, h.neg_one_pow, sum_congr rfl fun i _ => show _ = (-1) * (wt N i * cos (i * (k * π / N))) by ring, ← mul_sum, e,
        mul_zero]
  suffices H : ∀ d, ∀ P : ℝ[X], P.natDegree ≤ d → d ≤ N →
      ∑ i ∈ range (N + 1), wt N i * P.eval (pt N i) = ∫ x in (-1 : ℝ)..1, P.eval x from H N P hP le_rfl
  have lin : ∀ (Q : ℝ[X]) (c : ℝ) (k : Nat), k ≤ N →
      (∑ i ∈ range (N + 1), wt N i * Q.eval (pt N i) = ∫ x in (-1 : ℝ)..1, Q.eval x) →
      ∑ i ∈ range (N + 1), wt N i * (Q + Polynomial.C c * Chebyshev.T ℝ k).eval (pt N i) =
        ∫ x in (-1 : ℝ)..1, (Q + Polynomial.C c * Chebyshev.T ℝ k).eval x := by
    intro Q c k hk hQ
    simp only [eval_add, eval_mul, eval_C]
    have hi : IntervalIntegrable (fun x => c * (Chebyshev.T ℝ k).eval x) MeasureTheory.volume (-1) 1 :=
      Continuous.intervalIntegrable (by exact continuous_const.mul (Chebyshev.T ℝ k).continuous) _ _
    rw [intervalIntegral.integral_add (Q.continuous.intervalIntegrable _ _) hi,
      intervalIntegral.integral_const_mul, ← hT k hk, ← hQ, mul_sum, ← sum_add_distrib]
    exact sum_congr rfl fun i _ => by ring
  intro d
  induction d with
  | zero =>
    intro P hP _
    obtain ⟨c, rfl⟩ := natDegree_eq_zero.mp (Nat.le_zero.mp hP)
    have := lin 0 c 0 (by omega) (by simp)
    simpa using this
  | succ d ih =>
    intro P hP hd
    set c : ℝ := P.coeff (d + 1) / (Chebyshev.T ℝ ((d + 1 : Nat) : ℤ)).leadingCoeff with hc
    have hlead : (Chebyshev.T ℝ ((d + 1 : Nat) : ℤ)).leadingCoeff ≠ 0 :=
      leadingCoeff_ne_zero.mpr (Chebyshev.T_ne_zero ℝ _)
    have hdeg : (Chebyshev.T ℝ ((d + 1 : Nat) : ℤ)).natDegree = d + 1 := by
      rw [Chebyshev.natDegree_T]; rfl
    have e : P = (P - Polynomial.C c * Chebyshev.T ℝ ((d + 1 : Nat) : ℤ))
        + Polynomial.C c * Chebyshev.T ℝ ((d + 1 : Nat) : ℤ) := by ring
    rw [e]
    refine lin _ _ _ hd (ih _ ?_ (by omega))
    refine natDegree_le_iff_coeff_eq_zero.mpr fun n hn => ?_
    rw [coeff_sub, coeff_C_mul]
    rcases Nat.eq_or_lt_of_le (Nat.succ_le_of_lt hn) with rfl | hn'
    · have : (Chebyshev.T ℝ ((d + 1 : Nat) : ℤ)).coeff (d + 1) = (Chebyshev.T ℝ ((d + 1 : Nat) : ℤ)).leadingCoeff := by
        rw [leadingCoeff, hdeg]
      rw [Nat.succ_eq_add_one, this, hc, div_mul_cancel₀ _ hlead, sub_self]
    · rw [coeff_eq_zero_of_natDegree_lt (lt_of_le_of_lt hP hn'),
        coeff_eq_zero_of_natDegree_lt (by rw [hdeg]; exact hn'), mul_zero, sub_zero]

theorem sum_telescope (M : Nat) :
    ∑ j ∈ range M, 2 / (4 * ((j : ℝ) + 1) ^ 2 - 1) = 1 - 1 / (2 * (M : ℝ) + 1) := by
  induction M with
  | zero => simp
  | succ M ih =>
    rw [sum_range_succ, ih]
    have h1 : (2 * (M : ℝ) + 1) ≠ 0 := by positivity
    have h2 : (2 * (M : ℝ) + 3) ≠ 0 := by positivity
    have e : 4 * ((M : ℝ) + 1) ^ 2 - 1 = (2 * M + 1) * (2 * M + 3) := by ring
    rw [e]; push_cast
    rw [show 2 * ((M : ℝ) + 1) + 1 = 2 * M + 3 by ring]
    field_simp; ring

theorem rawW_pos (N i : Nat) (hb : N ≤ 65536) : 0 < rawW N i := by
  have h : ∑ j ∈ range (N / 2), (if 2 * (j + 1) = N then (1 : ℝ) else 2) *
      cos (2 * ((j : ℝ) + 1) * (i * π / N)) / (denom j : ℝ) ≤ ∑ j ∈ range (N / 2), 2 / (4 * ((j : ℝ) + 1) ^ 2 - 1) := by
    refine sum_le_sum fun j hj => ?_
    have hj := mem_range.mp hj
    rw [denom_eq (by omega)]
    have hp : (0 : ℝ) < 4 * ((j : ℝ) + 1) ^ 2 - 1 := by nlinarith [(Nat.cast_nonneg j : (0 : ℝ) ≤ j)]
    refine div_le_div_of_nonneg_right ?_ hp.le
    have hc := cos_le_one (2 * ((j : ℝ) + 1) * (i * π / N))
    split <;> linarith
  rw [sum_telescope] at h
  have : (0 : ℝ) < 1 / (2 * ((N / 2 : Nat) : ℝ) + 1) := by positivity
  rw [rawW]; linarith

theorem wt_pos (N i : Nat) (hN : 1 ≤ N) (hb : N ≤ 65536) : 0 < wt N i := by
  have := rawW_pos N i hb
  have hN0 : (0 : ℝ) < N := by positivity
  rw [wt]
  split <;> positivity

theorem pt_symm (N i : Nat) (hN : 1 ≤ N) (hi : i ≤ N) : pt N (N - i) = -pt N i := by
  have hN0 : (N : ℝ) ≠ 0 := by positivity
  rw [pt, pt, Nat.cast_sub hi, show ((N : ℝ) - i) * π / N = π - i * π / N by field_simp, cos_pi_sub]

theorem wt_symm (N i : Nat) (hN : 1 ≤ N) (hi : i ≤ N) : wt N (N - i) = wt N i := by
  have hN0 : (N : ℝ) ≠ 0 := by positivity
  have hr : rawW N (N - i) = rawW N i := by
    rw [rawW, rawW]
    congr 1
    refine sum_congr rfl fun j _ => ?_
    congr 2
    rw [Nat.cast_sub hi, show 2 * ((j : ℝ) + 1) * (((N : ℝ) - i) * π / N)
      = ((j + 1 : Nat) : ℝ) * (2 * π) - 2 * ((j : ℝ) + 1) * (i * π / N) by push_cast; field_simp,
      cos_nat_mul_two_pi_sub]
  rw [wt, wt, hr]
  by_cases h : i = 0 ∨ i = N
  · rw [if_pos (by omega), if_pos h]
  · rw [if_neg (by omega), if_neg h]

theorem pt_strictMono (N i j : Nat) (hij : i < j) (hj : j ≤ N) : pt N i < pt N j := by
  have hN0 : (0 : ℝ) < N := by exact_mod_cast (by omega : 0 < N)
  rw [pt, pt, neg_lt_neg_iff]
  have hjN : (j : ℝ) * π / N ≤ π := by
    rw [div_le_iff₀ hN0, mul_comm π]
    exact mul_le_mul_of_nonneg_right (by exact_mod_cast hj) pi_pos.le
  refine cos_lt_cos_of_nonneg_of_le_pi (by positivity) hjN ?_
  refine div_lt_div_of_pos_right (mul_lt_mul_of_pos_right (by exact_mod_cast hij) pi_pos) hN0

theorem pt_nested (N i : Nat) (hN : 1 ≤ N) : pt (2 * N) (2 * i) = pt N i := by
  have hN0 : (N : ℝ) ≠ 0 := by positivity
  rw [pt, pt]; congr 2; push_cast; field_simp

end MParT.ClenshawCurtis
