import Verif.Props.OrthoPoly
import Verif.Lemmas.Linearized
import Mathlib.MeasureTheory.Measure.Haar.NormedSpace
/-!
# C27–C29: Hermite polynomials, Hermite functions, linearised bases
-/
namespace MParT
open Spec OrthoPoly Hermite Real

/-! ## C27 -/

/-- **C27.** `ProbabilistHermite` evaluates the Hermite polynomials of Mathlib (those of the Rodrigues formula
with weight `e^{-x²/2}`), for every order. -/
theorem C27_probabilist (n : Nat) (x : ℝ) :
    (probabilistHermite false).evaluate n x = Polynomial.aeval x (Polynomial.hermite n) := by
  rw [C25_evaluate, polyVal]
  simp only [probabilistHermite, Bool.false_eq_true, if_false, div_one]
  exact probabilist_rec x n

/-- **C27.** `PhysicistHermite` evaluates `2^{n/2} He_n(√2 x)`, for every order. -/
theorem C27_physicist (n : Nat) (x : ℝ) :
    (physicistHermite false).evaluate n x
      = √2 ^ n * Polynomial.aeval (√2 * x) (Polynomial.hermite n) := by
  rw [C25_evaluate, polyVal]
  simp only [physicistHermite, Bool.false_eq_true, if_false, div_one]
  exact physicist_rec x n

/-- **C27.** The probabilist family is orthogonal for the weight `e^{-x²/2}`, with squared norm `√(2π) n!`. -/
theorem C27_probabilist_gram (m n : Nat) :
    ∫ x, (probabilistHermite false).evaluate m x * (probabilistHermite false).evaluate n x * exp (-x ^ 2 / 2)
      = if m = n then √(2 * π) * n.factorial else 0 := by
  rw [← gram m n]
  congr 1
  funext x
  rw [C27_probabilist, C27_probabilist, ← He_eq, ← He_eq]
  rfl

/-- **C27.** The physicist family is orthogonal for the weight `e^{-x²}`, with squared norm `√π 2^n n!`. -/
theorem C27_physicist_gram (m n : Nat) :
    ∫ x, (physicistHermite false).evaluate m x * (physicistHermite false).evaluate n x * exp (-x ^ 2)
      = if m = n then √π * 2 ^ n * n.factorial else 0 := by
  have h2 : √(2 : ℝ) * √2 = 2 := Real.mul_self_sqrt (by norm_num)
  have h0 : (0 : ℝ) < √2 := Real.sqrt_pos.mpr (by norm_num)
  have e : ∀ x, (physicistHermite false).evaluate m x * (physicistHermite false).evaluate n x * exp (-x ^ 2)
      = √2 ^ m * √2 ^ n * (fun y => (hR m).eval y * (hR n).eval y * wt y) (√2 * x) := by
    intro x
    rw [C27_physicist, C27_physicist, show Polynomial.aeval (√2 * x) (Polynomial.hermite m) = He m (√2 * x) from rfl,
      show Polynomial.aeval (√2 * x) (Polynomial.hermite n) = He n (√2 * x) from rfl, He_eq, He_eq]
    simp only [wt]
    rw [show -(√2 * x) ^ 2 / 2 = -x ^ 2 by rw [mul_pow, pow_two (√2), h2]; ring]
    ring
  simp_rw [e]
  rw [MeasureTheory.integral_const_mul, MeasureTheory.Measure.integral_comp_mul_left
    (fun y => (hR m).eval y * (hR n).eval y * wt y), gram]
  by_cases hmn : m = n
  · subst hmn
    rw [if_pos rfl, if_pos rfl, ← mul_pow, h2, abs_of_pos (inv_pos.mpr h0), smul_eq_mul,
      Real.sqrt_mul (by norm_num)]
    field_simp
  · simp [hmn]

/-- `Factorial` is exact up to 12. -/
theorem factorial32_exact {n : Nat} (h : n ≤ 12) : factorial32 n = n.factorial := by
  rw [factorial32_eq]
  apply Nat.mod_eq_of_lt
  calc n.factorial ≤ (12).factorial := Nat.factorial_le h
    _ < 2 ^ 32 := by decide

/-- **C27, partial.** Up to order 12 the normalisation constants are the norms of the two families. -/
theorem C27_normalization_partial (n : Nat) (h : n ≤ 12) (b : Bool) :
    (probabilistHermite b).normalization n ^ 2
      = ∫ x, (probabilistHermite false).evaluate n x ^ 2 * exp (-x ^ 2 / 2) ∧
    (physicistHermite b).normalization n ^ 2
      = ∫ x, (physicistHermite false).evaluate n x ^ 2 * exp (-x ^ 2) := by
  have g1 := C27_probabilist_gram n n
  have g2 := C27_physicist_gram n n
  simp only [← pow_two, if_true] at g1 g2
  rw [g1, g2]
  constructor
  · show √(√(2 * π) * (factorial32 n : ℝ)) ^ 2 = _
    rw [Real.sq_sqrt (by positivity), factorial32_exact h]
  · show √(√π * (2 : ℝ) ^ (n : ℝ) * (factorial32 n : ℝ)) ^ 2 = _
    rw [Real.sq_sqrt (by positivity), factorial32_exact h, Real.rpow_natCast]

/-- **C27, partial.** Up to order 12 the normalised probabilist family is orthonormal for the weight
`e^{-x²/2}`. -/
theorem C27_orthonormal_partial (m n : Nat) (hm : m ≤ 12) (hn : n ≤ 12) :
    ∫ x, (probabilistHermite true).evaluate m x * (probabilistHermite true).evaluate n x * exp (-x ^ 2 / 2)
      = if m = n then 1 else 0 := by
  have pos : ∀ k, k ≤ 12 → (0 : ℝ) < √(√(2 * π) * (factorial32 k : ℝ)) := by
    intro k hk
    apply Real.sqrt_pos.mpr
    have : (0 : ℝ) < factorial32 k := by rw [factorial32_exact hk]; exact_mod_cast k.factorial_pos
    have := Real.sqrt_pos.mpr (show (0 : ℝ) < 2 * π by positivity)
    positivity
  have e : ∀ k x, (probabilistHermite true).evaluate k x
      = (probabilistHermite false).evaluate k x / √(√(2 * π) * (factorial32 k : ℝ)) := by
    intro k x
    rw [C25_evaluate, C25_evaluate, polyVal, polyVal]
    simp [probabilistHermite, probabilistMixer]
  have e2 : ∀ x, (probabilistHermite true).evaluate m x * (probabilistHermite true).evaluate n x * exp (-x ^ 2 / 2)
      = (√(√(2 * π) * (factorial32 m : ℝ)) * √(√(2 * π) * (factorial32 n : ℝ)))⁻¹ *
        ((probabilistHermite false).evaluate m x * (probabilistHermite false).evaluate n x * exp (-x ^ 2 / 2)) := by
    intro x; rw [e, e]
    have := pos m hm
    have := pos n hn
    field_simp
  simp_rw [e2]
  rw [MeasureTheory.integral_const_mul, C27_probabilist_gram]
  by_cases hmn : m = n
  · subst hmn
    rw [if_pos rfl, if_pos rfl, Real.mul_self_sqrt (by positivity), factorial32_exact hm]
    have : (0 : ℝ) < m.factorial := by exact_mod_cast m.factorial_pos
    have := Real.sqrt_pos.mpr (show (0 : ℝ) < 2 * π by positivity)
    field_simp
  · simp [hmn]

/-- **C27 fails** from order 13 on: `Factorial` overflows, so that the normalisation constant is strictly
smaller than the norm; from order 34 on it is zero and normalising divides by zero. -/
theorem C27_fails_from_13 (n : Nat) (h : 13 ≤ n) (b : Bool) :
    (probabilistHermite b).normalization n ^ 2
      < ∫ x, (probabilistHermite false).evaluate n x ^ 2 * exp (-x ^ 2 / 2) := by
  have g1 := C27_probabilist_gram n n
  simp only [← pow_two, if_true] at g1
  rw [g1]
  show √(√(2 * π) * (factorial32 n : ℝ)) ^ 2 < _
  rw [Real.sq_sqrt (by positivity)]
  apply mul_lt_mul_of_pos_left _ (Real.sqrt_pos.mpr (by positivity))
  have h1 : factorial32 n < 2 ^ 32 := by rw [factorial32_eq]; exact Nat.mod_lt _ (by norm_num)
  have h2 : 2 ^ 32 ≤ (13).factorial := by decide
  exact_mod_cast h1.trans_le (h2.trans (Nat.factorial_le h))

/-- **C27 fails** from order 34 on: the normalisation constant is zero, so that normalising divides by zero. -/
theorem C27_fails_from_34 (n : Nat) (h : 34 ≤ n) (b : Bool) :
    (probabilistHermite b).normalization n = 0 ∧ (physicistHermite b).normalization n = 0 := by
  have h0 : factorial32 n = 0 := by
    rw [factorial32_eq]
    have h1 : 2 ^ 32 ∣ (34).factorial := by decide
    exact Nat.mod_eq_zero_of_dvd (h1.trans (Nat.factorial_dvd_factorial h))
  constructor
  · show √(√(2 * π) * (factorial32 n : ℝ)) = 0
    simp [h0]
  · show √(√π * (2 : ℝ) ^ (n : ℝ) * (factorial32 n : ℝ)) = 0
    simp [h0]

/-- Non-vacuity: order five. -/
example (x : ℝ) : (probabilistHermite false).evaluate 5 x = x ^ 5 - 10 * x ^ 3 + 15 * x := by
  rw [C25_evaluate]
  simp [polyVal, probabilistHermite, probabilistMixer, recurrence]
  ring

/-! ## C28 -/

/-- **C28.** The Hermite functions of the specification are twice differentiable. -/
theorem C28_differentiable (n : Nat) : Differentiable ℝ (hermiteFn n) ∧ Differentiable ℝ (deriv (hermiteFn n)) := by
  have e : deriv (hermiteFn n) = fn1 n := funext fun x => (hermiteFn_hasDerivAt n x).deriv
  refine ⟨fun x => (hermiteFn_hasDerivAt n x).differentiableAt, ?_⟩
  rw [e]
  exact fun x => (fn1_hasDerivAt n x).differentiableAt

theorem hermiteFn_deriv (n : Nat) : deriv (hermiteFn n) = fn1 n := funext fun x => (hermiteFn_hasDerivAt n x).deriv

theorem hermiteFn_deriv2 (n : Nat) : deriv (deriv (hermiteFn n)) = fn2 n := by
  rw [hermiteFn_deriv]; exact funext fun x => (fn1_hasDerivAt n x).deriv

/-- **C28.** `EvaluateAll` fills the array with `1, x, ψ_0(x), ψ_1(x), …`, for every maximum order. -/
theorem C28_evaluateAll : FillsVal HermiteFunction.toBasis hermiteFn := evaluateAll_fn

/-- **C28.** `EvaluateDerivatives` returns the same values and their true derivatives. -/
theorem C28_evaluateDerivatives :
    FillsDeriv HermiteFunction.toBasis hermiteFn (fun k => deriv (hermiteFn k)) := by
  simp only [hermiteFn_deriv]
  exact evaluateDerivatives_fn

/-- **C28.** `EvaluateSecondDerivatives` returns the same values and their true first and second derivatives. -/
theorem C28_evaluateSecondDerivatives :
    FillsSecond HermiteFunction.toBasis hermiteFn (fun k => deriv (hermiteFn k))
      (fun k => deriv (deriv (hermiteFn k))) := by
  simp only [hermiteFn_deriv2]
  simp only [hermiteFn_deriv]
  exact evaluateSecondDerivatives_fn

/-- **C28, partial.** Up to order 14 the scalar paths `Evaluate` and `Derivative` agree with the arrays. -/
theorem C28_scalar_partial (n : Nat) (h : n ≤ 14) (x : ℝ) :
    HermiteFunction.evaluate n x = hermiteFn n x ∧
    HasDerivAt (hermiteFn n) (HermiteFunction.derivative n x) x :=
  ⟨evaluate_fn n x h, by rw [derivative_fn n x h]; exact hermiteFn_hasDerivAt n x⟩

/-- **C28 fails** for the scalar path from order 15 on: the scaling uses the overflowing `Factorial`, so that
`Evaluate` differs from `EvaluateAll` at some point. -/
theorem C28_fails_evaluate_from_15 (n : Nat) (h : 15 ≤ n) :
    ∃ x, HermiteFunction.evaluate n x ≠ hermiteFn n x := by
  obtain ⟨k, rfl⟩ : ∃ k, n = k + 2 := ⟨n - 2, by omega⟩
  have hne : hR k ≠ 0 := by
    rw [hR]
    exact ((Polynomial.hermite_monic k).map _).ne_zero
  obtain ⟨y, hy⟩ := Polynomial.exists_eval_ne_zero_of_natDegree_lt_card (hR k) hne
    (by exact (Cardinal.natCast_lt_aleph0 ).trans_le (Cardinal.aleph0_le_mk ℝ))
  have h0 : (0 : ℝ) < √2 := Real.sqrt_pos.mpr (by norm_num)
  refine ⟨y / √2, ?_⟩
  have hH : Hp k (y / √2) ≠ 0 := by
    rw [Hp, show √2 * (y / √2) = y by field_simp, He_eq]
    exact mul_ne_zero (pow_ne_zero _ h0.ne') hy
  have hs : HermiteFunction.scaling k ≠ 1 / Nn k := by
    have hf : factorial32 k < k.factorial := by
      have h1 : factorial32 k < 2 ^ 32 := by rw [factorial32_eq]; exact Nat.mod_lt _ (by norm_num)
      have h2 : 2 ^ 32 ≤ (13).factorial := by decide
      exact h1.trans_le (h2.trans (Nat.factorial_le (by omega)))
    have hpi := Real.sqrt_pos.mpr Real.pi_pos
    have hlt : (2 : ℝ) ^ k * factorial32 k * √π < 2 ^ k * k.factorial * √π := by
      apply mul_lt_mul_of_pos_right _ hpi
      apply mul_lt_mul_of_pos_left _ (by positivity)
      exact_mod_cast hf
    have hp : (0 : ℝ) ≤ 2 ^ k * factorial32 k * √π := by positivity
    rw [HermiteFunction.scaling, Real.rpow_natCast, show (-0.5 : ℝ) = -(1 / 2) by norm_num, Real.rpow_neg hp,
      ← Real.sqrt_eq_rpow, Nn, one_div]
    intro hc
    exact absurd (inv_injective hc) (Real.sqrt_lt_sqrt hp hlt).ne
  rw [HermiteFunction.evaluate, if_neg (by omega), if_neg (by omega), show k + 2 - 2 = k by omega, exp_eq,
    evaluate_polyVal, hermiteFn_add_two, psi, ← physicist_rec]
  rw [← physicist_rec] at hH
  simp only [polyVal, physicistHermite, Bool.false_eq_true, if_false, div_one]
  intro hc
  have he := (Real.exp_pos (-(y / √2) ^ 2 / 2)).ne'
  apply hs
  have : HermiteFunction.scaling k * (exp (-(y / √2) ^ 2 / 2) * recurrence physicistMixer (y / √2) k)
      = 1 / Nn k * (exp (-(y / √2) ^ 2 / 2) * recurrence physicistMixer (y / √2) k) := by
    rw [← mul_assoc, hc]; ring
  exact mul_right_cancel₀ (mul_ne_zero he hH) this

/-- **C28 fails** for `SecondDerivative`: at order 2 (the Gaussian) and `x = 0` it returns `-5`, while the second
derivative is `-ψ_0(0)`, which lies in `(-1, 0)`. -/
theorem C28_fails_secondDerivative :
    HermiteFunction.secondDerivative 2 0 = -5 ∧ -1 < deriv (deriv (hermiteFn 2)) 0 := by
  constructor
  · simp [HermiteFunction.secondDerivative, HermiteFunction.evaluate]; norm_num
  · rw [hermiteFn_deriv2]
    simp only [fn2, psi, Hp_zero]
    have h : 1 < Nn 0 := by
      rw [Nn]
      apply Real.lt_sqrt_of_sq_lt
      have : 1 < √π := Real.lt_sqrt_of_sq_lt (by have := Real.pi_gt_three; linarith)
      simpa using this
    have h' : 1 / Nn 0 < 1 := by rw [div_lt_one (by linarith)]; exact h
    simp
    simpa using h'

/-- Non-vacuity: a buffer of length 5, filled up to order 3. -/
example (x : ℝ) : ∃ o, HermiteFunction.evaluateAll [7, 7, 7, 7, 7] 3 x = .ok o ∧
    o[0]? = some 1 ∧ o[1]? = some x ∧ o[4]? = some 7 := by
  obtain ⟨o, e, h⟩ := C28_evaluateAll [7, 7, 7, 7, 7] 3 x (by simp)
  exact ⟨o, e, h.2.1 0 (by omega), h.2.1 1 (by omega), by simpa using h.2.2 4 (by omega)⟩

/-! ## C29 -/

/-- **C29.** The linear extension of a differentiable function is differentiable, coincides with the function on
`[lb, ub]`, is affine outside, and its derivative is the derivative at the nearest point of `[lb, ub]`; if the
derivative of the function is continuous, so is that of the extension. -/
theorem C29_linearize_C1 {lb ub : ℝ} (h : lb < ub) {f : ℝ → ℝ} (hf : Differentiable ℝ f) :
    (∀ x, lb ≤ x → x ≤ ub → linearize lb ub f x = f x) ∧
    Differentiable ℝ (linearize lb ub f) ∧
    (∀ x, deriv (linearize lb ub f) x = deriv f (max lb (min ub x))) ∧
    (Continuous (deriv f) → Continuous (deriv (linearize lb ub f))) := by
  refine ⟨fun x h1 h2 => ?_, fun x => (Linearized.linearize_hasDerivAt h hf x).differentiableAt, fun x => ?_,
    fun hc => ?_⟩
  · rw [linearize, if_neg (not_lt.mpr h1), if_neg (not_lt.mpr h2)]
  · rw [(Linearized.linearize_hasDerivAt h hf x).deriv, Linearized.clamp_eq h]
  · have : deriv (linearize lb ub f) = fun x => deriv f (max lb (min ub x)) := funext fun x => by
      rw [(Linearized.linearize_hasDerivAt h hf x).deriv, Linearized.clamp_eq h]
    rw [this]
    fun_prop

/-- **C29.** If the underlying basis returns values and true derivatives, so does the linearised basis through
`EvaluateDerivatives`, for its extension. -/
theorem C29_evaluateDerivatives {b : Basis1d} {F : Nat → ℝ → ℝ} (hd : ∀ n, Differentiable ℝ (F n))
    (hF : FillsDeriv b F (fun k => deriv (F k))) {lb ub : ℝ} (h : lb < ub) :
    FillsDeriv (LinearizedBasis.toBasis b lb ub) (fun k => linearize lb ub (F k))
      (fun k => deriv (linearize lb ub (F k))) := by
  intro vals derivs n x lV lD
  obtain ⟨v, d, e, hv, hd'⟩ := Linearized.evaluateDerivatives_lin hF (lb := lb) (ub := ub) vals derivs n x lV lD
  refine ⟨v, d, e, hv, ?_⟩
  simp only [fun k => Linearized.linearize_deriv h (hd k)]
  exact hd'

/-- **C29.** Likewise through `EvaluateSecondDerivatives`; the second derivatives are the true ones at every point
except the two linearisation points, where the extension has none in general. -/
theorem C29_evaluateSecondDerivatives {b : Basis1d} {F : Nat → ℝ → ℝ} (hd : ∀ n, Differentiable ℝ (F n))
    (hd2 : ∀ n, Differentiable ℝ (deriv (F n))) (hF : FillsDeriv b F (fun k => deriv (F k)))
    (hS : FillsSecond b F (fun k => deriv (F k)) (fun k => deriv (deriv (F k)))) {lb ub : ℝ} (h : lb < ub)
    (vals derivs second : List ℝ) (n : Nat) (x : ℝ) (lV : n < vals.length) (lD : n < derivs.length)
    (lS : n < second.length) (h1 : x ≠ lb) (h2 : x ≠ ub) :
    ∃ v d s, (LinearizedBasis.toBasis b lb ub).evaluateSecondDerivatives vals derivs second n x = .ok (v, d, s) ∧
      Filled v vals n (fun k => linearize lb ub (F k) x) ∧
      Filled d derivs n (fun k => deriv (linearize lb ub (F k)) x) ∧
      Filled s second n (fun k => deriv (deriv (linearize lb ub (F k))) x) := by
  obtain ⟨v, d, s, e, hv, hd', hs⟩ :=
    Linearized.evaluateSecond_lin hF hS (lb := lb) (ub := ub) vals derivs second n x lV lD lS
  refine ⟨v, d, s, e, hv, ?_, ?_⟩
  · simp only [fun k => Linearized.linearize_deriv h (hd k)]; exact hd'
  · simp only [fun k => (Linearized.lin2_hasDerivAt h (hd k) (hd2 k) h1 h2).deriv]; exact hs

/-- **C29.** The scalar paths agree with the extension as far as those of the underlying basis are right. -/
theorem C29_scalar {b : Basis1d} {F : Nat → ℝ → ℝ} (n : Nat) (hd : Differentiable ℝ (F n))
    (hd2 : Differentiable ℝ (deriv (F n)))
    (hE : ∀ x, b.evaluate n x = F n x) (hD : ∀ x, b.derivative n x = deriv (F n) x)
    (hS : ∀ x, b.secondDerivative n x = deriv (deriv (F n)) x)
    {lb ub : ℝ} (h : lb < ub) (x : ℝ) :
    (LinearizedBasis.toBasis b lb ub).evaluate n x = linearize lb ub (F n) x ∧
    HasDerivAt (linearize lb ub (F n)) ((LinearizedBasis.toBasis b lb ub).derivative n x) x ∧
    (x ≠ lb → x ≠ ub →
      HasDerivAt (deriv (linearize lb ub (F n))) ((LinearizedBasis.toBasis b lb ub).secondDerivative n x) x) := by
  refine ⟨?_, ?_, fun h1 h2 => ?_⟩
  · simp only [LinearizedBasis.toBasis, LinearizedBasis.evaluate, linearize, hE, hD]
  · have := Linearized.linearize_hasDerivAt h hd x
    refine this.congr_deriv ?_
    simp only [LinearizedBasis.toBasis, LinearizedBasis.derivative, hD, Linearized.clamp, gt_iff_lt]
    split
    · rfl
    · split <;> rfl
  · refine (Linearized.lin2_hasDerivAt h hd hd2 h1 h2).congr_deriv ?_
    simp only [LinearizedBasis.toBasis, LinearizedBasis.secondDerivative, hS, Linearized.lin2]

/-- **C29, partial.** `EvaluateAll` returns the extension for the orders at which the scalar `Derivative` of the
underlying basis is right. The underlying `Derivative` is wrong at order one of a normalised family. -/
theorem C29_evaluateAll_partial {b : Basis1d} {F : Nat → ℝ → ℝ} (hF : FillsVal b F) {lb ub : ℝ}
    (out : List ℝ) (n : Nat) (x : ℝ) (hl : n < out.length)
    (hb : ∀ k, k ≤ n → ∀ c, b.derivative k c = deriv (F k) c) :
    ∃ o, (LinearizedBasis.toBasis b lb ub).evaluateAll out n x = .ok o ∧
      Filled o out n (fun k => linearize lb ub (F k) x) :=
  Linearized.evaluateAll_lin hF out n x hl hb

/-- Non-vacuity: the unnormalised probabilist family meets every hypothesis of the C29 theorems, at all orders. -/
theorem C29_probabilist (lb ub : ℝ) (h : lb < ub) :
    FillsVal (LinearizedBasis.toBasis (probabilistHermite false).toBasis lb ub) (fun k => linearize lb ub (He k)) ∧
    FillsDeriv (LinearizedBasis.toBasis (probabilistHermite false).toBasis lb ub) (fun k => linearize lb ub (He k))
      (fun k => deriv (linearize lb ub (He k))) := by
  have e : ∀ k, polyVal (probabilistHermite false) k = He k := fun k => funext fun x => by
    rw [← C25_evaluate, C27_probabilist]; rfl
  have hd : ∀ k, Differentiable ℝ (He k) := fun k => by
    rw [← e]; exact (C26_differentiable (probabilist_smooth false) k).1
  constructor
  · intro out n x hl
    refine C29_evaluateAll_partial (F := He) (fun out n x hl => ?_) out n x hl (fun k _ c => ?_)
    · obtain ⟨o, e1, h1⟩ := C25_evaluateAll (probabilistHermite false) out n x hl
      exact ⟨o, e1, by simpa only [e] using h1⟩
    · have := C26_derivative_partial (probabilist_smooth false) k c (Or.inl rfl)
      rw [e] at this
      exact this.deriv.symm
  · apply C29_evaluateDerivatives hd _ h
    intro vals derivs n x lV lD
    obtain ⟨v, d, s, _, e1, _, h1, _⟩ := C26_arrays (probabilist_smooth false) vals derivs (List.replicate (n + 1) 0) n x lV lD
      (by simp)
    obtain ⟨v', d', e2, h2⟩ := C25_evaluateDerivatives (probabilistHermite false) vals derivs n x lV lD
    rw [e1] at e2
    simp only [Res.ok.injEq, Prod.mk.injEq] at e2
    obtain ⟨rfl, rfl⟩ := e2
    exact ⟨v, d, e1, by simpa only [e] using h2, by simpa only [e] using h1⟩

/-- **C29.** The linearised Hermite functions: values and derivatives agree on every order. -/
theorem C29_hermiteFunction (lb ub : ℝ) (h : lb < ub) :
    FillsDeriv (LinearizedBasis.toBasis HermiteFunction.toBasis lb ub) (fun k => linearize lb ub (hermiteFn k))
      (fun k => deriv (linearize lb ub (hermiteFn k))) :=
  C29_evaluateDerivatives (fun n => (C28_differentiable n).1) C28_evaluateDerivatives h

/-- What the linearised normalised probabilist basis returns right of the interval. -/
theorem linearized_normalized (lb ub x : ℝ) (h : lb < ub) (hx : ub < x) :
    (LinearizedBasis.toBasis (probabilistHermite true).toBasis lb ub).evaluateAll [0, 0] 1 x
      = .ok [1 / (probabilistHermite true).normalization 0 + 0 * (x - ub), ub / (probabilistHermite true).normalization 1 + 1 * (x - ub)] ∧
    (LinearizedBasis.toBasis (probabilistHermite true).toBasis lb ub).evaluateDerivatives [0, 0] [0, 0] 1 x
      = .ok ([1 / (probabilistHermite true).normalization 0 + 0 / (probabilistHermite true).normalization 0 * (x - ub),
          ub / (probabilistHermite true).normalization 1 + 1 / (probabilistHermite true).normalization 1 * (x - ub)],
        [0 / (probabilistHermite true).normalization 0, 1 / (probabilistHermite true).normalization 1]) ∧
    1 ≠ 1 / (probabilistHermite true).normalization 1 := by
  have n1 : ¬ x < lb := not_lt.mpr (h.trans hx).le
  have h0 : (0 : ℝ) < (probabilistHermite true).normalization 1 := by
    show 0 < √(√(2 * π) * (factorial32 1 : ℝ))
    rw [show factorial32 1 = 1 from rfl]
    simp only [Nat.cast_one, mul_one]
    exact Real.sqrt_pos.mpr (Real.sqrt_pos.mpr (by positivity))
  have hne := normalization_one_ne
  set N := (probabilistHermite true).normalization with hN
  refine ⟨?_, ?_, ?_⟩
  · simp only [LinearizedBasis.toBasis, LinearizedBasis.evaluateAll, if_neg n1, if_pos (show x > ub from hx)]
    simp only [OrthoPoly.toBasis]
    simp [OrthoPoly.evaluateAll, OrthoPoly.init, OrthoPoly.valLoop, finish, normLoop, Res.setIdx, Res.idx,
      LinearizedBasis.allLoop, OrthoPoly.derivative, hN, probabilistHermite, probabilistMixer]
  · simp only [LinearizedBasis.toBasis, LinearizedBasis.evaluateDerivatives, if_neg n1, if_pos (show x > ub from hx)]
    simp only [OrthoPoly.toBasis]
    simp [OrthoPoly.evaluateDerivatives, OrthoPoly.init, OrthoPoly.valDerivLoop, finish, normLoop, Res.setIdx, Res.idx,
      LinearizedBasis.valLoop, hN, probabilistHermite, probabilistMixer, Res.pure_eq]
  · intro hc
    rw [eq_div_iff h0.ne', one_mul] at hc
    exact hne hc

/-- **C29 fails** for normalised families: right of the interval, `EvaluateAll` and `EvaluateDerivatives` of the
linearised normalised probabilist basis return different values of order one. -/
theorem C29_fails_normalized (lb ub x : ℝ) (h : lb < ub) (hx : ub < x) :
    ∃ o v d, (LinearizedBasis.toBasis (probabilistHermite true).toBasis lb ub).evaluateAll [0, 0] 1 x = .ok o ∧
      (LinearizedBasis.toBasis (probabilistHermite true).toBasis lb ub).evaluateDerivatives [0, 0] [0, 0] 1 x
        = .ok (v, d) ∧ o[1]? ≠ v[1]? := by
  obtain ⟨h1, h2, h3⟩ := linearized_normalized lb ub x h hx
  refine ⟨_, _, _, h1, h2, ?_⟩
  simp only [List.getElem?_cons_succ, List.getElem?_cons_zero, ne_eq, Option.some.injEq, add_right_inj]
  exact fun hc => h3 (mul_right_cancel₀ (sub_pos.mpr hx).ne' hc)

end MParT
