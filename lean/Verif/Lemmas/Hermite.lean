import Verif.Lemmas.OrthoPoly
import Mathlib.Analysis.SpecialFunctions.Gaussian.GaussianIntegral
import Mathlib.MeasureTheory.Integral.IntegralEqImproper
import Mathlib.Analysis.Calculus.Deriv.Polynomial
import Mathlib.Tactic.NormNum
import Mathlib.Tactic.Linarith
/-! Helper lemmas for Hermite polynomials and functions. -/
namespace MParT.Hermite
open Spec Polynomial

/-- Real Hermite polynomial. -/
noncomputable def hR (n : Nat) : ℝ[X] := (hermite n).map (Int.castRingHom ℝ)

theorem hR_zero : hR 0 = 1 := by simp [hR]

theorem hR_succ (n : Nat) : hR (n + 1) = X * hR n - derivative (hR n) := by
  rw [hR, hermite_succ, Polynomial.map_sub, Polynomial.map_mul, map_X, ← derivative_map, hR]

theorem hR_deriv : ∀ n : Nat, derivative (hR (n + 1)) = C ((n : ℝ) + 1) * hR n
  | 0 => by simp [hR_succ, hR_zero]
  | n + 1 => by
    have ih := hR_deriv n
    rw [hR_succ (n + 1), ih, derivative_sub, derivative_mul, derivative_X, derivative_mul, derivative_C, ih,
      hR_succ n]
    push_cast
    simp only [C_add, C_1]
    ring

theorem hR_rec (n : Nat) : hR (n + 2) = X * hR (n + 1) - C ((n : ℝ) + 1) * hR n := by
  rw [hR_succ (n + 1), hR_deriv]

theorem He_eq (n : Nat) (x : ℝ) : He n x = (hR n).eval x := by
  rw [He, hR, eval_map, aeval_def]
  rfl

theorem He_zero (x : ℝ) : He 0 x = 1 := by simp [He_eq, hR_zero]
theorem He_one (x : ℝ) : He 1 x = x := by simp [He_eq, hR_succ, hR_zero]
theorem He_rec (n : Nat) (x : ℝ) : He (n + 2) x = x * He (n + 1) x - ((n : ℝ) + 1) * He n x := by
  simp [He_eq, hR_rec]

theorem He_hasDerivAt (n : Nat) (x : ℝ) : HasDerivAt (He (n + 1)) (((n : ℝ) + 1) * He n x) x := by
  have h := (hR (n + 1)).hasDerivAt x
  rw [hR_deriv] at h
  have e : He (n + 1) = fun y => (hR (n + 1)).eval y := funext fun y => He_eq _ _
  rw [e, He_eq]
  simpa using h

theorem probabilist_rec (x : ℝ) : ∀ n, recurrence probabilistMixer x n = He n x
  | 0 => by rw [He_zero]; rfl
  | 1 => by rw [He_one]; rfl
  | n + 2 => by
    rw [recurrence, probabilist_rec x n, probabilist_rec x (n + 1), He_rec]
    simp only [probabilistMixer]
    push_cast
    ring

theorem physicist_rec (x : ℝ) : ∀ n, recurrence physicistMixer x n = Hp n x
  | 0 => by rw [Hp, He_zero]; simp [recurrence, physicistMixer]
  | 1 => by
    rw [Hp, He_one, pow_one, ← mul_assoc, Real.mul_self_sqrt (by norm_num)]
    rfl
  | n + 2 => by
    rw [recurrence, physicist_rec x n, physicist_rec x (n + 1), Hp, Hp, Hp, He_rec]
    simp only [physicistMixer]
    have h2 : √(2 : ℝ) * √2 = 2 := Real.mul_self_sqrt (by norm_num)
    push_cast
    have h3 : √(2 : ℝ) ^ (n + 2) = √2 ^ n * 2 := by rw [pow_add, pow_two, h2]
    rw [h3, pow_succ]
    ring

/-! ### Gaussian integrals -/
open MeasureTheory Real

/-- The standard Gaussian weight. -/
noncomputable def wt (x : ℝ) : ℝ := exp (-x ^ 2 / 2)

theorem wt_eq (x : ℝ) : wt x = exp (-(1 / 2) * x ^ 2) := by rw [wt]; ring_nf

theorem wt_hasDerivAt (x : ℝ) : HasDerivAt wt (-x * wt x) x := by
  have h : HasDerivAt (fun y : ℝ => -y ^ 2 / 2) (-x) x := by
    have := ((hasDerivAt_pow 2 x).neg).div_const 2
    refine this.congr_deriv ?_
    simp; ring
  have := h.exp
  rw [show wt = fun y => exp (-y ^ 2 / 2) from rfl]
  refine this.congr_deriv ?_
  simp only [wt]; ring

theorem integrable_poly (P : ℝ[X]) : Integrable (fun x => P.eval x * wt x) := by
  induction P using Polynomial.induction_on' with
  | add p q hp hq =>
    refine (hp.add hq).congr ?_
    filter_upwards with x
    simp [add_mul]
  | monomial n a =>
    have := (integrable_rpow_mul_exp_neg_mul_sq (b := 1 / 2) (by norm_num) (s := n)
      (by have : (0 : ℝ) ≤ n := Nat.cast_nonneg n; linarith)).const_mul a
    refine this.congr ?_
    filter_upwards with x
    rw [eval_monomial, wt_eq, rpow_natCast]; ring

theorem ibp (P : ℝ[X]) (n : Nat) :
    ∫ x, P.eval x * (hR (n + 1)).eval x * wt x = ∫ x, (derivative P).eval x * (hR n).eval x * wt x := by
  have hv : ∀ x, HasDerivAt (fun y => (hR n).eval y * wt y) (-((hR (n + 1)).eval x * wt x)) x := by
    intro x
    refine (((hR n).hasDerivAt x).fun_mul (wt_hasDerivAt x)).congr_deriv ?_
    rw [hR_succ]; simp; ring
  have h1 : Integrable ((fun x => P.eval x) * fun x => -((hR (n + 1)).eval x * wt x)) := by
    refine (integrable_poly (P * hR (n + 1))).neg.congr ?_
    filter_upwards with x
    simp; ring
  have h2 : Integrable ((fun x => (derivative P).eval x) * fun x => (hR n).eval x * wt x) := by
    refine (integrable_poly (derivative P * hR n)).congr ?_
    filter_upwards with x
    simp; ring
  have h3 : Integrable ((fun x => P.eval x) * fun x => (hR n).eval x * wt x) := by
    refine (integrable_poly (P * hR n)).congr ?_
    filter_upwards with x
    simp; ring
  have := integral_mul_deriv_eq_deriv_mul_of_integrable (fun x _ => P.hasDerivAt x) (fun x _ => hv x) h1 h2 h3
  have e1 : ∫ x, P.eval x * (hR (n + 1)).eval x * wt x
      = -∫ x, P.eval x * -((hR (n + 1)).eval x * wt x) := by
    rw [← integral_neg]; congr 1; funext x; ring
  rw [e1, this, neg_neg]
  congr 1; funext x; ring

theorem integral_wt : ∫ x, wt x = √(2 * π) := by
  have := integral_gaussian (1 / 2)
  rw [show π / (1 / 2) = 2 * π by ring] at this
  rw [← this]
  congr 1; funext x; exact wt_eq x

theorem gram : ∀ m n : Nat, ∫ x, (hR m).eval x * (hR n).eval x * wt x
    = if m = n then √(2 * π) * n.factorial else 0
  | 0, 0 => by simp [hR_zero, integral_wt]
  | m, n + 1 => by
    rw [ibp]
    cases m with
    | zero => simp [hR_zero]
    | succ m =>
      have h := gram m n
      have e : ∀ x, (derivative (hR (m + 1))).eval x * (hR n).eval x * wt x
          = ((m : ℝ) + 1) * ((hR m).eval x * (hR n).eval x * wt x) := by
        intro x; rw [hR_deriv]; simp; ring
      simp_rw [e]
      rw [integral_const_mul, h]
      by_cases hmn : m = n
      · subst hmn; simp [Nat.factorial_succ]; ring
      · simp [hmn]
  | m + 1, 0 => by
    have h := ibp 1 m
    simp only [eval_one, one_mul, derivative_one, eval_zero, zero_mul, integral_zero] at h
    simp [hR_zero, h]

/-! ### `Factorial` -/

theorem factorialLoop_eq (n : Nat) : ∀ out i, out < 2 ^ 32 →
    factorialLoop out i n = out * (i.ascFactorial n) % 2 ^ 32 := by
  induction n with
  | zero => intro out i h; rw [factorialLoop, Nat.ascFactorial_zero, mul_one, Nat.mod_eq_of_lt h]
  | succ n ih =>
    intro out i h
    rw [factorialLoop, ih _ _ (Nat.mod_lt _ (by norm_num)), Nat.mod_mul_mod, Nat.ascFactorial_succ,
      ← Nat.succ_ascFactorial, mul_assoc]

theorem factorial32_eq (d : Nat) : factorial32 d = d.factorial % 2 ^ 32 := by
  rw [factorial32, factorialLoop_eq _ _ _ (by norm_num)]
  rcases d with _ | d
  · rfl
  · congr 1
    have := Nat.factorial_mul_ascFactorial 1 d
    rw [Nat.factorial_one] at this
    simpa [Nat.add_comm] using this

end MParT.Hermite
