import Verif.Model.Bijectors
import Mathlib.Analysis.SpecialFunctions.Log.Deriv
import Mathlib.Analysis.SpecialFunctions.ExpDeriv
import Mathlib.Algebra.BigOperators.Group.Finset.Basic
import Mathlib.Analysis.Calculus.Deriv.Add
import Mathlib.Analysis.Calculus.Deriv.Mul
import Mathlib.Analysis.Calculus.Deriv.Comp
import Mathlib.Analysis.Calculus.Deriv.Inv
import Mathlib.Tactic.FieldSimp
import Mathlib.Tactic.Linarith
import Mathlib.Tactic.Positivity
/-!
# C30, C31: positive bijectors and sigmoids
-/
namespace MParT
open Real

/-! ## C30 -/

/-- Specification of a bijection of `ℝ` onto `(0, ∞)` with its derivatives and its inverse. -/
structure Spec.IsPosBijector (g : PosBijector) : Prop where
  pos : ∀ x, 0 < g.eval x
  increasing : StrictMono g.eval
  deriv : ∀ x, HasDerivAt g.eval (g.deriv x) x
  deriv2 : ∀ x, HasDerivAt g.deriv (g.deriv2 x) x
  left_inv : ∀ x, g.inverse (g.eval x) = x
  right_inv : ∀ y, 0 < y → g.eval (g.inverse y) = y

/-- **C30.** The stable formula of `SoftPlus::Evaluate` is `log(1 + e^x)`, for every real. -/
theorem C30_softPlus_formula (x : ℝ) : softPlus.eval x = log (1 + exp x) := by
  simp only [softPlus]
  rcases le_total 0 x with h | h
  · rw [abs_of_nonneg h, max_eq_left h]
    have e : 1 + exp x = (1 + exp (-1 * x)) * exp x := by
      rw [add_mul, ← exp_add]; simp; ring
    rw [e, log_mul (by positivity) (by positivity), log_exp]
  · rw [abs_of_nonpos h, max_eq_right h, add_zero]
    congr 2
    congr 1
    ring

/-- **C30.** `SoftPlus` is a strictly increasing bijection onto the positive reals, with exact derivatives and a
two-sided inverse. -/
theorem C30_softPlus : Spec.IsPosBijector softPlus := by
  have hd : ∀ x, HasDerivAt softPlus.eval (softPlus.deriv x) x := by
    intro x
    have e : softPlus.eval = fun y => log (1 + exp y) := funext C30_softPlus_formula
    rw [e]
    have h1 : HasDerivAt (fun y => 1 + exp y) (exp x) x := (hasDerivAt_exp x).const_add 1
    refine (h1.log (by positivity)).congr_deriv ?_
    simp only [softPlus]
    rw [show -1 * x = -x by ring, exp_neg]
    have := exp_pos x
    field_simp
    ring
  refine ⟨fun x => ?_, ?_, hd, fun x => ?_, fun x => ?_, fun y hy => ?_⟩
  · rw [C30_softPlus_formula]; exact log_pos (by have := exp_pos x; linarith)
  · apply strictMono_of_deriv_pos
    intro x
    rw [(hd x).deriv]
    simp only [softPlus]
    positivity
  · have h1 : HasDerivAt (fun y : ℝ => 1 + exp (-1 * y)) (-exp (-1 * x)) x := by
      have h0 : HasDerivAt (fun y : ℝ => -1 * y) (-1) x := by simpa using (hasDerivAt_id x).const_mul (-1)
      refine (h0.exp.const_add 1).congr_deriv (by ring)
    have h2 := h1.inv (by positivity)
    have e : softPlus.deriv = fun y => (1 + exp (-1 * y))⁻¹ := by
      funext y; simp [softPlus]
    rw [e]
    refine h2.congr_deriv ?_
    simp only [softPlus]
    rw [show -1 * x = -x by ring, exp_neg]
    have := exp_pos x
    field_simp
    ring
  · rw [C30_softPlus_formula]
    simp only [softPlus]
    rw [exp_log (by positivity), add_sub_cancel_left, log_exp]
    apply min_eq_left
    rw [← log_exp x]
    apply log_le_log (by positivity)
    rw [log_exp]; linarith
  · have h1 : 1 < exp y := by rw [← exp_zero]; exact exp_lt_exp.mpr hy
    rw [C30_softPlus_formula]
    simp only [softPlus]
    rw [min_eq_left (by
      calc log (exp y - 1) ≤ log (exp y) := log_le_log (by linarith) (by linarith)
        _ = y := log_exp y)]
    rw [exp_log (by linarith), add_sub_cancel, log_exp]

/-- **C30.** `Exp` is a strictly increasing bijection onto the positive reals, with exact derivatives and a two-sided
inverse. -/
theorem C30_exp : Spec.IsPosBijector expBij :=
  ⟨exp_pos, exp_strictMono, hasDerivAt_exp, hasDerivAt_exp, log_exp, fun _ hy => exp_log hy⟩

/-- Non-vacuity: a concrete value. -/
example : softPlus.eval 0 = log 2 ∧ softPlus.inverse (log 2) = 0 := by
  have h : softPlus.eval 0 = log 2 := by rw [C30_softPlus_formula, exp_zero]; norm_num
  exact ⟨h, by rw [← h]; exact C30_softPlus.left_inv 0⟩

/-! ## C31 -/

/-- **C31.** `Logistic::Evaluate` is the logistic function. -/
theorem C31_logistic_formula (x : ℝ) : Logistic.evaluate x = 1 / (1 + exp (-x)) := by
  rw [Logistic.evaluate, tanh_eq_sinh_div_cosh, sinh_eq, cosh_eq]
  have h1 := exp_pos (x / 2)
  have h2 : exp (-x) = exp (-(x / 2)) * exp (-(x / 2)) := by rw [← exp_add]; congr 1; ring
  have h3 : exp (-(x / 2)) * exp (x / 2) = 1 := by rw [← exp_add]; simp
  rw [h2, exp_neg]
  field_simp
  norm_num
  ring

/-- **C31.** The logistic function maps into `(0, 1)`, is differentiable with the derivative returned, and
`Inverse` is its inverse on both sides. -/
theorem C31_logistic (x : ℝ) :
    0 < Logistic.evaluate x ∧ Logistic.evaluate x < 1 ∧
    HasDerivAt Logistic.evaluate (Logistic.derivative x) x ∧
    Logistic.inverse (Logistic.evaluate x) = x ∧
    (0 < x → x < 1 → Logistic.evaluate (Logistic.inverse x) = x) := by
  have hp := exp_pos (-x)
  have h1 : Logistic.evaluate x < 1 := by
    rw [C31_logistic_formula, div_lt_one (by positivity)]; linarith
  refine ⟨by rw [C31_logistic_formula]; positivity, h1, ?_, ?_, fun h0 h1 => ?_⟩
  · have e : Logistic.evaluate = fun y => (1 + exp (-y))⁻¹ := by
      funext y; rw [C31_logistic_formula, one_div]
    have hd : HasDerivAt (fun y : ℝ => 1 + exp (-y)) (-exp (-x)) x := by
      refine (((hasDerivAt_id x).fun_neg).exp.const_add 1).congr_deriv ?_
      simp
    simp only [Logistic.derivative]
    rw [C31_logistic_formula x, e]
    refine (hd.inv (by positivity)).congr_deriv ?_
    field_simp
    ring
  · rw [Logistic.inverse, if_neg (not_lt.mpr h1.le), C31_logistic_formula]
    rw [show 1 / (1 + exp (-x)) / (1 - 1 / (1 + exp (-x))) = exp x by
      rw [exp_neg]; have := exp_pos x; field_simp; ring]
    exact log_exp x
  · rw [Logistic.inverse, if_neg (not_lt.mpr h1.le), C31_logistic_formula, exp_neg,
      exp_log (div_pos h0 (by linarith))]
    have : 0 < 1 - x := by linarith
    field_simp
    ring

namespace Sigmoid1d

/-- Specification: `Σ_k c_k σ(w_k (x - m_k))` with the logistic `σ`. -/
noncomputable def _root_.MParT.Spec.sigmoidSum (centers widths c : List ℝ) (x : ℝ) : ℝ :=
  ∑ k ∈ Finset.range widths.length, c.getD k 0 * (1 / (1 + exp (-(widths.getD k 0 * (x - centers.getD k 0)))))

theorem idx_getD {l : List ℝ} {k : Nat} (h : k < l.length) : Res.idx l k = .ok (l.getD k 0) := by
  rw [Res.idx_lt h]; simp [h]

theorem evalLoop_eq (s : Sigmoid1d) (c : List ℝ) (x : ℝ) (n : Nat) : ∀ (k : Nat) (acc : ℝ), k + n ≤ c.length →
    k + n ≤ s.widths.length → k + n ≤ s.centers.length →
    evalLoop s c x acc k n = .ok (acc + ∑ j ∈ Finset.range n, c.getD (k + j) 0 *
      Logistic.evaluate (s.widths.getD (k + j) 0 * (x - s.centers.getD (k + j) 0))) := by
  induction n with
  | zero => intro k acc _ _ _; simp [evalLoop]
  | succ n ih =>
    intro k acc h1 h2 h3
    rw [evalLoop, idx_getD (by omega), Res.bind_ok, idx_getD (by omega), Res.bind_ok, idx_getD (by omega),
      Res.bind_ok, ih _ _ (by omega) (by omega) (by omega), Finset.sum_range_succ', add_assoc]
    congr 2
    rw [Nat.add_zero, add_comm]
    congr 1
    apply Finset.sum_congr rfl
    intro j _
    rw [show k + 1 + j = k + (j + 1) by omega]

theorem gradLoop_eq (s : Sigmoid1d) (c : List ℝ) (x : ℝ) (n : Nat) : ∀ (k : Nat) (acc : ℝ), k + n ≤ c.length →
    k + n ≤ s.widths.length → k + n ≤ s.centers.length →
    gradLoop s c x acc k n = .ok (acc + ∑ j ∈ Finset.range n, c.getD (k + j) 0 * s.widths.getD (k + j) 0 *
      Logistic.derivative (s.widths.getD (k + j) 0 * (x - s.centers.getD (k + j) 0))) := by
  induction n with
  | zero => intro k acc _ _ _; simp [gradLoop]
  | succ n ih =>
    intro k acc h1 h2 h3
    rw [gradLoop, idx_getD (by omega), Res.bind_ok, idx_getD (by omega), Res.bind_ok, idx_getD (by omega),
      Res.bind_ok, ih _ _ (by omega) (by omega) (by omega), Finset.sum_range_succ', add_assoc]
    congr 2
    rw [Nat.add_zero, add_comm]
    congr 1
    apply Finset.sum_congr rfl
    intro j _
    rw [show k + 1 + j = k + (j + 1) by omega]

theorem check_some {s : Sigmoid1d} {c : List ℝ} (hc : s.coeffs = some c) (hl : c.length = s.widths.length) :
    s.check = .ok c := by
  rw [check, numCoeffs]
  by_cases h : s.widths.length = 0
  · rw [if_pos h, List.length_eq_zero_iff.mp (hl.trans h)]
  · rw [if_neg h, hc]; simp [numCoeffs, hl]

theorem mapM_ok {α β : Type} (f : α → Res β) (g : α → β) (l : List α) (h : ∀ a ∈ l, f a = .ok (g a)) :
    l.mapM f = .ok (l.map g) := by
  induction l with
  | nil => rfl
  | cons a l ih =>
    rw [List.mapM_cons, h a (by simp), Res.bind_ok, ih (fun b hb => h b (by simp [hb])), Res.bind_ok]; rfl

/-- **C31.** `Evaluate` returns the weighted sum of sigmoids at every point. -/
theorem C31_evaluate (s : Sigmoid1d) (c pts : List ℝ) (hc : s.coeffs = some c) (hl : c.length = s.widths.length)
    (hm : s.centers.length = s.widths.length) :
    s.evaluate pts = .ok (pts.map (Spec.sigmoidSum s.centers s.widths c)) := by
  rw [evaluate, check_some hc hl, Res.bind_ok]
  apply mapM_ok
  intro x _
  rw [evaluateImpl, evalLoop_eq s c x _ 0 0 (by simp [numCoeffs, hl]) (by simp [numCoeffs])
    (by simp [numCoeffs, hm])]
  simp only [zero_add, Spec.sigmoidSum, numCoeffs, C31_logistic_formula]

/-- The derivative of the weighted sum. -/
theorem sigmoidSum_hasDerivAt (s : Sigmoid1d) (c : List ℝ) (x : ℝ) :
    HasDerivAt (Spec.sigmoidSum s.centers s.widths c) (∑ j ∈ Finset.range s.widths.length,
      c.getD j 0 * s.widths.getD j 0 * Logistic.derivative (s.widths.getD j 0 * (x - s.centers.getD j 0))) x := by
  have e : Spec.sigmoidSum s.centers s.widths c = fun y => ∑ j ∈ Finset.range s.widths.length,
      c.getD j 0 * Logistic.evaluate (s.widths.getD j 0 * (y - s.centers.getD j 0)) := by
    funext y; simp only [Spec.sigmoidSum, C31_logistic_formula]
  rw [e]
  apply HasDerivAt.fun_sum
  intro j _
  have h0 : HasDerivAt (fun y => s.widths.getD j 0 * (y - s.centers.getD j 0)) (s.widths.getD j 0) x := by
    simpa using ((hasDerivAt_id x).sub_const (s.centers.getD j 0)).const_mul (s.widths.getD j 0)
  have h1 := ((C31_logistic (s.widths.getD j 0 * (x - s.centers.getD j 0))).2.2.1.comp x h0).const_mul (c.getD j 0)
  refine h1.congr_deriv ?_
  ring

/-- **C31, partial.** `GradientImpl` and `CoeffGradImpl` return the exact vector-Jacobian products *of their own
parameter order* `(sens, pts)`; the public entry points pass `(pts, sens)`, see `C31_fails_gradient`. -/
theorem C31_gradientImpl_partial (s : Sigmoid1d) (c : List ℝ) (sens x : ℝ) (hl : c.length = s.widths.length)
    (hm : s.centers.length = s.widths.length) :
    ∃ d, HasDerivAt (Spec.sigmoidSum s.centers s.widths c) d x ∧ gradientImpl s c sens x = .ok (sens * d) := by
  refine ⟨_, sigmoidSum_hasDerivAt s c x, ?_⟩
  rw [gradientImpl, gradLoop_eq s c x _ 0 0 (by simp [numCoeffs, hl]) (by simp [numCoeffs])
    (by simp [numCoeffs, hm]), Res.bind_ok]
  simp only [zero_add, numCoeffs]
  rfl

theorem C31_coeffGradImpl_partial (s : Sigmoid1d) (c : List ℝ) (sens x : ℝ) (hl : c.length = s.widths.length)
    (hm : s.centers.length = s.widths.length) :
    ∃ g, coeffGradImpl s sens x = .ok g ∧ g.length = s.widths.length ∧
      ∀ k, (hk : k < g.length) →
        ∃ d, HasDerivAt (fun v => Spec.sigmoidSum s.centers s.widths (c.set k v) x) d (c.getD k 0) ∧
          g[k] = sens * d := by
  have h : ∀ k ∈ List.range s.numCoeffs, coeffEntry s sens x k
      = .ok (sens * Logistic.evaluate (s.widths.getD k 0 * (x - s.centers.getD k 0))) := by
    intro k hk
    have hk' : k < s.widths.length := List.mem_range.mp hk
    rw [coeffEntry, idx_getD hk', Res.bind_ok, idx_getD (by omega), Res.bind_ok]; rfl
  refine ⟨_, mapM_ok _ _ _ h, by simp [numCoeffs], fun k hk => ?_⟩
  have hk' : k < s.widths.length := by simpa [numCoeffs] using hk
  refine ⟨Logistic.evaluate (s.widths.getD k 0 * (x - s.centers.getD k 0)), ?_, by simp⟩
  have e : (fun v => Spec.sigmoidSum s.centers s.widths (c.set k v) x) = fun v =>
      v * Logistic.evaluate (s.widths.getD k 0 * (x - s.centers.getD k 0)) +
      ∑ j ∈ (Finset.range s.widths.length).erase k, c.getD j 0 *
        Logistic.evaluate (s.widths.getD j 0 * (x - s.centers.getD j 0)) := by
    funext v
    simp only [Spec.sigmoidSum, ← C31_logistic_formula]
    rw [← Finset.add_sum_erase _ _ (Finset.mem_range.mpr hk')]
    congr 1
    · congr 1
      simp [show k < c.length by omega]
    · apply Finset.sum_congr rfl
      intro j hj
      congr 1
      have : k ≠ j := fun e => (Finset.mem_erase.mp hj).1 e.symm
      simp [List.getElem?_set_ne this]
  rw [e]
  simpa using ((hasDerivAt_id (c.getD k 0)).mul_const
    (Logistic.evaluate (s.widths.getD k 0 * (x - s.centers.getD k 0)))).add_const
    (∑ j ∈ (Finset.range s.widths.length).erase k, c.getD j 0 *
        Logistic.evaluate (s.widths.getD j 0 * (x - s.centers.getD j 0)))

theorem logistic_zero : Logistic.evaluate 0 = 1 / 2 := by
  rw [C31_logistic_formula]; norm_num

/-- **C31 fails**: through the public interface the point and the sensitivity are exchanged. For one logistic with
unit parameters, `Gradient(pts = 1, sens = 0)` is `1/4` and `CoeffGrad(pts = 1, sens = 0)` is `1/2`; both
vector-Jacobian products are zero because the sensitivity is zero. -/
theorem C31_fails_gradient :
    gradient ⟨[0], [1], some [1]⟩ [1] [0] = .ok [1 / 4] ∧ coeffGrad ⟨[0], [1], some [1]⟩ [1] [0] = .ok [[1 / 2]] := by
  constructor
  · simp [gradient, check, numCoeffs, gradientImpl, gradLoop, Res.idx, Logistic.derivative, logistic_zero, Res.pure_eq]
    norm_num
  · simp [coeffGrad, check, numCoeffs, coeffGradImpl, coeffEntry, Res.idx, logistic_zero, Res.pure_eq]

/-- The exchange in general: the public gradient is the implementation's with its two arguments swapped. -/
theorem C31_gradient_exchanged (s : Sigmoid1d) (c pts sens : List ℝ) (hc : s.coeffs = some c)
    (hl : c.length = s.widths.length) (hm : s.centers.length = s.widths.length) :
    s.gradient pts sens = .ok ((List.zip pts sens).map fun q =>
      q.1 * deriv (Spec.sigmoidSum s.centers s.widths c) q.2) := by
  rw [gradient, check_some hc hl, Res.bind_ok]
  apply mapM_ok
  intro q _
  obtain ⟨d, hd, e⟩ := C31_gradientImpl_partial s c q.1 q.2 hl hm
  rw [e, hd.deriv]

/-- **C31.** The constructor accepts centers and widths exactly when there are as many of one as of the other. -/
theorem C31_new (centers widths : List ℝ) :
    (centers.length = widths.length → new centers widths = .ok ⟨centers, widths, none⟩) ∧
    (centers.length ≠ widths.length → new centers widths = .throw) :=
  ⟨fun h => if_neg (not_not.mpr h), fun h => if_pos h⟩

/-- **C31.** When the coefficients have not been set, or their number is not the number of sigmoids, all three public
functions throw. -/
theorem C31_rejects (s : Sigmoid1d) (h0 : s.widths ≠ []) (hc : ∀ c, s.coeffs = some c → c.length ≠ s.widths.length)
    (pts sens : List ℝ) : s.evaluate pts = .throw ∧ s.gradient pts sens = .throw ∧ s.coeffGrad pts sens = .throw := by
  have h : s.check = .throw := by
    rw [check, if_neg (by rw [numCoeffs]; exact mt List.length_eq_zero_iff.mp h0)]
    cases hs : s.coeffs with
    | none => rfl
    | some c => exact if_pos (hc c hs)
  rw [evaluate, gradient, coeffGrad, h]
  exact ⟨rfl, rfl, rfl⟩

example : (⟨[0, 1], [1, 2], none⟩ : Sigmoid1d).evaluate [0] = .throw :=
  (C31_rejects ⟨[0, 1], [1, 2], none⟩ (by simp) (fun c h => by cases h) [0] []).1

/-- Non-vacuity: two sigmoids. -/
example : (⟨[0, 1], [1, 2], some [3, 5]⟩ : Sigmoid1d).evaluate [0] = .ok [Spec.sigmoidSum [0, 1] [1, 2] [3, 5] 0] :=
  C31_evaluate ⟨[0, 1], [1, 2], some [3, 5]⟩ [3, 5] [0] rfl rfl rfl

end Sigmoid1d
end MParT
