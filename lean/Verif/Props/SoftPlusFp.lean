import Verif.Model.SoftPlusFp
import Verif.Props.Rounding
import Verif.Props.Bijectors
import Mathlib.Analysis.Complex.ExponentialBounds
/-!
# C129: softplus in floating point
-/
namespace MParT.SoftPlusFp
open Spec Real

variable {u : ℝ} {fl : ℝ → ℝ}

theorem fl_lower (hfl : RelError u fl) {y : ℝ} (hy : 0 ≤ y) : (1 - u) * y ≤ fl y := by
  have := (abs_le.mp (hfl.bound y)).1
  rw [abs_of_nonneg hy] at this
  linarith

theorem fl_upper (hfl : RelError u fl) {y : ℝ} (hy : 0 ≤ y) : fl y ≤ (1 + u) * y := by
  have := (abs_le.mp (hfl.bound y)).2
  rw [abs_of_nonneg hy] at this
  linarith

theorem fl_pos (hfl : RelError u fl) (hu : u < 1) {y : ℝ} (hy : 0 < y) : 0 < fl y :=
  lt_of_lt_of_le (mul_pos (by linarith) hy) (fl_lower hfl hy.le)

theorem fl_neg (hfl : RelError u fl) (hu : u < 1) {y : ℝ} (hy : y < 0) : fl y < 0 := by
  have := (abs_le.mp (hfl.bound y)).2
  rw [abs_of_neg hy] at this
  nlinarith

theorem fl_zero (hfl : RelError u fl) : fl 0 = 0 := by
  have := hfl.bound 0
  simpa using this

/-- The part of `Evaluate` that can be lost: positive as long as `exp(-|x|)` is not lost in the sum with `1`. -/
theorem log_part_pos (hfl : RelError u fl) (hu : u < 1) {x : ℝ} (h : u < (1 - u) ^ 2 * exp (-|x|)) :
    0 < fl (log (fl (1 + fl (exp (-1 * |x|))))) := by
  apply fl_pos hfl hu
  apply log_pos
  rw [show -1 * |x| = -|x| by ring]
  have he := exp_pos (-|x|)
  have h1 := fl_lower hfl he.le
  have h0 := fl_pos hfl hu he
  have h2 := fl_lower hfl (show 0 ≤ 1 + fl (exp (-|x|)) by linarith)
  have h3 : (1 - u) * ((1 - u) * exp (-|x|)) ≤ (1 - u) * fl (exp (-|x|)) := mul_le_mul_of_nonneg_left h1 (by linarith)
  nlinarith

/-- **C129, partial.** `Evaluate` is positive for every positive argument, and for negative ones as long as `exp(x)` is more than about the
relative error of one operation. Missing because false of the code: all other arguments, see `C129_fails_positive`. -/
theorem C129_positive_partial (hfl : RelError u fl) (hu : u ≤ 1 / 16) {x : ℝ} (h : 0 ≤ x ∨ u < (1 - u) ^ 2 * exp x) :
    0 < evaluate fl x := by
  have hu0 := hfl.nonneg
  apply fl_pos hfl (by linarith)
  by_cases hs : u < (1 - u) ^ 2 * exp (-|x|)
  · have := log_part_pos hfl (by linarith) hs
    have := le_max_right x 0
    linarith
  · have hx : 0 ≤ x := by
      by_contra hx
      rw [abs_of_neg (by linarith), neg_neg] at hs
      rcases h with h | h
      · exact hx h
      · exact hs h
    rw [abs_of_nonneg hx] at hs
    have h1 : 1 ≤ x := by
      by_contra h1
      apply hs
      have he : exp (-1) ≤ exp (-x) := exp_le_exp.mpr (by linarith)
      have := exp_neg_one_gt_d9
      have h3 : (1 - u) ^ 2 ≥ 1 / 2 := by nlinarith
      nlinarith [mul_le_mul h3 (show (0.36 : ℝ) ≤ exp (-x) by linarith) (by norm_num) (by positivity)]
    rw [max_eq_left hx]
    set v := fl (1 + fl (exp (-1 * |x|))) with hv
    have he := fl_pos hfl (by linarith) (exp_pos (-1 * |x|))
    have hv1 : 1 / 2 ≤ v := by
      have := fl_lower hfl (show 0 ≤ 1 + fl (exp (-1 * |x|)) by linarith)
      nlinarith
    have hl : -log 2 ≤ log v := by
      rw [← log_inv]
      exact log_le_log (by norm_num) (by linarith)
    have hl2 := log_two_lt_d9
    rcases le_total 0 (log v) with hp | hp
    · have := fl_lower hfl hp
      have : 0 ≤ (1 - u) * log v := mul_nonneg (by linarith) hp
      linarith
    · have := (abs_le.mp (hfl.bound (log v))).1
      rw [abs_of_nonpos hp] at this
      nlinarith

/-- **C129.** The absolute error of `Evaluate` is at most that of five roundings of `1` and one of the result, for every argument. -/
theorem C129_accuracy (hfl : RelError u fl) (hu : u ≤ 1 / 16) (x : ℝ) : |evaluate fl x - log (1 + exp x)| ≤ u * (5 + max x 0) := by
  rw [← C30_softPlus_formula]
  simp only [softPlus, evaluate]
  have hu0 := hfl.nonneg
  have he := exp_pos (-1 * |x|)
  have he1 : exp (-1 * |x|) ≤ 1 := exp_le_one_iff.mpr (by have := abs_nonneg x; linarith)
  have hm := le_max_right x 0
  generalize max x 0 = m at hm ⊢
  generalize exp (-1 * |x|) = e at he he1 ⊢
  have ha := abs_le.mp (hfl.bound e)
  rw [abs_of_pos he] at ha
  generalize fl e = a at ha ⊢
  have ha0 : 0 ≤ a := by nlinarith
  have hv := abs_le.mp (hfl.bound (1 + a))
  rw [abs_of_nonneg (by linarith)] at hv
  generalize fl (1 + a) = v at hv ⊢
  have h1 : (1 - 2 * u) * (1 + e) ≤ v := by nlinarith
  have h2 : v ≤ (1 + 2 * u) * (1 + e) := by nlinarith
  have hv0 : 0 < v := lt_of_lt_of_le (by apply mul_pos <;> linarith) h1
  have hw : log (1 + e) ≤ log 2 := log_le_log (by linarith) (by linarith)
  have hw0 : 0 ≤ log (1 + e) := log_nonneg (by linarith)
  have hl2 := log_two_lt_d9
  have h3 : log v ≤ log (1 + e) + 2 * u := by
    have := log_le_log hv0 h2
    rw [log_mul (by linarith) (by linarith)] at this
    have h := log_le_sub_one_of_pos (show 0 < 1 + 2 * u by linarith)
    linarith
  have h4 : log (1 + e) - 3 * u ≤ log v := by
    have := log_le_log (by apply mul_pos <;> linarith) h1
    rw [log_mul (by linarith) (by linarith)] at this
    have h := one_sub_inv_le_log_of_pos (show 0 < 1 - 2 * u by linarith)
    have h5 : (1 - 2 * u)⁻¹ ≤ 1 + 3 * u := by
      rw [inv_le_iff_one_le_mul₀ (by linarith)]
      nlinarith
    linarith
  generalize log v = L at h3 h4 ⊢
  generalize log (1 + e) = w at hw hw0 h3 h4 ⊢
  have hL := abs_le.mp (hfl.bound L)
  have hL1 : |L| ≤ 1 := abs_le.mpr ⟨by linarith, by linarith⟩
  have hL2 : u * |L| ≤ u := by nlinarith
  generalize fl L = l at hL ⊢
  have hS := abs_le.mp (hfl.bound (l + m))
  have hS1 : |l + m| ≤ 1 + m := abs_le.mpr ⟨by linarith, by linarith⟩
  have hS2 : u * |l + m| ≤ u * (1 + m) := mul_le_mul_of_nonneg_left hS1 hu0
  rw [abs_le]
  constructor <;> nlinarith

theorem nearest_one_add {e : ℝ} (h0 : 0 ≤ e) (h1 : e < 2 ^ (-53 : ℤ)) : nearest 53 (1 + e) = 1 := by
  norm_num at h1
  rw [Parallel.nearest_int (e := 0) (k := 2 ^ 52)]
  · norm_num
  · rw [abs_of_nonneg (by linarith)]; norm_num; linarith
  · rw [abs_of_nonneg (by linarith)]; norm_num; linarith
  · norm_num
    rw [abs_lt]
    constructor <;> linarith

/-- **C129 fails**: in double precision `Evaluate` is zero, not positive, for every argument up to `-38`. A map with softplus is constant, and its
log-determinant minus infinity, where the derivative of the expansion is so small. -/
theorem C129_fails_positive {x : ℝ} (hx : x ≤ -38) : evaluate (nearest 53) x = 0 := by
  have hz := fl_zero C103_double
  have he : exp (-1 * |x|) ≤ exp (-38) := exp_le_exp.mpr (by rw [abs_of_neg (by linarith)]; linarith)
  have h38 : exp (-38) < 2 ^ (-54 : ℤ) := by
    have h1 := exp_neg_one_lt_d9
    have : exp (-38) = exp (-1) ^ 38 := by rw [← exp_nat_mul]; norm_num
    rw [this]
    calc exp (-1) ^ 38 < 0.3678794412 ^ 38 := pow_lt_pow_left₀ h1 (exp_pos _).le (by norm_num)
      _ < _ := by norm_num
  have hp := exp_pos (-1 * |x|)
  have hlo := fl_pos C103_double (by norm_num) hp
  have hup := fl_upper C103_double hp.le
  have : nearest 53 (exp (-1 * |x|)) < 2 ^ (-53 : ℤ) := by
    have hlt := he.trans_lt h38
    norm_num at hlt hup ⊢
    linarith
  rw [evaluate, nearest_one_add hlo.le this, log_one, hz, max_eq_right (by linarith), add_zero, hz]

/-- **C129, partial.** `Inverse` of a number that is more than about the relative error of one operation is a finite number, not above it.
Missing because false of the code: smaller positive numbers (`C129_fails_small`). -/
theorem C129_inverse_partial (hfl : RelError u fl) (h0 : 0 < u) (hu : u < 1 / 2) (top : ℝ) {y : ℝ} (hy : 2 * u ≤ y) :
    ∃ z, inverse fl top y = .fin z ∧ z ≤ y := by
  unfold inverse Double.exp
  split
  · exact ⟨y, rfl, le_rfl⟩
  · have h1 := add_one_le_exp y
    have h2 := fl_lower hfl (exp_pos y).le
    have h3 : 1 < fl (exp y) := by nlinarith
    have h4 := fl_pos hfl (by linarith) (show 0 < fl (exp y) - 1 by linarith)
    refine ⟨min (fl (log (fl (fl (exp y) - 1)))) y, ?_, min_le_right _ _⟩
    simp only [Double.subOne, Double.log, Double.fmin, if_neg (not_lt.mpr h4.le), if_neg h4.ne']

/-- **C129.** When `exp` overflows, `Inverse` returns its argument, which is the exact inverse up to `2 exp(-y)`. -/
theorem C129_overflow {top y : ℝ} (hy : 1 ≤ y) (ho : top < fl (exp y)) :
    inverse fl top y = .fin y ∧ 0 ≤ y - softPlus.inverse y ∧ y - softPlus.inverse y ≤ 2 * exp (-y) := by
  refine ⟨by simp only [inverse, Double.exp, if_pos ho, Double.subOne, Double.log, Double.fmin], ?_, ?_⟩
  · simp only [softPlus]
    have := min_le_right (log (exp y - 1)) y
    linarith
  · have hey := exp_pos y
    have h1 : exp (-y) ≤ 1 / 2 := by
      have h2 := add_one_le_exp y
      rw [exp_neg, inv_le_comm₀ hey (by norm_num)]
      norm_num
      linarith
    have e : log (exp y - 1) = y + log (1 - exp (-y)) := by
      rw [show exp y - 1 = exp y * (1 - exp (-y)) by rw [mul_sub, mul_one, ← exp_add]; simp,
        log_mul hey.ne' (by linarith), log_exp]
    have h3 : -(2 * exp (-y)) ≤ log (1 - exp (-y)) := by
      have hp : 0 < 1 - exp (-y) := by linarith
      have := one_sub_inv_le_log_of_pos hp
      have h4 : (1 - exp (-y))⁻¹ ≤ 1 + 2 * exp (-y) := by
        rw [inv_le_iff_one_le_mul₀ hp]
        nlinarith [exp_pos (-y)]
      linarith
    simp only [softPlus]
    rcases min_choice (log (exp y - 1)) y with h | h <;> rw [h]
    · rw [e]; linarith
    · have := exp_pos (-y); linarith

/-- **C129 fails**: in double precision `Inverse` of a positive number up to `2⁻⁵⁴` is minus infinity. The exact inverse is about the logarithm
of the number. -/
theorem C129_fails_small {top y : ℝ} (ht : 1 ≤ top) (h0 : 0 < y) (hy : y ≤ 2 ^ (-54 : ℤ)) : inverse (nearest 53) top y = .ninf := by
  have h1 := add_one_le_exp y
  have h2 : exp y - 1 < 2 ^ (-53 : ℤ) := by
    norm_num at hy ⊢
    have h3 : (1 - y) * exp y ≤ 1 := by
      have := add_one_le_exp (-y)
      have h4 : exp (-y) * exp y = 1 := by rw [← exp_add]; simp
      nlinarith [exp_pos y]
    nlinarith
  have e : nearest 53 (exp y) = 1 := by
    have := nearest_one_add (e := exp y - 1) (by linarith) h2
    rwa [add_sub_cancel] at this
  simp [inverse, Double.exp, e, not_lt.mpr ht, Double.subOne, Double.log, Double.fmin, fl_zero C103_double]

/-- **C129 fails**: `Inverse` of a negative number, which is not a value of softplus, is that number, not NaN. -/
theorem C129_fails_negative (hfl : RelError u fl) (hu : u ≤ 1 / 2) {top y : ℝ} (ht : 1 ≤ top) (hy : y ≤ -1) :
    inverse fl top y = .fin y := by
  have h1 : exp y ≤ exp (-1) := exp_le_exp.mpr hy
  have h2 := exp_neg_one_lt_d9
  have h3 := fl_upper hfl (exp_pos y).le
  have h4 : fl (exp y) < 1 := by nlinarith [exp_pos y]
  have h5 := fl_neg hfl (by linarith) (show fl (exp y) - 1 < 0 by linarith)
  simp only [inverse, Double.exp, if_neg (show ¬ top < fl (exp y) by linarith), Double.subOne, Double.log, if_pos h5, Double.fmin]

/-- Non-vacuous: double precision, `-30` and `2⁻⁵⁰`. -/
example : 0 < evaluate (nearest 53) (-30) ∧ ∃ z, inverse (nearest 53) (2 ^ 1024) (2 ^ (-50 : ℤ)) = .fin z ∧ z ≤ 2 ^ (-50 : ℤ) := by
  refine ⟨C129_positive_partial C103_double (by norm_num) (.inr ?_), C129_inverse_partial C103_double (by norm_num) (by norm_num) _ (by norm_num)⟩
  have h1 := exp_neg_one_gt_d9
  have : exp (-30) = exp (-1) ^ 30 := by rw [← exp_nat_mul]; norm_num
  rw [this]
  have h2 : (0.36 : ℝ) ^ 30 < exp (-1) ^ 30 := pow_lt_pow_left₀ (by linarith) (by norm_num) (by norm_num)
  calc (2 : ℝ) ^ (-53 : ℤ) < (1 - 2 ^ (-53 : ℤ)) ^ 2 * 0.36 ^ 30 := by norm_num
    _ < _ := by apply mul_lt_mul_of_pos_left h2; norm_num

end MParT.SoftPlusFp
