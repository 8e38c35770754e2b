import Verif.Model.Rounding
import Verif.Spec.Rounding
import Verif.Lemmas.Expansion
import Mathlib.Tactic.Linarith
import Mathlib.Tactic.Ring
import Mathlib.Tactic.Positivity
import Mathlib.Tactic.FieldSimp
/-! Helper lemmas for rounding errors. -/
namespace MParT
open Spec

/-- `x` is `a` after `k` roundings, and `|a| ≤ A`. -/
structure Close (u : ℝ) (k : Nat) (x a A : ℝ) : Prop where
  within : Within u k x a A
  abs_le : |a| ≤ A

namespace Close
variable {u : ℝ} {fl : ℝ → ℝ} {j k : Nat} {x y a b A B : ℝ}

theorem nonneg (h : Close u k x a A) : 0 ≤ A := (abs_nonneg a).trans h.abs_le

theorem one_le (hu : 0 ≤ u) (k : Nat) : 1 ≤ (1 + u) ^ k := one_le_pow₀ (by linarith)

theorem exact (hu : 0 ≤ u) (k : Nat) (v : ℝ) : Close u k v v |v| := by
  refine ⟨?_, le_rfl⟩
  have := one_le hu k
  unfold Within
  rw [sub_self, abs_zero]
  exact mul_nonneg (by linarith) (abs_nonneg v)

theorem mono (hu : 0 ≤ u) (hjk : j ≤ k) (h : Close u j x a A) : Close u k x a A := by
  refine ⟨h.within.trans (mul_le_mul_of_nonneg_right ?_ h.nonneg), h.abs_le⟩
  have := pow_le_pow_right₀ (show 1 ≤ 1 + u by linarith) hjk
  linarith

theorem abs_val (h : Close u k x a A) : |x| ≤ (1 + u) ^ k * A := by
  have h1 : |x| ≤ |x - a| + |a| := by simpa using abs_add_le (x - a) a
  have h2 := h.within
  unfold Within at h2
  have h3 := h.abs_le
  nlinarith

/-- One more rounding. -/
theorem round (hfl : RelError u fl) (h : Close u k x a A) : Close u (k + 1) (fl x) a A := by
  refine ⟨?_, h.abs_le⟩
  have h1 : |fl x - a| ≤ |fl x - x| + |x - a| := by simpa using abs_add_le (fl x - x) (x - a)
  have h2 := hfl.bound x
  have h3 := mul_le_mul_of_nonneg_left h.abs_val hfl.nonneg
  have h4 := h.within
  unfold Within at h4 ⊢
  calc |fl x - a| ≤ u * ((1 + u) ^ k * A) + ((1 + u) ^ k - 1) * A := by linarith
    _ = ((1 + u) ^ (k + 1) - 1) * A := by ring

theorem add_exact (hx : Close u k x a A) (hy : Close u k y b B) : Close u k (x + y) (a + b) (A + B) := by
  refine ⟨?_, (abs_add_le a b).trans (add_le_add hx.abs_le hy.abs_le)⟩
  have h1 : |x + y - (a + b)| ≤ |x - a| + |y - b| := by
    rw [show x + y - (a + b) = (x - a) + (y - b) by ring]
    exact abs_add_le _ _
  have h2 := hx.within
  have h3 := hy.within
  unfold Within at h2 h3 ⊢
  calc _ ≤ ((1 + u) ^ k - 1) * A + ((1 + u) ^ k - 1) * B := by linarith
    _ = _ := by ring

theorem mul_exact (hu : 0 ≤ u) (hx : Close u j x a A) (hy : Close u k y b B) : Close u (j + k) (x * y) (a * b) (A * B) := by
  refine ⟨?_, by rw [abs_mul]; exact mul_le_mul hx.abs_le hy.abs_le (abs_nonneg b) hx.nonneg⟩
  have h1 : |x * y - a * b| ≤ |x - a| * |y| + |a| * |y - b| := by
    rw [show x * y - a * b = (x - a) * y + a * (y - b) by ring, ← abs_mul, ← abs_mul]
    exact abs_add_le _ _
  have h2 := hx.within
  have h3 := hy.within
  have h4 := hy.abs_val
  have hj := one_le hu j
  have hk := one_le hu k
  unfold Within at h2 h3 ⊢
  have h5 : |x - a| * |y| ≤ ((1 + u) ^ j - 1) * A * ((1 + u) ^ k * B) :=
    mul_le_mul h2 h4 (abs_nonneg y) (mul_nonneg (by linarith) hx.nonneg)
  have h6 : |a| * |y - b| ≤ A * (((1 + u) ^ k - 1) * B) := mul_le_mul hx.abs_le h3 (abs_nonneg _) hx.nonneg
  calc _ ≤ ((1 + u) ^ j - 1) * A * ((1 + u) ^ k * B) + A * (((1 + u) ^ k - 1) * B) := by linarith
    _ = ((1 + u) ^ (j + k) - 1) * (A * B) := by rw [pow_add]; ring

theorem neg (hx : Close u k x a A) : Close u k (-x) (-a) A := by
  refine ⟨?_, by rw [abs_neg]; exact hx.abs_le⟩
  have := hx.within
  unfold Within at this ⊢
  rwa [show -x - -a = -(x - a) by ring, abs_neg]

/-! The operations on rounded numbers. -/

variable {x' y' : Fl fl}

theorem add (hfl : RelError u fl) (hx : Close u k x'.val a A) (hy : Close u k y'.val b B) :
    Close u (k + 1) (x' + y').val (a + b) (A + B) :=
  round (fl := fl) hfl (hx.add_exact hy)

theorem sub (hfl : RelError u fl) (hx : Close u k x'.val a A) (hy : Close u k y'.val b B) :
    Close u (k + 1) (x' - y').val (a - b) (A + B) := by
  have := round (fl := fl) hfl (hx.add_exact hy.neg)
  rwa [← sub_eq_add_neg, ← sub_eq_add_neg] at this

theorem mul (hfl : RelError u fl) (hx : Close u j x'.val a A) (hy : Close u k y'.val b B) :
    Close u (j + k + 1) (x' * y').val (a * b) (A * B) :=
  round (fl := fl) hfl (hx.mul_exact hfl.nonneg hy)

theorem zero (hu : 0 ≤ u) (k : Nat) : Close u k (0 : Fl fl).val 0 0 := by
  have := exact hu k 0
  rwa [abs_zero] at this

theorem one (hu : 0 ≤ u) (k : Nat) : Close u k (1 : Fl fl).val 1 1 := by
  have := exact hu k 1
  rwa [abs_one] at this

end Close

/-! ### Rounding to nearest -/

theorem nearest_relError (p : Nat) : RelError (2 ^ (-(p : ℤ))) (nearest p) := by
  refine ⟨(zpow_pos two_pos _).le, fun x => ?_⟩
  by_cases hx : x = 0
  · subst hx; simp [nearest]
  unfold nearest
  generalize hs : Int.log 2 |x| = e
  have he : (2 : ℝ) ^ e ≤ |x| := by
    rw [← hs]; exact_mod_cast Int.zpow_log_le_self (b := 2) (by norm_num) (abs_pos.2 hx)
  set s : ℝ := 2 ^ (e + 1 - (p : ℤ)) with hsd
  have hs0 : 0 < s := zpow_pos two_pos _
  have h1 : |x / s - _root_.round (x / s)| ≤ 1 / 2 := abs_sub_round _
  have h2 : (_root_.round (x / s) : ℝ) * s - x = -((x / s - _root_.round (x / s)) * s) := by field_simp; ring
  rw [h2, abs_neg, abs_mul, abs_of_pos hs0]
  have h3 : s = 2 * (2 ^ (-(p : ℤ)) * 2 ^ e) := by
    rw [hsd, ← zpow_add₀ (by norm_num), ← zpow_one_add₀ (by norm_num)]; congr 1; ring
  calc _ ≤ 1 / 2 * s := mul_le_mul_of_nonneg_right h1 hs0.le
    _ = 2 ^ (-(p : ℤ)) * 2 ^ e := by rw [h3]; ring
    _ ≤ _ := mul_le_mul_of_nonneg_left he (zpow_pos two_pos _).le

theorem nearest_eq {p : Nat} {x : ℝ} {e : ℤ} (h1 : (2 : ℝ) ^ e ≤ |x|) (h2 : |x| < 2 ^ (e + 1)) :
    nearest p x = _root_.round (x / 2 ^ (e + 1 - (p : ℤ))) * 2 ^ (e + 1 - (p : ℤ)) := by
  have hx : 0 < |x| := lt_of_lt_of_le (zpow_pos two_pos _) h1
  have : Int.log 2 |x| = e := by
    apply le_antisymm
    · have := (Int.lt_zpow_iff_log_lt (b := 2) (by norm_num) hx (x := e + 1)).1 (by exact_mod_cast h2)
      omega
    · exact (Int.zpow_le_iff_le_log (b := 2) (by norm_num) hx).1 (by exact_mod_cast h1)
  unfold nearest
  rw [this]

end MParT
