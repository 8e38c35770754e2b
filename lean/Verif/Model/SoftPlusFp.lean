import Mathlib.Analysis.SpecialFunctions.Log.Basic
/-!
# Model of `SoftPlus` in floating point

Source: `MParT/PositiveBijectors.h`. Every operation and every function of the C library is the exact one followed by the rounding `fl`.

Simplifications
* `std::exp` and `std::log` are rounded as well as the operations are (a library may be worse);
* only the overflow of `std::exp` is modelled, and no underflow.
-/
namespace MParT.SoftPlusFp

/-- `SoftPlus::Evaluate`, PositiveBijectors.h 15–18. Changing the sign, `std::abs` and `std::fmax` are exact. -/
noncomputable def evaluate (fl : ℝ → ℝ) (x : ℝ) : ℝ :=
  fl (fl (Real.log (fl (1 + fl (Real.exp (-1 * |x|))))) + max x 0)

/-- A `double`: not a number, an infinity or a finite number. (Argument and result of `Inverse`, PositiveBijectors.h 28.) -/
inductive Double where
  | nan
  | ninf
  | fin (x : ℝ)
  | pinf

namespace Double
open Classical

/-- `std::exp(x)` of a finite number, PositiveBijectors.h 29: infinite above the largest number `top`. -/
noncomputable def exp (fl : ℝ → ℝ) (top x : ℝ) : Double := if top < fl (Real.exp x) then .pinf else .fin (fl (Real.exp x))

/-- `v - 1.0`, PositiveBijectors.h 29. -/
noncomputable def subOne (fl : ℝ → ℝ) : Double → Double
  | .fin v => .fin (fl (v - 1))
  | v => v

/-- `std::log(v)`, PositiveBijectors.h 29: NaN for negative numbers, minus infinity for zero. -/
noncomputable def log (fl : ℝ → ℝ) : Double → Double
  | .fin v => if v < 0 then .nan else if v = 0 then .ninf else .fin (fl (Real.log v))
  | .ninf => .nan
  | v => v

/-- `std::fmin(v, x)` with a finite `x`, PositiveBijectors.h 29: NaN is ignored. -/
noncomputable def fmin : Double → ℝ → Double
  | .nan, x => .fin x
  | .ninf, _ => .ninf
  | .fin v, x => .fin (min v x)
  | .pinf, x => .fin x

end Double

/-- `SoftPlus::Inverse` of a finite number, PositiveBijectors.h 28–30. -/
noncomputable def inverse (fl : ℝ → ℝ) (top x : ℝ) : Double := ((Double.exp fl top x).subOne fl |>.log fl).fmin x

end MParT.SoftPlusFp
