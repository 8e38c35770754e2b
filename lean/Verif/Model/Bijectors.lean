import Verif.Model.Res
import Mathlib.Analysis.SpecialFunctions.Log.Basic
import Mathlib.Analysis.SpecialFunctions.Trigonometric.DerivHyp
/-!
# Model of `SoftPlus`, `Exp`, `Logistic` and `Sigmoid1d`

Source: `MParT/PositiveBijectors.h`, `MParT/Sigmoid.h`. `double` functions are the real functions; `std::log` of a
non-positive number, which is not a real number, is never claimed about. Matrices have one row here (input and output
dimension one): they are lists indexed by the sample.
-/
namespace MParT

/-- The static members of a class used as `PosFuncType`. PositiveBijectors.h 12–56. -/
structure PosBijector where
  eval : ℝ → ℝ
  deriv : ℝ → ℝ
  deriv2 : ℝ → ℝ
  inverse : ℝ → ℝ

/-- `SoftPlus`, PositiveBijectors.h 12–32. -/
noncomputable def softPlus : PosBijector where
  eval := fun x => Real.log (1 + Real.exp (-1 * |x|)) + max x 0
  deriv := fun x => 1 / (1 + Real.exp (-1 * x))
  deriv2 := fun x => 1 / (2 + Real.exp (-1 * x) + Real.exp x)
  inverse := fun x => min (Real.log (Real.exp x - 1)) x

/-- `Exp`, PositiveBijectors.h 37–56. -/
noncomputable def expBij : PosBijector where
  eval := fun x => Real.exp x
  deriv := fun x => Real.exp x
  deriv2 := fun x => Real.exp x
  inverse := fun x => Real.log x

namespace Logistic

/-- `Logistic::Evaluate`, Sigmoid.h 19–21. -/
noncomputable def evaluate (x : ℝ) : ℝ := 0.5 + 0.5 * Real.tanh (x / 2)

open Classical in
/-- `Logistic::Inverse`, Sigmoid.h 22–24. -/
noncomputable def inverse (y : ℝ) : ℝ := if y > 1 then -Real.log ((1 - y) / y) else Real.log (y / (1 - y))

/-- `Logistic::Derivative`, Sigmoid.h 25–28. -/
noncomputable def derivative (x : ℝ) : ℝ :=
  let fx := evaluate x
  fx * (1 - fx)

end Logistic

/-- `Sigmoid1d`: centers, widths and the saved coefficients (`none`: never set), Sigmoid.h 31–46. -/
structure Sigmoid1d where
  centers : List ℝ
  widths : List ℝ
  coeffs : Option (List ℝ)

namespace Sigmoid1d

/-- `Sigmoid1d(centers, widths)`, Sigmoid.h 35–45. -/
def new (centers widths : List ℝ) : Res Sigmoid1d :=
  if centers.length ≠ widths.length then .throw else .ok ⟨centers, widths, none⟩

/-- `numCoeffs`, Sigmoid.h 36. -/
def numCoeffs (s : Sigmoid1d) : Nat := s.widths.length

/-- `CheckCoefficients(name)`, ParameterizedFunctionBase.cpp 332–362: the coefficients to use, or an exception. -/
def check (s : Sigmoid1d) : Res (List ℝ) :=
  if s.numCoeffs = 0 then .ok []
  else match s.coeffs with
    | none => .throw
    | some c => if c.length ≠ s.numCoeffs then .throw else .ok c

/-- Coefficient loop of `EvaluateImpl`, Sigmoid.h 50–52. -/
noncomputable def evalLoop (s : Sigmoid1d) (c : List ℝ) (x acc : ℝ) (k : Nat) : Nat → Res ℝ
  | 0 => .ok acc
  | n + 1 => do
    let ck ← Res.idx c k
    let w ← Res.idx s.widths k
    let m ← Res.idx s.centers k
    evalLoop s c x (acc + ck * Logistic.evaluate (w * (x - m))) (k + 1) n

/-- Coefficient loop of `GradientImpl`, Sigmoid.h 61–63. -/
noncomputable def gradLoop (s : Sigmoid1d) (c : List ℝ) (x acc : ℝ) (k : Nat) : Nat → Res ℝ
  | 0 => .ok acc
  | n + 1 => do
    let ck ← Res.idx c k
    let w ← Res.idx s.widths k
    let m ← Res.idx s.centers k
    gradLoop s c x (acc + ck * w * Logistic.derivative (w * (x - m))) (k + 1) n

/-- `EvaluateImpl` at one sample. Sigmoid.h 47–55. -/
noncomputable def evaluateImpl (s : Sigmoid1d) (c : List ℝ) (x : ℝ) : Res ℝ := evalLoop s c x 0 0 s.numCoeffs

/-- `GradientImpl(sens, pts, out)` at one sample, Sigmoid.h 57–66: the first argument is named `sens`. -/
noncomputable def gradientImpl (s : Sigmoid1d) (c : List ℝ) (sens pt : ℝ) : Res ℝ := do
  let g ← gradLoop s c pt 0 0 s.numCoeffs
  return sens * g

/-- One entry of `CoeffGradImpl(sens, pts, out)`, Sigmoid.h 68–73. -/
noncomputable def coeffEntry (s : Sigmoid1d) (sens pt : ℝ) (k : Nat) : Res ℝ := do
  let w ← Res.idx s.widths k
  let m ← Res.idx s.centers k
  return sens * Logistic.evaluate (w * (pt - m))

/-- `CoeffGradImpl(sens, pts, out)` at one sample: column of `numCoeffs` entries. Sigmoid.h 68–73. -/
noncomputable def coeffGradImpl (s : Sigmoid1d) (sens pt : ℝ) : Res (List ℝ) :=
  (List.range s.numCoeffs).mapM (coeffEntry s sens pt)

/-- `Evaluate(pts)`, ParameterizedFunctionBase.cpp 26–34, on each sample. -/
noncomputable def evaluate (s : Sigmoid1d) (pts : List ℝ) : Res (List ℝ) := do
  let c ← s.check
  pts.mapM (evaluateImpl s c)

/-- `Gradient(pts, sens)`, ParameterizedFunctionBase.cpp 106–113: calls `GradientImpl(pts, sens, output)`. -/
noncomputable def gradient (s : Sigmoid1d) (pts sens : List ℝ) : Res (List ℝ) := do
  let c ← s.check
  (List.zip pts sens).mapM (fun q => gradientImpl s c q.1 q.2)

/-- `CoeffGrad(pts, sens)`, ParameterizedFunctionBase.cpp 269–277: calls `CoeffGradImpl(pts, sens, output)`; the
result is the list of columns. -/
noncomputable def coeffGrad (s : Sigmoid1d) (pts sens : List ℝ) : Res (List (List ℝ)) := do
  let _ ← s.check
  (List.zip pts sens).mapM (fun q => coeffGradImpl s q.1 q.2)

end Sigmoid1d
end MParT
