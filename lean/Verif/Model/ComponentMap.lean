import Verif.Model.Maps
import Verif.Model.MonotoneComponent
/-!
# Model of `MonotoneComponent` as a `ConditionalMapBase` object

Source: `MParT/MonotoneComponent.h` 60–235. The kernels are those of `Model/MonotoneComponent.lean`; here they are put
behind the virtual functions of the base class, for one column of points.

Simplifications
* the content of the scratch memory of the thread (`scr`) and of `integrandWork` (`work`) is the same for every call; the
  theorems hold for every content;
* a NaN written by `InverseImpl` is not a number of the model: the call is then `throw`.
-/
namespace MParT.MonotoneComponent
open Worker

/-- `numCoeffs`, the second argument of the base constructor, MonotoneComponent.h 63–84: the number of terms. -/
def numCoeffs (c : MonotoneComponent) : Nat := match c.w.multiSet.size with
  | .ok n => n
  | _ => 0

/-- `InverseImpl(x1, r, output)`, MonotoneComponent.h 95–102, with the default tolerances, 351–373. -/
noncomputable def inverseCol (c : MonotoneComponent) (scr : Cache ℝ) (coeffs x1 r output : List ℝ) : Res (List ℝ) := do
  let y ← Res.idx r 0
  let _ ← inverseCheck 1e-6 1e-6 1 1 1
  let s ← c.inversePt scr coeffs x1 y 1e-6 1e-6
  match s.1 with
  | some x => Res.setIdx output 0 x
  | none => .throw

/-- The virtual functions of a `MonotoneComponent`, MonotoneComponent.h: constructor 63–84 (`inputDim = expansion.InputSize()`, `outputDim = 1`),
`EvaluateImpl` 88–93, `InverseImpl` 95–102, `LogDeterminantImpl` 104–125, `GradientImpl` 148–164, `CoeffGradImpl` 166–182,
`LogDeterminantCoeffGradImpl` 185–206, `LogDeterminantInputGradImpl` 208–232. -/
noncomputable def obj (c : MonotoneComponent) (scr : Cache ℝ) (work : List ℝ) : CMap where
  inputDim := c.w.dim
  outputDim := 1
  numCoeffs := c.numCoeffs
  eval coeffs pts output := do
    let v ← c.evaluatePt scr coeffs pts
    Res.setIdx output 0 v
  logDet coeffs pts _ := c.logDeterminantPt scr coeffs pts
  inv coeffs x1 r output := c.inverseCol scr coeffs x1 r output
  grad coeffs pts sens output :=
    if gradShapeOk c.w.dim sens.length 1 pts.length 1 output.length 1 c.w.dim then do
      let s ← Res.idx sens 0
      c.gradientPt scr coeffs pts s output
    else .throw
  coeffGrad coeffs pts sens output :=
    if gradShapeOk c.w.dim sens.length 1 pts.length 1 output.length 1 c.numCoeffs then do
      let s ← Res.idx sens 0
      c.coeffGradPt scr coeffs pts s output
    else .throw
  ldCoeffGrad coeffs pts output := c.logDeterminantCoeffGradPt scr work coeffs pts output
  ldInputGrad coeffs pts output := c.logDeterminantInputGradPt scr coeffs pts output

end MParT.MonotoneComponent
