import Verif.Model.MonotoneComponent
import Verif.Model.ComponentMap
/-!
# Model of the functions of `MonotoneComponent` on whole arrays

Source: `MParT/MonotoneComponent.h` 86–232, 243–299, 446–980. The work done for one point is in `Model/MonotoneComponent.lean`; here
are the checks on the sizes of the arguments and the loops that write the results into the arrays of the caller.

Simplifications
* a matrix is its number of rows and the list of its columns; strides are the subject of `Model/Arrays.lean`;
* the points are worked on in order; schedules, and calls without points, are the subject of `Model/Parallel.lean`;
* the extents are compared as numbers, not after conversion to `int`;
* the content of the scratch memory (`scr`) is the same for all points; the theorems hold for every content.
-/
namespace MParT.MonotoneComponent
open Worker

/-- A `StridedMatrix`: `extent(0)` and the columns, of which there are `extent(1)`. MonotoneComponent.h 685–688. -/
structure Cols where
  rows : Nat
  cols : List (List ℝ)

/-- `parallel_for` over the points, writing one entry of one array per point: `f pt` is applied to entry `ptInd` of the
array. MonotoneComponent.h 501–530, 841–873, 892–925, 946–979. -/
def forPts {α : Type} (f : List ℝ → α → Res α) : List (List ℝ) → Nat → List α → Res (List α)
  | [], _, out => .ok out
  | pt :: pts, i, out => do
    let a ← Res.idx out i
    let a ← f pt a
    let out ← Res.setIdx out i a
    forPts f pts (i + 1) out

/-- The same with a vector of values beside it, MonotoneComponent.h 605–637, 703–740, 776–817. -/
def forPts2 {α : Type} (f : List ℝ → α → Res (ℝ × α)) : List (List ℝ) → Nat → List ℝ → List α → Res (List ℝ × List α)
  | [], _, evals, out => .ok (evals, out)
  | pt :: pts, i, evals, out => do
    let a ← Res.idx out i
    let r ← f pt a
    let evals ← Res.setIdx evals i r.1
    let out ← Res.setIdx out i r.2
    forPts2 f pts (i + 1) evals out

/-- `isJacobianInputValid` and `checkJacobianInput`, MonotoneComponent.h 651–668. -/
def checkJacobianInput (jacRows jacCols evalRows expectJacRows expectJacCols expectEvalRows : Nat) : Res Unit :=
  if jacRows = expectJacRows ∧ jacCols = expectJacCols ∧ evalRows = expectEvalRows then .ok () else .throw

/-- `checkMixedJacobianInput`, MonotoneComponent.h 820–822. -/
def checkMixedJacobianInput (jacRows jacCols expectJacRows expectJacCols : Nat) : Res Unit :=
  checkJacobianInput jacRows jacCols 0 expectJacRows expectJacCols 0

/-- `ContinuousDerivative(pts, coeffs, derivs)`, MonotoneComponent.h 487–531: no check. -/
def continuousDerivative (c : MonotoneComponent) (scr : Cache ℝ) (pts : Cols) (coeffs derivs : List ℝ) : Res (List ℝ) :=
  forPts (fun pt _ => c.continuousDerivativePt scr coeffs pt) pts.cols 0 derivs

/-- `ContinuousDerivative(pts, coeffs)`, MonotoneComponent.h 455–464. -/
def continuousDerivativeNew (c : MonotoneComponent) (scr : Cache ℝ) (pts : Cols) (coeffs : List ℝ) : Res (List ℝ) :=
  c.continuousDerivative scr pts coeffs (List.replicate pts.cols.length 0)

/-- `DiscreteDerivative(pts, coeffs, evals, derivs)`, MonotoneComponent.h 585–638: no check. -/
def discreteDerivative (c : MonotoneComponent) (scr : Cache ℝ) (pts : Cols) (coeffs evals derivs : List ℝ) :
    Res (List ℝ × List ℝ) :=
  forPts2 (fun pt _ => c.discreteDerivativePt scr coeffs pt) pts.cols 0 evals derivs

/-- `DiscreteDerivative(pts, coeffs)`, MonotoneComponent.h 552–563. -/
def discreteDerivativeNew (c : MonotoneComponent) (scr : Cache ℝ) (pts : Cols) (coeffs : List ℝ) : Res (List ℝ) := do
  let r ← c.discreteDerivative scr pts coeffs (List.replicate pts.cols.length 0) (List.replicate pts.cols.length 0)
  return r.2

/-- `CoeffJacobian`, MonotoneComponent.h 684–741. -/
def coeffJacobian (c : MonotoneComponent) (scr : Cache ℝ) (pts : Cols) (coeffs evaluations : List ℝ) (jacobian : Cols) :
    Res (List ℝ × List (List ℝ)) := do
  checkJacobianInput jacobian.rows jacobian.cols.length evaluations.length coeffs.length pts.cols.length pts.cols.length
  forPts2 (fun pt jac => c.coeffJacobianPt scr coeffs pt jac) pts.cols 0 evaluations jacobian.cols

/-- `InputJacobian`, MonotoneComponent.h 757–818. -/
def inputJacobian (c : MonotoneComponent) (scr : Cache ℝ) (pts : Cols) (coeffs evaluations : List ℝ) (jacobian : Cols) :
    Res (List ℝ × List (List ℝ)) := do
  checkJacobianInput jacobian.rows jacobian.cols.length evaluations.length c.w.dim pts.cols.length pts.cols.length
  forPts2 (fun pt jac => c.inputJacobianPt scr coeffs pt jac) pts.cols 0 evaluations jacobian.cols

/-- `ContinuousMixedJacobian`, MonotoneComponent.h 824–874. -/
def continuousMixedJacobian (c : MonotoneComponent) (scr : Cache ℝ) (pts : Cols) (coeffs : List ℝ) (jacobian : Cols) :
    Res (List (List ℝ)) := do
  checkMixedJacobianInput jacobian.rows jacobian.cols.length coeffs.length pts.cols.length
  forPts (fun pt jac => c.continuousMixedJacobianPt scr coeffs pt jac) pts.cols 0 jacobian.cols

/-- `ContinuousMixedInputJacobian`, MonotoneComponent.h 876–926: the number of rows is compared with that of the points. -/
def continuousMixedInputJacobian (c : MonotoneComponent) (scr : Cache ℝ) (pts : Cols) (coeffs : List ℝ) (jacobian : Cols) :
    Res (List (List ℝ)) := do
  checkMixedJacobianInput jacobian.rows jacobian.cols.length pts.rows pts.cols.length
  forPts (fun pt jac => c.continuousMixedInputJacobianPt scr coeffs pt jac) pts.cols 0 jacobian.cols

/-- `DiscreteMixedJacobian`, MonotoneComponent.h 928–980; `work` is the content of `integrandWork`. -/
def discreteMixedJacobian (c : MonotoneComponent) (scr : Cache ℝ) (work : List ℝ) (pts : Cols) (coeffs : List ℝ)
    (jacobian : Cols) : Res (List (List ℝ)) := do
  checkMixedJacobianInput jacobian.rows jacobian.cols.length coeffs.length pts.cols.length
  forPts (fun pt jac => c.discreteMixedJacobianPt scr work coeffs pt jac) pts.cols 0 jacobian.cols

/-- `EvaluateImpl(pts, coeffs, output)`, MonotoneComponent.h 256–299, with the array it writes to. -/
def evaluateArr (c : MonotoneComponent) (scr : Cache ℝ) (pts : Cols) (coeffs output : List ℝ) : Res (List ℝ) :=
  if output.length ≠ pts.cols.length then .throw
  else forPts (fun pt _ => c.evaluatePt scr coeffs pt) pts.cols 0 output

/-- `output(i) = log(output(i))`, or `-infinity` (`none`) if it is not positive, for every entry of the output,
MonotoneComponent.h 117–124. -/
noncomputable def logAll (output : List ℝ) : List (Option ℝ) :=
  output.map fun d => (by classical exact if d ≤ 0 then none else some (Real.log d))

/-- The diagonal derivative in `LogDeterminantImpl`, MonotoneComponent.h 108–114. -/
def diagDerivImpl (c : MonotoneComponent) (scr : Cache ℝ) (pts : Cols) (coeffs output : List ℝ) : Res (List ℝ) :=
  if c.useContDeriv then c.continuousDerivative scr pts coeffs output
  else do
    let r ← c.discreteDerivative scr pts coeffs (List.replicate pts.cols.length 0) output
    return r.2

/-- `LogDeterminantImpl`, MonotoneComponent.h 105–125. -/
noncomputable def logDeterminantImpl (c : MonotoneComponent) (scr : Cache ℝ) (pts : Cols) (coeffs output : List ℝ) :
    Res (List (Option ℝ)) := do
  let d ← c.diagDerivImpl scr pts coeffs output
  return logAll d

/-- `for i < n: output(i,ptInd) *= factor(ptInd)` for every point, MonotoneComponent.h 158–163, 176–181, 201–205,
227–231. -/
def scaleCols (n : Nat) : List ℝ → List (List ℝ) → Res (List (List ℝ))
  | _, [] => .ok []
  | [], _ :: _ => .ub
  | s :: ss, col :: cols =>
    if col.length < n then .ub
    else do
      let r ← scaleCols n ss cols
      return (col.mapIdx fun i v => if i < n then v * s else v) :: r

/-- `GradientImpl`, MonotoneComponent.h 148–164; `sens` are the rows and the first row of the sensitivities. -/
def gradientImpl (c : MonotoneComponent) (scr : Cache ℝ) (pts : Cols) (coeffs : List ℝ) (sensRows : Nat) (sens : List ℝ)
    (output : Cols) : Res (List (List ℝ)) :=
  if gradShapeOk c.w.dim sensRows sens.length pts.rows pts.cols.length output.rows output.cols.length c.w.dim then do
    let r ← c.inputJacobian scr pts coeffs (List.replicate pts.cols.length 0) output
    scaleCols c.w.dim sens r.2
  else .throw

/-- `CoeffGradImpl`, MonotoneComponent.h 166–182. -/
def coeffGradImpl (c : MonotoneComponent) (scr : Cache ℝ) (pts : Cols) (coeffs : List ℝ) (sensRows : Nat) (sens : List ℝ)
    (output : Cols) : Res (List (List ℝ)) :=
  if gradShapeOk c.w.dim sensRows sens.length pts.rows pts.cols.length output.rows output.cols.length c.numCoeffs then do
    let r ← c.coeffJacobian scr pts coeffs (List.replicate pts.cols.length 0) output
    scaleCols c.numCoeffs sens r.2
  else .throw

/-- `LogDeterminantCoeffGradImpl`, MonotoneComponent.h 185–206. -/
noncomputable def logDeterminantCoeffGradImpl (c : MonotoneComponent) (scr : Cache ℝ) (work : List ℝ) (pts : Cols)
    (coeffs : List ℝ) (output : Cols) : Res (List (List ℝ)) := do
  if c.useContDeriv then
    let j ← c.continuousMixedJacobian scr pts coeffs output
    let d ← c.continuousDerivative scr pts coeffs (List.replicate pts.cols.length 0)
    scaleCols c.numCoeffs (d.map fun v => 1 / v) j
  else
    let j ← c.discreteMixedJacobian scr work pts coeffs output
    let r ← c.discreteDerivative scr pts coeffs (List.replicate pts.cols.length 0) (List.replicate pts.cols.length 0)
    scaleCols c.numCoeffs (r.2.map fun v => 1 / v) j

/-- `LogDeterminantInputGradImpl`, MonotoneComponent.h 208–232. -/
noncomputable def logDeterminantInputGradImpl (c : MonotoneComponent) (scr : Cache ℝ) (pts : Cols) (coeffs : List ℝ)
    (output : Cols) : Res (List (List ℝ)) := do
  if c.useContDeriv then
    let j ← c.continuousMixedInputJacobian scr pts coeffs output
    let d ← c.continuousDerivative scr pts coeffs (List.replicate pts.cols.length 0)
    scaleCols c.w.dim (d.map fun v => 1 / v) j
  else .throw

end MParT.MonotoneComponent
