import Verif.Model.Arrays
/-!
# Model of the overloads for two memory spaces (`MPART_ENABLE_GPU`)

Source: `MParT/Utilities/ArrayConversions.h` 229–321, the functions of `src/ParameterizedFunctionBase.cpp` and `src/ConditionalMapBase.cpp` that are compiled
with `MPART_ENABLE_GPU`.

A map lives on the host or on the device; its points can be in either memory.

Simplifications
* the kernels (`…Impl`) of a map are the same functions in both spaces: they are templates over the memory space;
* `Kokkos::deep_copy` copies entry by entry between arrays of the same shape; whether the Kokkos library can do so for two layouts without a temporary is not modelled;
* a new array in device memory has `LayoutLeft`, the default of the CUDA, HIP and SYCL spaces;
* the check of the coefficients is in `Model/Coeffs.lean`.
-/
namespace MParT.Arrays

/-- `Kokkos::HostSpace` and `mpart::DeviceSpace`. GPUtils.h 6–10. -/
inductive Space
  | host
  | device
deriving DecidableEq

/-- A `StridedMatrix<double, MemorySpace>` and the block of memory it refers to. ArrayConversions.h 16–17. -/
structure Mat (s : Space) where
  mem : List ℝ
  view : View2

/-- `Kokkos::deep_copy(outview, inview)`, ArrayConversions.h 239, 309, 313. -/
def copyTo {s : Space} (inview : Mat s) (out : List ℝ) (outview : View2) : Res (List ℝ) :=
  if inview.view.ext0 = outview.ext0 ∧ inview.view.ext1 = outview.ext1 then
    onColumns (fun pt _ => .ok pt) inview.mem inview.view out outview (List.range inview.view.ext1)
  else .throw

/-- Number of entries of the block a new view with these strides needs. Kokkos library; ArrayConversions.h 238. -/
def span (v : View2) : Nat := if v.ext0 = 0 ∨ v.ext1 = 0 then 0 else (v.ext0 - 1) * v.str0 + (v.ext1 - 1) * v.str1 + 1

/-- `ToHost(inview)`, ArrayConversions.h 237–241: the mirror has the strides of the argument. -/
def toHost (A : Mat .device) : Res (Mat .host) := do
  let v : View2 := { A.view with data := 0 }
  let out ← copyTo A (List.replicate (span v) 0) v
  .ok ⟨out, v⟩

/-- `ToDevice<DeviceSpace>(inview)`, ArrayConversions.h 301–321. -/
def toDevice (A : Mat .host) : Res (Mat .device) :=
  if A.view.str0 = 1 then do
    let v := layoutLeft 0 A.view.ext0 A.view.ext1
    let out ← copyTo A (List.replicate (A.view.ext0 * A.view.ext1) 0) v
    .ok ⟨out, v⟩
  else if A.view.str1 = 1 then do
    let v := layoutRight 0 A.view.ext0 A.view.ext1
    let out ← copyTo A (List.replicate (A.view.ext0 * A.view.ext1) 0) v
    .ok ⟨out, v⟩
  else .throw

/-- `ToHost(inview)` for a vector, ArrayConversions.h 229–234, as a matrix with one row. -/
def toHost1 (A : Mat .device) : Res (Mat .host) := do
  let row ← readFrom A.mem (A.view.addr 0) 0 A.view.ext1
  .ok ⟨row, layoutRight 0 1 A.view.ext1⟩

/-- `ToDevice<DeviceSpace>(inview)` for a vector, ArrayConversions.h 292–299, as a matrix with one row. -/
def toDevice1 (A : Mat .host) : Res (Mat .device) := do
  let row ← readFrom A.mem (A.view.addr 0) 0 A.view.ext1
  .ok ⟨row, layoutRight 0 1 A.view.ext1⟩

/-- `Kokkos::View<double**, mpart::DeviceSpace>(…)`: new, filled with zeros. E.g. ParameterizedFunctionBase.cpp 56. -/
def newDevice (rows cols : Nat) : List ℝ × View2 := (List.replicate (rows * cols) 0, layoutLeft 0 rows cols)

/-- A view that a host function returned. E.g. ParameterizedFunctionBase.cpp 83. -/
def hostMat (R : List ℝ × View2) : Mat .host := ⟨R.1, R.2⟩

namespace OnDevice

/-! ### Maps on the device, points on the device -/

/-- `Evaluate(pts)`, ParameterizedFunctionBase.cpp 52–59. -/
def evaluate (m : CMap) (c : List ℝ) (pts : Mat .device) (order : List Nat) : Res (Mat .device) := do
  let output := newDevice m.outputDim pts.view.ext1
  let out ← onColumns (m.eval c) pts.mem pts.view output.1 output.2 order
  .ok ⟨out, output.2⟩

/-- `Gradient(pts, sens)`, ParameterizedFunctionBase.cpp 132–139: the new matrix has `outputDim` rows. -/
def gradient (m : CMap) (c : List ℝ) (pts sens : Mat .device) (order : List Nat) : Res (Mat .device) := do
  let output := newDevice m.outputDim pts.view.ext1
  let out ← onColumns2 (m.grad c) pts.mem pts.view sens.mem sens.view output.1 output.2 order
  .ok ⟨out, output.2⟩

/-- `CoeffGrad(pts, sens)`, ParameterizedFunctionBase.cpp 295–302. -/
def coeffGrad (m : CMap) (c : List ℝ) (pts sens : Mat .device) (order : List Nat) : Res (Mat .device) := do
  let output := newDevice m.numCoeffs pts.view.ext1
  let out ← onColumns2 (m.coeffGrad c) pts.mem pts.view sens.mem sens.view output.1 output.2 order
  .ok ⟨out, output.2⟩

/-- `LogDeterminant(pts)`, ConditionalMapBase.cpp 32–38; the vector as a matrix with one row. -/
def logDet (m : CMap) (c : List ℝ) (pts : Mat .device) (order : List Nat) : Res (Mat .device) := do
  let output := newDevice 1 pts.view.ext1
  let out ← onColumns (logDetColumn m c) pts.mem pts.view output.1 output.2 order
  .ok ⟨out, output.2⟩

/-- `Inverse(x1, r)`, ConditionalMapBase.cpp 99–113. -/
def inverse (m : CMap) (c : List ℝ) (x1 r : Mat .device) (order : List Nat) : Res (Mat .device) :=
  if x1.view.ext1 ≠ r.view.ext1 then .throw
  else do
    let output := newDevice m.outputDim r.view.ext1
    let out ← onColumns2 (m.inv c) x1.mem x1.view r.mem r.view output.1 output.2 order
    .ok ⟨out, output.2⟩

/-- `LogDeterminantCoeffGrad(pts)`, ConditionalMapBase.cpp 168–174. -/
def ldCoeffGrad (m : CMap) (c : List ℝ) (pts : Mat .device) (order : List Nat) : Res (Mat .device) := do
  let output := newDevice m.numCoeffs pts.view.ext1
  let out ← onColumns (m.ldCoeffGrad c) pts.mem pts.view output.1 output.2 order
  .ok ⟨out, output.2⟩

/-- `LogDeterminantInputGrad(pts)`, ConditionalMapBase.cpp 245–251. -/
def ldInputGrad (m : CMap) (c : List ℝ) (pts : Mat .device) (order : List Nat) : Res (Mat .device) := do
  let output := newDevice pts.view.ext0 pts.view.ext1
  let out ← onColumns (m.ldInputGrad c) pts.mem pts.view output.1 output.2 order
  .ok ⟨out, output.2⟩

/-! ### Maps on the device, points on the host -/

/-- `Evaluate(pts)`, ParameterizedFunctionBase.cpp 63–73. -/
def evaluateHost (m : CMap) (c : List ℝ) (pts : Mat .host) (order : List Nat) : Res (Mat .host) := do
  let pts ← toDevice pts
  let evals ← evaluate m c pts order
  toHost evals

/-- `Gradient(pts, sens)`, ParameterizedFunctionBase.cpp 143–153. -/
def gradientHost (m : CMap) (c : List ℝ) (pts sens : Mat .host) (order : List Nat) : Res (Mat .host) := do
  let pts ← toDevice pts
  let sens ← toDevice sens
  let evals ← gradient m c pts sens order
  toHost evals

/-- `CoeffGrad(pts, sens)`, ParameterizedFunctionBase.cpp 314–318. -/
def coeffGradHost (m : CMap) (c : List ℝ) (pts sens : Mat .host) (order : List Nat) : Res (Mat .host) := do
  let pts ← toDevice pts
  let sens ← toDevice sens
  let evals ← coeffGrad m c pts sens order
  toHost evals

/-- `LogDeterminant(pts)`, ConditionalMapBase.cpp 42–45. -/
def logDetHost (m : CMap) (c : List ℝ) (pts : Mat .host) (order : List Nat) : Res (Mat .host) := do
  let pts ← toDevice pts
  let evals ← logDet m c pts order
  toHost1 evals

/-- `Inverse(x1, r)`, ConditionalMapBase.cpp 125–129. -/
def inverseHost (m : CMap) (c : List ℝ) (x1 r : Mat .host) (order : List Nat) : Res (Mat .host) := do
  let x1 ← toDevice x1
  let r ← toDevice r
  let evals ← inverse m c x1 r order
  toHost evals

/-- `LogDeterminantCoeffGrad(pts)`, ConditionalMapBase.cpp 178–188. -/
def ldCoeffGradHost (m : CMap) (c : List ℝ) (pts : Mat .host) (order : List Nat) : Res (Mat .host) := do
  let pts ← toDevice pts
  let evals ← ldCoeffGrad m c pts order
  toHost evals

/-- `LogDeterminantInputGrad(pts)`, ConditionalMapBase.cpp 255–265. -/
def ldInputGradHost (m : CMap) (c : List ℝ) (pts : Mat .host) (order : List Nat) : Res (Mat .host) := do
  let pts ← toDevice pts
  let evals ← ldInputGrad m c pts order
  toHost evals

/-! ### Maps on the device, Eigen matrices -/

/-- `return KokkosToMat(ToHost(evals))`: the strided map is copied into the returned `Eigen::RowMatrixXd`. ParameterizedFunctionBase.cpp 97, ArrayConversions.h 641–646. -/
def returnedHost (evals : Mat .device) : Res RowMatrix := do
  let h ← toHost evals
  let r ← kokkosToMat .stride h.view
  let entries ← copyRows h.mem r 0 r.rows
  .ok ⟨r.rows, r.cols, entries⟩

/-- The argument `ToDevice(ConstRowMatToKokkos(pts))`. ParameterizedFunctionBase.cpp 96. -/
def eigenToDevice (mem : List ℝ) (pts : EigenMat) : Res (Mat .device) := toDevice ⟨mem, constRowMatToKokkos pts⟩

/-- `Evaluate(pts)`, ParameterizedFunctionBase.cpp 91–98. -/
def evaluateEigen (m : CMap) (c mem : List ℝ) (pts : EigenMat) (order : List Nat) : Res RowMatrix := do
  let pts ← eigenToDevice mem pts
  let evals ← evaluate m c pts order
  returnedHost evals

/-- `Gradient(pts, sens)`, ParameterizedFunctionBase.cpp 172–181. -/
def gradientEigen (m : CMap) (c mem : List ℝ) (pts : EigenMat) (mem2 : List ℝ) (sens : EigenMat) (order : List Nat) : Res RowMatrix := do
  let pts ← eigenToDevice mem pts
  let sens ← eigenToDevice mem2 sens
  let evals ← gradient m c pts sens order
  returnedHost evals

/-- `CoeffGrad(pts, sens)`, ParameterizedFunctionBase.cpp 321–328. -/
def coeffGradEigen (m : CMap) (c mem : List ℝ) (pts : EigenMat) (mem2 : List ℝ) (sens : EigenMat) (order : List Nat) : Res RowMatrix := do
  let pts ← eigenToDevice mem pts
  let sens ← eigenToDevice mem2 sens
  let evals ← coeffGrad m c pts sens order
  returnedHost evals

/-- `LogDeterminant(pts)`, ConditionalMapBase.cpp 55–60. -/
def logDetEigen (m : CMap) (c mem : List ℝ) (pts : EigenMat) (order : List Nat) : Res (List ℝ) := do
  let pts ← eigenToDevice mem pts
  let evals ← logDet m c pts order
  let h ← toHost1 evals
  let v := kokkosToVec false ⟨h.view.data, h.view.ext1, h.view.str1⟩
  readFrom h.mem v.addr 0 v.size

/-- `Inverse(x1, r)`, ConditionalMapBase.cpp 133–139. -/
def inverseEigen (m : CMap) (c mem : List ℝ) (x1 : EigenMat) (mem2 : List ℝ) (r : EigenMat) (order : List Nat) : Res RowMatrix := do
  let x1 ← eigenToDevice mem x1
  let r ← eigenToDevice mem2 r
  let evals ← inverse m c x1 r order
  returnedHost evals

/-- `LogDeterminantCoeffGrad(pts)`, ConditionalMapBase.cpp 206–213. -/
def ldCoeffGradEigen (m : CMap) (c mem : List ℝ) (pts : EigenMat) (order : List Nat) : Res RowMatrix := do
  let pts ← eigenToDevice mem pts
  let evals ← ldCoeffGrad m c pts order
  returnedHost evals

/-- `LogDeterminantInputGrad(pts)`, ConditionalMapBase.cpp 283–290. -/
def ldInputGradEigen (m : CMap) (c mem : List ℝ) (pts : EigenMat) (order : List Nat) : Res RowMatrix := do
  let pts ← eigenToDevice mem pts
  let evals ← ldInputGrad m c pts order
  returnedHost evals

end OnDevice

namespace OnHost

/-! ### Maps on the host, points on the device -/

/-- `Evaluate(pts)`, ParameterizedFunctionBase.cpp 77–87. -/
def evaluate (m : CMap) (c : List ℝ) (pts : Mat .device) (order : List Nat) : Res (Mat .device) := do
  let pts ← toHost pts
  let evals ← evaluateView m c pts.mem pts.view order
  toDevice (hostMat evals)

/-- `Gradient(pts, sens)`, ParameterizedFunctionBase.cpp 157–168. -/
def gradient (m : CMap) (c : List ℝ) (pts sens : Mat .device) (order : List Nat) : Res (Mat .device) := do
  let pts ← toHost pts
  let sens ← toHost sens
  let evals ← gradientView m c pts.mem pts.view sens.mem sens.view order
  toDevice (hostMat evals)

/-- `CoeffGrad(pts, sens)`, ParameterizedFunctionBase.cpp 306–310. -/
def coeffGrad (m : CMap) (c : List ℝ) (pts sens : Mat .device) (order : List Nat) : Res (Mat .device) := do
  let pts ← toHost pts
  let sens ← toHost sens
  let evals ← coeffGradView m c pts.mem pts.view sens.mem sens.view order
  toDevice (hostMat evals)

/-- `LogDeterminant(pts)`, ConditionalMapBase.cpp 49–52. -/
def logDet (m : CMap) (c : List ℝ) (pts : Mat .device) (order : List Nat) : Res (Mat .device) := do
  let pts ← toHost pts
  let evals ← logDetView m c pts.mem pts.view order
  toDevice1 (hostMat evals)

/-- `Inverse(x1, r)`, ConditionalMapBase.cpp 117–121: the function called is `CoeffGrad`. -/
def inverse (m : CMap) (c : List ℝ) (x1 r : Mat .device) (order : List Nat) : Res (Mat .device) := do
  let x1 ← toHost x1
  let r ← toHost r
  let evals ← coeffGradView m c x1.mem x1.view r.mem r.view order
  toDevice (hostMat evals)

/-- `LogDeterminantCoeffGrad(pts)`, ConditionalMapBase.cpp 192–202. -/
def ldCoeffGrad (m : CMap) (c : List ℝ) (pts : Mat .device) (order : List Nat) : Res (Mat .device) := do
  let pts ← toHost pts
  let evals ← ldCoeffGradView m c pts.mem pts.view order
  toDevice (hostMat evals)

/-- `LogDeterminantInputGrad(pts)`, ConditionalMapBase.cpp 269–279. -/
def ldInputGrad (m : CMap) (c : List ℝ) (pts : Mat .device) (order : List Nat) : Res (Mat .device) := do
  let pts ← toHost pts
  let evals ← ldInputGradView m c pts.mem pts.view order
  toDevice (hostMat evals)

end OnHost
end MParT.Arrays
