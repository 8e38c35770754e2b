import Verif.Model.Maps
/-!
# Model of the conversions between Eigen, Kokkos and `std::vector`, and of the overloads that take Eigen matrices

Source: `MParT/Utilities/ArrayConversions.h`, the host functions of `src/ParameterizedFunctionBase.cpp` and
`src/ConditionalMapBase.cpp`.

Arrays are windows into a block of memory, which is the list of its entries: a window says where entry `(i,j)` is.

Simplifications
* strides are not negative; index arithmetic does not overflow;
* an `Eigen::Ref<const RowMatrixXd>` argument refers to row-major memory with unit inner stride and any outer stride, which is
  what Eigen binds without a copy; for everything else (column-major matrices, expressions) Eigen makes a contiguous temporary, which
  is the case `outer = cols` here;
* `…Impl` works column by column; `order` is the order in which the columns are processed, and the columns do not influence one another (C48);
* the check of the coefficients is in `Model/Coeffs.lean`.
-/
namespace MParT.Arrays

/-- A two-dimensional `Kokkos::View`: `data()`, `extent(0)`, `extent(1)`, `stride(0)`, `stride(1)`. Kokkos library; `StridedMatrix`, ArrayConversions.h 15–17. -/
structure View2 where
  data : Nat
  ext0 : Nat
  ext1 : Nat
  str0 : Nat
  str1 : Nat
deriving DecidableEq

/-- Where `view(i,j)` is. Kokkos library; strides as in ArrayConversions.h 383–385. -/
def View2.addr (v : View2) (i j : Nat) : Nat := v.data + i * v.str0 + j * v.str1

/-- A one-dimensional `Kokkos::View`: `data()`, `extent(0)`, `stride(0)`. Kokkos library; ArrayConversions.h 123–129. -/
structure View1 where
  data : Nat
  ext : Nat
  str : Nat
deriving DecidableEq

/-- Where `view(i)` is. Kokkos library; ArrayConversions.h 126. -/
def View1.addr (v : View1) (i : Nat) : Nat := v.data + i * v.str

/-- An `Eigen::Ref` or `Eigen::Map` of a matrix: storage order, `data()`, `rows()`, `cols()`, `outerStride()`, `innerStride()`. Eigen library; ArrayConversions.h 381–385, 423–427. -/
structure EigenMat where
  rowMajor : Bool
  data : Nat
  rows : Nat
  cols : Nat
  outer : Nat
  inner : Nat
deriving DecidableEq

/-- Where `ref(i,j)` is: the inner stride leads to the next column of a row-major matrix and to the next row of a column-major one. Eigen library; ArrayConversions.h 383 and 425. -/
def EigenMat.addr (r : EigenMat) (i j : Nat) : Nat :=
  if r.rowMajor then r.data + i * r.outer + j * r.inner else r.data + j * r.outer + i * r.inner

/-- An `Eigen::Ref` or `Eigen::Map` of a vector: `data()`, `size()`, `innerStride()`. Eigen library; ArrayConversions.h 470–473, 528–532. -/
structure EigenVec where
  data : Nat
  size : Nat
  inner : Nat
deriving DecidableEq

/-- Where `ref(i)` is. Eigen library; ArrayConversions.h 472. -/
def EigenVec.addr (r : EigenVec) (i : Nat) : Nat := r.data + i * r.inner

/-- A new view with `Kokkos::LayoutRight` (the default on the host) or a view of this layout around given memory. ArrayConversions.h 431–434. -/
def layoutRight (data rows cols : Nat) : View2 := ⟨data, rows, cols, cols, 1⟩

/-- The same with `Kokkos::LayoutLeft`. ArrayConversions.h 438–440. -/
def layoutLeft (data rows cols : Nat) : View2 := ⟨data, rows, cols, 1, rows⟩

/-- `ToKokkos(ptr, dim)`, `ToConstKokkos(ptr, dim)`, ArrayConversions.h 45–55, and `VecToKokkos(std::vector)`, `ConstVecToKokkos`,
`VecToConstKokkos`, 166–205. -/
def toKokkos1 (ptr dim : Nat) : View1 := ⟨ptr, dim, 1⟩

/-- `ToKokkos<ScalarType, LayoutType>(ptr, rows, cols)`, `ToConstKokkos`, ArrayConversions.h 94–97 and 134–138: column-major unless
`LayoutType` is `LayoutRight`. -/
def toKokkos2 (right : Bool) (ptr rows cols : Nat) : View2 := if right then layoutRight ptr rows cols else layoutLeft ptr rows cols

/-- `ToKokkos(info)` for a pointer, a shape and strides, ArrayConversions.h 103–116. -/
def toKokkosInfo (ptr rows cols rowStride colStride : Nat) : View2 := ⟨ptr, rows, cols, rowStride, colStride⟩

/-- `MatToKokkos(std::vector, cols)`, `MatToConstKokkos`, ArrayConversions.h 195–199 and 216–220: division by 0 is undefined. -/
def stdMatToKokkos (ptr size cols : Nat) : Res View2 := if cols = 0 then .ub else .ok (layoutRight ptr (size / cols) cols)

/-- `MatToKokkos(ref)`, ArrayConversions.h 381–386 (column-major) and 423–428 (row-major). -/
def matToKokkos (r : EigenMat) : View2 :=
  if r.rowMajor then ⟨r.data, r.rows, r.cols, r.outer, r.inner⟩ else ⟨r.data, r.rows, r.cols, r.inner, r.outer⟩

/-- `ConstRowMatToKokkos(ref)`, ArrayConversions.h 431–435: `strides` is computed and not used. -/
def constRowMatToKokkos (r : EigenMat) : View2 := layoutRight r.data r.rows r.cols

/-- `ConstColMatToKokkos(ref)`, ArrayConversions.h 438–441. -/
def constColMatToKokkos (r : EigenMat) : View2 := layoutLeft r.data r.rows r.cols

/-- `VecToKokkos(ref)`, ArrayConversions.h 470–474. -/
def vecToKokkos (r : EigenVec) : View1 := ⟨r.data, r.size, r.inner⟩

/-- `KokkosToVec(view)`, ArrayConversions.h 514–516 for views with a contiguous layout, 528–533 for `LayoutStride`. -/
def kokkosToVec (strided : Bool) (v : View1) : EigenVec := if strided then ⟨v.data, v.ext, v.str⟩ else ⟨v.data, v.ext, 1⟩

/-- `Kokkos` layouts. ArrayConversions.h 551–558. -/
inductive Layout
  | left
  | right
  | stride
deriving DecidableEq

/-- `LayoutToEigen<…>::Layout`, ArrayConversions.h 551–558: column-major for `LayoutLeft` only. -/
def layoutToEigen : Layout → Bool
  | .left => false
  | _ => true

/-- `KokkosToMat(view)`, `ConstKokkosToMat(view)`, ArrayConversions.h 593–608 for contiguous layouts, with the assertion, and 610–615, 641–646 for
`LayoutStride`. -/
def kokkosToMat (l : Layout) (v : View2) : Res EigenMat :=
  match l with
  | .stride => .ok ⟨layoutToEigen l, v.data, v.ext0, v.ext1, v.str0, v.str1⟩
  | _ => if v.str0 = 1 ∨ v.str1 = 1 then .ok ⟨layoutToEigen l, v.data, v.ext0, v.ext1, max v.str0 v.str1, 1⟩ else .throw

/-- Reads the entries `i..i+n-1` of the sequence with the given addresses. Loops of ArrayConversions.h 149–155. -/
def readFrom (mem : List ℝ) (addr : Nat → Nat) (i : Nat) : Nat → Res (List ℝ)
  | 0 => .ok []
  | n + 1 => do
    let x ← Res.idx mem (addr i)
    let xs ← readFrom mem addr (i + 1) n
    .ok (x :: xs)

/-- `KokkosToStd(view)`, ArrayConversions.h 149–155. -/
def kokkosToStd (mem : List ℝ) (v : View1) : Res (List ℝ) := readFrom mem v.addr 0 v.ext

/-- Writes the entries from `i` on of the sequence with the given addresses. Assignments `output(i,j) = …`, e.g. TriangularMap.cpp 199–203. -/
def writeTo (mem : List ℝ) (addr : Nat → Nat) (i : Nat) : List ℝ → Res (List ℝ)
  | [] => .ok mem
  | x :: xs => do
    let mem ← Res.setIdx mem (addr i) x
    writeTo mem addr (i + 1) xs

/-- Column `j`: `Kokkos::subview(view, Kokkos::ALL(), j)`. E.g. MonotoneComponent.h 279. -/
def column (mem : List ℝ) (v : View2) (j : Nat) : Res (List ℝ) :=
  if j < v.ext1 then readFrom mem (fun i => v.addr i j) 0 v.ext0 else .ub

/-- An `…Impl(pts, output)` that sends a column and the old content of the output column to the new content, for the columns in `order`. ParameterizedFunctionBase.h 103–104. -/
def onColumns (f : (pt old : List ℝ) → Res (List ℝ)) (mem : List ℝ) (pts : View2) (out : List ℝ) (output : View2) :
    (order : List Nat) → Res (List ℝ)
  | [] => .ok out
  | j :: js => do
    let pt ← column mem pts j
    let old ← column out output j
    let new ← f pt old
    let out ← writeTo out (fun i => output.addr i j) 0 new
    onColumns f mem pts out output js

/-- An `…Impl(pts, sens, output)` with a second argument, in its own memory. ParameterizedFunctionBase.h 138–140 and 182–184. -/
def onColumns2 (f : (pt sens old : List ℝ) → Res (List ℝ)) (mem : List ℝ) (pts : View2) (mem2 : List ℝ) (sens : View2)
    (out : List ℝ) (output : View2) : (order : List Nat) → Res (List ℝ)
  | [] => .ok out
  | j :: js => do
    let pt ← column mem pts j
    let s ← column mem2 sens j
    let old ← column out output j
    let new ← f pt s old
    let out ← writeTo out (fun i => output.addr i j) 0 new
    onColumns2 f mem pts mem2 sens out output js

/-- The number a log-determinant kernel leaves in `output(j)`; a value of `-infinity` is not a number here. ConditionalMapBase.h 54–159. -/
def logDetColumn (m : CMap) (c pt : List ℝ) : List ℝ → Res (List ℝ)
  | [o] => do
    match ← m.logDet c pt (some o) with
    | some v => .ok [v]
    | none => .throw
  | _ => .ub

/-- A new matrix with row-major memory and the memory itself: `Kokkos::View<double**, HostSpace>(…)`, filled with zeros. E.g. ParameterizedFunctionBase.cpp 31. -/
def newView (rows cols : Nat) : List ℝ × View2 := (List.replicate (rows * cols) 0, layoutRight 0 rows cols)

/-- Assigning a view with `LayoutStride` to one with `LayoutRight`: aborts unless the strides are those of a contiguous row-major array. ParameterizedFunctionBase.cpp 287. -/
def asLayoutRight (v : View2) : Res View2 := if v.str1 = 1 ∧ v.str0 = v.ext1 then .ok v else .throw

/-- An Eigen matrix that is returned: the copy of the entries of a map, row after row. ParameterizedFunctionBase.cpp 41, 120. -/
def copyRows (mem : List ℝ) (r : EigenMat) : Nat → Nat → Res (List ℝ)
  | _, 0 => .ok []
  | i, n + 1 => do
    let row ← readFrom mem (fun j => r.addr i j) 0 r.cols
    let rest ← copyRows mem r (i + 1) n
    .ok (row ++ rest)

/-- The matrix as a returned `Eigen::RowMatrixXd`: number of rows, number of columns, entries in row-major order. ParameterizedFunctionBase.cpp 37–41. -/
structure RowMatrix where
  rows : Nat
  cols : Nat
  entries : List ℝ

/-- `return KokkosToMat(outView)` for a `LayoutRight` view, copied into an `Eigen::RowMatrixXd`. ParameterizedFunctionBase.cpp 287–288. -/
def returned (out : List ℝ) (v : View2) : Res RowMatrix := do
  let v ← asLayoutRight v
  let r ← kokkosToMat .right v
  let entries ← copyRows out r 0 r.rows
  .ok ⟨r.rows, r.cols, entries⟩

/-! ### Overloads that take views -/

/-- `Evaluate(StridedMatrix pts)`, ParameterizedFunctionBase.cpp 27–34. -/
def evaluateView (m : CMap) (c mem : List ℝ) (pts : View2) (order : List Nat) : Res (List ℝ × View2) := do
  let output := newView m.outputDim pts.ext1
  let out ← onColumns (m.eval c) mem pts output.1 output.2 order
  .ok (out, output.2)

/-- `CoeffGrad(StridedMatrix pts, StridedMatrix sens)`, ParameterizedFunctionBase.cpp 270–277. -/
def coeffGradView (m : CMap) (c mem : List ℝ) (pts : View2) (mem2 : List ℝ) (sens : View2) (order : List Nat) :
    Res (List ℝ × View2) := do
  let output := newView m.numCoeffs pts.ext1
  let out ← onColumns2 (m.coeffGrad c) mem pts mem2 sens output.1 output.2 order
  .ok (out, output.2)

/-- `Gradient(StridedMatrix pts, StridedMatrix sens)`, ParameterizedFunctionBase.cpp 106–113. -/
def gradientView (m : CMap) (c mem : List ℝ) (pts : View2) (mem2 : List ℝ) (sens : View2) (order : List Nat) :
    Res (List ℝ × View2) := do
  let output := newView m.inputDim pts.ext1
  let out ← onColumns2 (m.grad c) mem pts mem2 sens output.1 output.2 order
  .ok (out, output.2)

/-- `LogDeterminant(StridedMatrix pts)`, ConditionalMapBase.cpp 9–15; the output is a vector, here a matrix of one row. -/
def logDetView (m : CMap) (c mem : List ℝ) (pts : View2) (order : List Nat) : Res (List ℝ × View2) := do
  let output := newView 1 pts.ext1
  let out ← onColumns (logDetColumn m c) mem pts output.1 output.2 order
  .ok (out, output.2)

/-- `Inverse(StridedMatrix x1, StridedMatrix r)`, ConditionalMapBase.cpp 67–81. -/
def inverseView (m : CMap) (c mem : List ℝ) (x1 : View2) (mem2 : List ℝ) (r : View2) (order : List Nat) : Res (List ℝ × View2) :=
  if x1.ext1 ≠ r.ext1 then .throw
  else do
    let output := newView m.outputDim r.ext1
    let out ← onColumns2 (m.inv c) mem x1 mem2 r output.1 output.2 order
    .ok (out, output.2)

/-- `LogDeterminantCoeffGrad(StridedMatrix pts)`, ConditionalMapBase.cpp 145–151. -/
def ldCoeffGradView (m : CMap) (c mem : List ℝ) (pts : View2) (order : List Nat) : Res (List ℝ × View2) := do
  let output := newView m.numCoeffs pts.ext1
  let out ← onColumns (m.ldCoeffGrad c) mem pts output.1 output.2 order
  .ok (out, output.2)

/-- `LogDeterminantInputGrad(StridedMatrix pts)`, ConditionalMapBase.cpp 221–228: as many rows as the points. -/
def ldInputGradView (m : CMap) (c mem : List ℝ) (pts : View2) (order : List Nat) : Res (List ℝ × View2) := do
  let output := newView pts.ext0 pts.ext1
  let out ← onColumns (m.ldInputGrad c) mem pts output.1 output.2 order
  .ok (out, output.2)

/-! ### Overloads that take Eigen matrices -/

/-- `Evaluate(Eigen::Ref<const RowMatrixXd> pts)`, ParameterizedFunctionBase.cpp 37–46; `junk` is what the new matrix `output` contains. -/
def evaluateEigen (m : CMap) (c mem : List ℝ) (pts : EigenMat) (junk : Nat → ℝ) (order : List Nat) : Res RowMatrix := do
  let output : EigenMat := ⟨true, 0, m.outputDim, pts.cols, pts.cols, 1⟩
  let out ← onColumns (m.eval c) mem (constRowMatToKokkos pts) ((List.range (m.outputDim * pts.cols)).map junk)
    (matToKokkos output) order
  .ok ⟨m.outputDim, pts.cols, out⟩

/-- `Gradient(pts, sens)`, ParameterizedFunctionBase.cpp 116–126. -/
def gradientEigen (m : CMap) (c mem : List ℝ) (pts : EigenMat) (mem2 : List ℝ) (sens : EigenMat) (junk : Nat → ℝ) (order : List Nat) :
    Res RowMatrix := do
  let output : EigenMat := ⟨true, 0, m.inputDim, pts.cols, pts.cols, 1⟩
  let out ← onColumns2 (m.grad c) mem (constRowMatToKokkos pts) mem2 (constRowMatToKokkos sens)
    ((List.range (m.inputDim * pts.cols)).map junk) (matToKokkos output) order
  .ok ⟨m.inputDim, pts.cols, out⟩

/-- `CoeffGrad(pts, sens)`, ParameterizedFunctionBase.cpp 280–289. -/
def coeffGradEigen (m : CMap) (c mem : List ℝ) (pts : EigenMat) (mem2 : List ℝ) (sens : EigenMat) (order : List Nat) :
    Res RowMatrix := do
  let r ← coeffGradView m c mem (constRowMatToKokkos pts) mem2 (constRowMatToKokkos sens) order
  returned r.1 r.2

/-- `LogDeterminant(pts)`, ConditionalMapBase.cpp 18–25. -/
def logDetEigen (m : CMap) (c mem : List ℝ) (pts : EigenMat) (order : List Nat) : Res (List ℝ) := do
  let r ← logDetView m c mem (constRowMatToKokkos pts) order
  let v := kokkosToVec false ⟨r.2.data, r.2.ext1, r.2.str1⟩
  readFrom r.1 v.addr 0 v.size

/-- `Inverse(x1, r)`, ConditionalMapBase.cpp 84–93. -/
def inverseEigen (m : CMap) (c mem : List ℝ) (x1 : EigenMat) (mem2 : List ℝ) (r : EigenMat) (order : List Nat) : Res RowMatrix := do
  let r ← inverseView m c mem (constRowMatToKokkos x1) mem2 (constRowMatToKokkos r) order
  returned r.1 r.2

/-- `LogDeterminantCoeffGrad(pts)`, ConditionalMapBase.cpp 154–162. -/
def ldCoeffGradEigen (m : CMap) (c mem : List ℝ) (pts : EigenMat) (order : List Nat) : Res RowMatrix := do
  let r ← ldCoeffGradView m c mem (constRowMatToKokkos pts) order
  returned r.1 r.2

/-- `LogDeterminantInputGrad(pts)`, ConditionalMapBase.cpp 231–239. -/
def ldInputGradEigen (m : CMap) (c mem : List ℝ) (pts : EigenMat) (order : List Nat) : Res RowMatrix := do
  let r ← ldInputGradView m c mem (constRowMatToKokkos pts) order
  returned r.1 r.2

end MParT.Arrays
