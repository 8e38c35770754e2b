import Verif.Model.Maps
import Mathlib.LinearAlgebra.Matrix.NonsingularInverse
import Mathlib.Analysis.SpecialFunctions.Log.Basic
/-!
# Model of `AffineMap` and `AffineFunction`

Source: `src/AffineMap.cpp`, `src/AffineFunction.cpp`, `src/Utilities/LinearAlgebra.cpp`. Same conventions as in
`Model/Maps.lean`. Eigen's LU factorisation is not modelled: `solveInPlace` is multiplication with the inverse matrix and
`determinant()` the determinant.
-/
namespace MParT

/-- A two-dimensional view: extents and entries. `A_`, AffineMap.h 68. -/
structure View2 (α : Type) where
  n0 : Nat
  n1 : Nat
  get : Nat → Nat → α

namespace View2

/-- A view that was never given a size. `A_` after `AffineMap(b)`, AffineMap.cpp 11–16. -/
def empty {α : Type} [Zero α] : View2 α := ⟨0, 0, fun _ _ => 0⟩

/-- `transpose(A)`, LinearAlgebra.h 152–171 with the `isTransposed` branch of `dgemm`. -/
def transpose {α : Type} (A : View2 α) : View2 α := ⟨A.n1, A.n0, fun i j => A.get j i⟩

/-- `Kokkos::subview(A, Kokkos::ALL(), std::make_pair(a, b))`. AffineMap.cpp 46 and 113. -/
def cols {α : Type} (A : View2 α) (a b : Nat) : View2 α := ⟨A.n0, b - a, fun i j => A.get i (a + j)⟩

end View2

/-- `dgemm(alpha, A, B, beta, C)` on one column: `C = beta*C + alpha*A*B`, LinearAlgebra.cpp 10–35. Sizes that do not match
are an Eigen assertion. The scalars are a parameter so that values that are not numbers can be considered too. -/
def gemv {α : Type} [Zero α] [Add α] [Mul α] (alpha : α) (A : View2 α) (B : List α) (beta : α) (C : List α) :
    Res (List α) :=
  if A.n1 = B.length ∧ A.n0 = C.length then
    .ok ((List.range A.n0).map fun i =>
      beta * C.getD i 0 + alpha * ((List.range A.n1).map fun k => A.get i k * B.getD k 0).sum)
  else .throw

namespace AffineMap

/-- `output(i,j) = v(i)` for `i < n`, as in AffineMap.cpp 94–96 and 147–150. -/
def fillRows (f : Nat → ℝ) (output : List ℝ) : Nat → Nat → Res (List ℝ)
  | _, 0 => .ok output
  | i, n + 1 => do
    let output ← Res.setIdx output i (f i)
    fillRows f output (i + 1) n

/-- `EvaluateImpl`, AffineMap.cpp 137–164 and AffineFunction.cpp 42–70. -/
def evaluate (A : View2 ℝ) (b : List ℝ) (outDim : Nat) (pts output : List ℝ) : Res (List ℝ) := do
  let output ← if 0 < A.n0 then do
      let output ← fillRows (fun _ => 0) output 0 outDim
      gemv 1 A pts 0 output
    else deepCopy output pts
  if 0 < b.length then addRows output b 0 outDim else return output

/-- `GradientImpl`, AffineMap.cpp 181–192 and AffineFunction.cpp 80–91. -/
def gradient (A : View2 ℝ) (sens output : List ℝ) : Res (List ℝ) :=
  if 0 < A.n0 then gemv 1 A.transpose sens 0 output else deepCopy output sens

/-- The square matrix that is factorised, AffineMap.cpp 45–50: the last columns. -/
def square (A : View2 ℝ) : Matrix (Fin A.n0) (Fin A.n0) ℝ :=
  if A.n0 ≠ A.n1 then Matrix.of fun i j => (A.cols (A.n1 - A.n0) A.n1).get i j
  else Matrix.of fun i j => A.get i j

open Classical in
/-- `logDet_`, AffineMap.cpp 11–14 and 51; `none` is `-infinity`. -/
noncomputable def logDetValue (A : View2 ℝ) : Option ℝ :=
  if 0 < A.n0 then
    if (square A).det = 0 then none else some (Real.log |(square A).det|)
  else some 0

open Classical in
/-- `luSolver_.solveInPlace(x)`, LinearAlgebra.cpp 60–67; a singular matrix (division by zero) is undefined behaviour. -/
noncomputable def solve {n : Nat} (M : Matrix (Fin n) (Fin n) ℝ) (x : List ℝ) : Res (List ℝ) :=
  if M.det = 0 then .ub
  else if x.length ≠ n then .throw
  else .ok (List.ofFn (M⁻¹.mulVec fun i => x.getD i 0))

/-- The first part of `InverseImpl`, AffineMap.cpp 88–100: `outLeft = r - b`. -/
def shiftBack (b : List ℝ) (outDim : Nat) (r outLeft : List ℝ) : Res (List ℝ) :=
  if 0 < b.length then
    if r.length < outDim ∨ b.length < outDim then .ub
    else fillRows (fun i => r.getD i 0 - b.getD i 0) outLeft 0 outDim
  else deepCopy outLeft r

/-- The second part of `InverseImpl`, AffineMap.cpp 102–124. -/
noncomputable def solveBack (A : View2 ℝ) (x1 outLeft : List ℝ) : Res (List ℝ) :=
  if A.n0 ≠ A.n1 then do
    let xsub ← rows x1 0 (A.n1 - A.n0)
    let outLeft ← gemv (-1) (A.cols 0 (A.n1 - A.n0)) xsub 1 outLeft
    solve (square A) outLeft
  else solve (square A) outLeft

/-- `InverseImpl`, AffineMap.cpp 66–126; `strided` says that the output is not column major, so that a copy is used. -/
noncomputable def inverse (A : View2 ℝ) (b : List ℝ) (outDim : Nat) (strided : Bool) (x1 r output : List ℝ) :
    Res (List ℝ) :=
  if 0 < A.n0 then
    if strided then do
      let outLeft ← shiftBack b outDim r (List.replicate output.length 0)
      let outLeft ← solveBack A x1 outLeft
      deepCopy output outLeft
    else do
      let outLeft ← shiftBack b outDim r output
      solveBack A x1 outLeft
  else shiftBack b outDim r output

/-- The object with matrix `A` (possibly without entries) and offset `b` (possibly without entries), AffineMap.cpp 10–192.
`CoeffGradImpl`, `LogDeterminantCoeffGradImpl` and `LogDeterminantInputGradImpl` return without writing anything. -/
noncomputable def obj (A : View2 ℝ) (b : List ℝ) (inDim outDim : Nat) (strided : Bool) : CMap where
  inputDim := inDim
  outputDim := outDim
  numCoeffs := 0
  eval _ := evaluate A b outDim
  logDet _ _ _ := .ok (logDetValue A)
  inv _ := inverse A b outDim strided
  grad _ _ := gradient A
  coeffGrad _ _ _ output := .ok output
  ldCoeffGrad _ _ output := .ok output
  ldInputGrad _ _ output := .ok output

/-- `AffineMap(b)`, AffineMap.cpp 10–16. -/
noncomputable def newB (b : List ℝ) (strided : Bool) : Res CMap := .ok (obj View2.empty b b.length b.length strided)

/-- `AffineMap(A)`, AffineMap.cpp 18–25. -/
noncomputable def newA (A : View2 ℝ) (strided : Bool) : Res CMap :=
  if A.n0 ≤ A.n1 then .ok (obj A [] A.n1 A.n0 strided) else .throw

/-- `AffineMap(A, b)`, AffineMap.cpp 28–39. -/
noncomputable def newAB (A : View2 ℝ) (b : List ℝ) (strided : Bool) : Res CMap :=
  if A.n0 ≤ A.n1 ∧ A.n0 = b.length then .ok (obj A b A.n1 A.n0 strided) else .throw

end AffineMap

namespace AffineFunction

/-- The functions of an `AffineFunction`, AffineFunction.cpp 42–91. There are no coefficients; `CoeffGradImpl` writes nothing. -/
def summary (A : View2 ℝ) (b : List ℝ) (inDim outDim : Nat) : Summary where
  inputDim := inDim
  outputDim := outDim
  eval := AffineMap.evaluate A b outDim
  grad _ := AffineMap.gradient A

/-- `AffineFunction(b)`, AffineFunction.cpp 12–18. -/
def newB (b : List ℝ) : Res Summary := .ok (summary View2.empty b b.length b.length)

/-- `AffineFunction(A)`, AffineFunction.cpp 20–26, with its assertion. -/
def newA (A : View2 ℝ) : Res Summary := if A.n0 ≤ A.n1 then .ok (summary A [] A.n1 A.n0) else .throw

/-- `AffineFunction(A, b)`, AffineFunction.cpp 29–39, with its assertions. -/
def newAB (A : View2 ℝ) (b : List ℝ) : Res Summary :=
  if A.n0 ≤ A.n1 then if A.n0 = b.length then .ok (summary A b A.n1 A.n0) else .throw else .throw

end AffineFunction
end MParT
