import Verif.Model.AffineMap
import Mathlib.LinearAlgebra.Matrix.Determinant.Basic
import Mathlib.GroupTheory.Perm.Sign
/-!
# Model of the matrix helpers

Source: `MParT/Utilities/LinearAlgebra.h`, `src/Utilities/LinearAlgebra.cpp` (the host versions).

Simplifications
* exact arithmetic, a division by zero is undefined behaviour;
* a view is its extents and its entries, so that all layouts are the same (see `Model/Arrays.lean` for strides);
* Eigen's factorisations are not modelled: the theorems hold for whatever factors satisfy the defining equation. The
  triangular solves are substitution, row by row.
-/
namespace MParT.LinAlg

/-- `TransposeObject`, LinearAlgebra.h 151–163. -/
structure Trans (R : Type) where
  view : View2 R
  isTransposed : Bool

section
variable {R : Type}

/-- `TransposeObject(view)`, LinearAlgebra.h 154–156: the default is not transposed. -/
def Trans.ofView (v : View2 R) : Trans R := ⟨v, false⟩

/-- `TransposeObject::rows`, LinearAlgebra.h 161. -/
def Trans.rows (A : Trans R) : Nat := if A.isTransposed then A.view.n1 else A.view.n0

/-- `TransposeObject::cols`, LinearAlgebra.h 162. -/
def Trans.cols (A : Trans R) : Nat := if A.isTransposed then A.view.n0 else A.view.n1

/-- `transpose(view)`, LinearAlgebra.h 165–167. -/
def transposeView (v : View2 R) : Trans R := ⟨v, true⟩

/-- `transpose(TransposeObject)`, LinearAlgebra.h 170–171. -/
def transposeTrans (A : Trans R) : Trans R := ⟨A.view, if A.isTransposed then false else true⟩

variable [CommRing R]

/-- Eigen's product of two matrices; sizes that do not match are an assertion. LinearAlgebra.cpp 23–31. -/
def product (A B : View2 R) : Res (View2 R) :=
  if A.n1 = B.n0 then .ok ⟨A.n0, B.n1, fun i j => ((List.range A.n1).map fun k => A.get i k * B.get k j).sum⟩ else .throw

/-- `eigC = (beta*eigC + alpha*P).eval()`, LinearAlgebra.cpp 21–33. -/
def combine (alpha beta : R) (C P : View2 R) : Res (View2 R) :=
  if C.n0 = P.n0 ∧ C.n1 = P.n1 then .ok ⟨C.n0, C.n1, fun i j => beta * C.get i j + alpha * P.get i j⟩ else .throw

/-- `dgemm(alpha, A, B, beta, C)`, LinearAlgebra.cpp 9–35. -/
def dgemm (alpha : R) (A B : Trans R) (beta : R) (C : View2 R) : Res (View2 R) :=
  if A.isTransposed then
    if B.isTransposed then do
      let P ← product A.view.transpose B.view.transpose
      combine alpha beta C P
    else do
      let P ← product A.view.transpose B.view
      combine alpha beta C P
  else
    if B.isTransposed then do
      let P ← product A.view B.view.transpose
      combine alpha beta C P
    else do
      let P ← product A.view B.view
      combine alpha beta C P

/-- `dgemm` on views, LinearAlgebra.h 196–208. -/
def dgemmViews (alpha : R) (A B : View2 R) (beta : R) (C : View2 R) : Res (View2 R) :=
  dgemm alpha ⟨A, false⟩ ⟨B, false⟩ beta C

/-- `operator*` on transpose objects, LinearAlgebra.h 223–231; the new view is filled with zeros. -/
def mul (A B : Trans R) : Res (View2 R) :=
  if A.cols = B.rows then dgemm 1 A B 0 ⟨A.rows, B.cols, fun _ _ => 0⟩ else .throw

/-- `operator*` on two views, LinearAlgebra.h 173–179. -/
def mulViews (A B : View2 R) : Res (View2 R) := mul (.ofView A) (.ofView B)

/-- `operator*` on a transpose object and a view, LinearAlgebra.h 181–186. -/
def mulTransView (A : Trans R) (B : View2 R) : Res (View2 R) := mul A (.ofView B)

/-- `operator*` on a view and a transpose object, LinearAlgebra.h 188–193. -/
def mulViewTrans (A : View2 R) (B : Trans R) : Res (View2 R) := mul (.ofView A) B

/-- `x_(i) += y_(i)`, LinearAlgebra.h 37. -/
def addAt (y : List R) (x : List R) (i : Nat) : Res (List R) := do
  let a ← Res.idx x i
  let b ← Res.idx y i
  Res.setIdx x i (a + b)

/-- The parallel loop of `AddInPlace` on vectors: the iterations, in the order in which they happen to run. LinearAlgebra.h 44. -/
def addSteps (y : List R) : List Nat → List R → Res (List R)
  | [], x => .ok x
  | i :: is, x => do
    let x ← addAt y x i
    addSteps y is x

/-- `AddInPlace` on vectors, LinearAlgebra.h 24–45. -/
def addInPlaceVec (order : List Nat) (x y : List R) : Res (List R) :=
  if x.length = y.length then addSteps y order x else .throw

/-- `x_(i,j) += y_(i,j)`, LinearAlgebra.h 64. -/
def addAt2 (y : View2 R) (x : View2 R) (p : Nat × Nat) : Res (View2 R) :=
  if p.1 < x.n0 ∧ p.2 < x.n1 ∧ p.1 < y.n0 ∧ p.2 < y.n1 then
    .ok ⟨x.n0, x.n1, fun i j => if i = p.1 ∧ j = p.2 then x.get i j + y.get i j else x.get i j⟩
  else .ub

/-- The parallel loop of `AddInPlace` on matrices. LinearAlgebra.h 71. -/
def addSteps2 (y : View2 R) : List (Nat × Nat) → View2 R → Res (View2 R)
  | [], x => .ok x
  | p :: ps, x => do
    let x ← addAt2 y x p
    addSteps2 y ps x

/-- `AddInPlace` on matrices, LinearAlgebra.h 50–72. -/
def addInPlace2 (order : List (Nat × Nat)) (x y : View2 R) : Res (View2 R) :=
  if x.n0 = y.n0 ∧ x.n1 = y.n1 then addSteps2 y order x else .throw

/-- `operator+` on vectors, LinearAlgebra.h 77–85 and 95–103: `Kokkos::deep_copy` throws when the extents differ. -/
def add (order : List Nat) (x y : List R) : Res (List R) := do
  let z ← (if (List.replicate x.length (0 : R)).length = x.length then .ok x else .throw : Res (List R))
  addInPlaceVec order z y

/-- `operator+` on matrices, LinearAlgebra.h 86–94 and 104–112: the result has the rows of `x` and the columns of `y`. -/
def add2 (order : List (Nat × Nat)) (x y : View2 R) : Res (View2 R) := do
  let z ← (if y.n1 = x.n1 then .ok ⟨x.n0, y.n1, x.get⟩ else .throw : Res (View2 R))
  addInPlace2 order z y

end

/-! ## Triangular solves -/

/-- Forward substitution with the lower triangle of `L` and the diagonal `d`: the first `k` entries of the solution.
(`triangularView<Lower>().solveInPlace`, used in LinearAlgebra.cpp 65, 89 and 97.) -/
noncomputable def forward (L : Nat → Nat → ℝ) (d : Nat → ℝ) (b : Nat → ℝ) : Nat → List ℝ
  | 0 => []
  | i + 1 =>
    let x := forward L d b i
    x ++ [(b i - ((List.range i).map fun j => L i j * x.getD j 0).sum) / d i]

/-- Backward substitution with the upper triangle of `U`, of size `n`: the last `k` entries of the solution.
(`triangularView<Upper>().solveInPlace`, used in LinearAlgebra.cpp 66 and 90.) -/
noncomputable def backward (U : Nat → Nat → ℝ) (n : Nat) (b : Nat → ℝ) : Nat → List ℝ
  | 0 => []
  | k + 1 =>
    let x := backward U n b k
    (b (n - (k + 1)) - ((List.range k).map fun j => U (n - (k + 1)) (n - k + j) * x.getD j 0).sum)
      / U (n - (k + 1)) (n - (k + 1)) :: x

/-- `x` where `d` has no zero among its first `n` entries. Divisions in LinearAlgebra.cpp 65–66, 89–90. -/
noncomputable def guardDiag (n : Nat) (d : Nat → ℝ) (x : List ℝ) : Res (List ℝ) :=
  open Classical in if ∃ i, i < n ∧ d i = 0 then .ub else .ok x

/-- A matrix as a function of natural numbers. LinearAlgebra.cpp 63. -/
def ext {n : Nat} (A : Matrix (Fin n) (Fin n) ℝ) (i j : Nat) : ℝ := if h : i < n ∧ j < n then A ⟨i, h.1⟩ ⟨j, h.2⟩ else 0

/-- What `Eigen::PartialPivLU` stores: the permutation (row `i` of the permuted matrix is row `perm i` of the given one) and
both triangles in one matrix. Eigen library; LinearAlgebra.cpp 56, 64–66. -/
structure LU (n : Nat) where
  perm : Equiv.Perm (Fin n)
  lu : Matrix (Fin n) (Fin n) ℝ

/-- `permutationP() * x` for one column, LinearAlgebra.cpp 64. -/
def LU.permute {n : Nat} (f : LU n) (x : Nat → ℝ) (i : Nat) : ℝ := if h : i < n then x (f.perm ⟨i, h⟩) else 0

/-- One column of `PartialPivLU::solveInPlace`, LinearAlgebra.cpp 60–67: permute, solve with the unit lower triangle, solve with
the upper triangle. -/
noncomputable def LU.solveColumn {n : Nat} (f : LU n) (x : Nat → ℝ) : Res (List ℝ) := do
  let y := f.permute x
  let z ← guardDiag n (fun _ => 1) (forward (ext f.lu) (fun _ => 1) y n)
  guardDiag n (fun i => ext f.lu i i) (backward (ext f.lu) n (fun i => z.getD i 0) n)

/-- Columns of a matrix, one after the other. LinearAlgebra.cpp 64–66. -/
def columnsOf (X : View2 ℝ) (f : (Nat → ℝ) → Res (List ℝ)) : Nat → Nat → Res (List (List ℝ))
  | _, 0 => .ok []
  | j, k + 1 => do
    let c ← f fun i => X.get i j
    let cs ← columnsOf X f (j + 1) k
    .ok (c :: cs)

/-- The matrix with the given columns. LinearAlgebra.cpp 64–66. -/
def ofColumns (n0 : Nat) (cs : List (List ℝ)) : View2 ℝ := ⟨n0, cs.length, fun i j => (cs.getD j []).getD i 0⟩

/-- `PartialPivLU::solveInPlace`, LinearAlgebra.cpp 60–67; `none` is an object for which `compute` was not called (a null
pointer). -/
noncomputable def luSolveInPlace {n : Nat} (f : Option (LU n)) (X : View2 ℝ) : Res (View2 ℝ) :=
  match f with
  | none => .ub
  | some f =>
    if X.n0 = n then do
      let cs ← columnsOf X f.solveColumn 0 X.n1
      .ok (ofColumns n cs)
    else .throw

/-- `PartialPivLU::solve`, LinearAlgebra.cpp 38–45: a copy is solved in place. -/
noncomputable def luSolve {n : Nat} (f : Option (LU n)) (X : View2 ℝ) : Res (View2 ℝ) := do
  let output : View2 ℝ := ⟨X.n0, X.n1, X.get⟩
  luSolveInPlace f output

/-- `PartialPivLU::determinant`, LinearAlgebra.cpp 69–74: the assertion reads `isComputed`, which has no value before `compute`
(LinearAlgebra.h 291, 309); Eigen multiplies the diagonal and the sign of the permutation. -/
noncomputable def luDeterminant {n : Nat} (f : Option (LU n)) : Res ℝ :=
  match f with
  | none => .ub
  | some f => .ok ((Equiv.Perm.sign f.perm : ℤ) * ∏ i, f.lu i i)

/-! ## Cholesky -/

/-- `matrixL().solveInPlace(x)` for one column, LinearAlgebra.cpp 89 and 97. -/
noncomputable def cholForward {n : Nat} (L : Matrix (Fin n) (Fin n) ℝ) (x : Nat → ℝ) : Res (List ℝ) :=
  guardDiag n (fun i => ext L i i) (forward (ext L) (fun i => ext L i i) x n)

/-- `matrixU().solveInPlace(x)` for one column, LinearAlgebra.cpp 90: `matrixU()` is the transpose of the lower triangle. -/
noncomputable def cholBackward {n : Nat} (L : Matrix (Fin n) (Fin n) ℝ) (x : Nat → ℝ) : Res (List ℝ) :=
  guardDiag n (fun i => ext L i i) (backward (fun i j => ext L j i) n x n)

/-- `Cholesky::solveInPlaceL`, LinearAlgebra.cpp 93–98. -/
noncomputable def cholSolveInPlaceL {n : Nat} (L : Option (Matrix (Fin n) (Fin n) ℝ)) (X : View2 ℝ) : Res (View2 ℝ) :=
  match L with
  | none => .ub
  | some L =>
    if X.n0 = n then do
      let cs ← columnsOf X (cholForward L) 0 X.n1
      .ok (ofColumns n cs)
    else .throw

/-- `Cholesky::solveInPlace`, LinearAlgebra.cpp 85–91. -/
noncomputable def cholSolveInPlace {n : Nat} (L : Option (Matrix (Fin n) (Fin n) ℝ)) (X : View2 ℝ) : Res (View2 ℝ) :=
  match L with
  | none => .ub
  | some L => do
    let X ← cholSolveInPlaceL (some L) X
    let cs ← columnsOf X (cholBackward L) 0 X.n1
    .ok (ofColumns n cs)

/-- `Cholesky::solve`, LinearAlgebra.cpp 110–117. -/
noncomputable def cholSolve {n : Nat} (L : Option (Matrix (Fin n) (Fin n) ℝ)) (X : View2 ℝ) : Res (View2 ℝ) := do
  let output : View2 ℝ := ⟨X.n0, X.n1, X.get⟩
  cholSolveInPlace L output

/-- `Cholesky::multiplyL`, LinearAlgebra.cpp 100–108: the product with the lower triangle. -/
def cholMultiplyL {n : Nat} (L : Option (Matrix (Fin n) (Fin n) ℝ)) (X : View2 ℝ) : Res (View2 ℝ) :=
  match L with
  | none => .ub
  | some L => product ⟨n, n, fun i j => if j ≤ i then ext L i j else 0⟩ X

/-- `Cholesky::determinant`, LinearAlgebra.cpp 119–125: the assertion reads `isComputed`, which has no value before `compute`
(LinearAlgebra.h 332, 357); the square of the product of the diagonal. -/
noncomputable def cholDeterminant {n : Nat} (L : Option (Matrix (Fin n) (Fin n) ℝ)) : Res ℝ :=
  match L with
  | none => .ub
  | some L =>
    let sqrtDet := ∏ i, L i i
    .ok (sqrtDet * sqrtDet)

end MParT.LinAlg
