import Verif.Model.Arrays
import Verif.Spec.Maps
/-!
# Specification: arrays as windows into memory, matrices and what the overloads return
-/
namespace MParT.Spec
open Arrays

/-- The view and the Eigen object have the same shape, and entry `(i,j)` of one is the same memory as entry `(i,j)` of the other. -/
def SameCells (v : View2) (r : EigenMat) : Prop :=
  v.ext0 = r.rows ∧ v.ext1 = r.cols ∧ ∀ i j, i < r.rows → j < r.cols → v.addr i j = r.addr i j

/-- The same for vectors. -/
def SameCells1 (v : View1) (r : EigenVec) : Prop := v.ext = r.size ∧ ∀ i, i < r.size → v.addr i = r.addr i

/-- The entries of the Eigen object in the memory `mem` are `M i j`. -/
def Stores (mem : List ℝ) (r : EigenMat) (M : Nat → Nat → ℝ) : Prop :=
  ∀ i j, i < r.rows → j < r.cols → mem[r.addr i j]? = some (M i j)

/-- The same for a view. -/
def StoresView (mem : List ℝ) (v : View2) (M : Nat → Nat → ℝ) : Prop :=
  ∀ i j, i < v.ext0 → j < v.ext1 → mem[v.addr i j]? = some (M i j)

/-- Column `j` of the matrix with the given number of rows. -/
def col (rows : Nat) (M : Nat → Nat → ℝ) (j : Nat) : List ℝ := (List.range rows).map fun i => M i j

/-- The Eigen object is what an `Eigen::Ref<const RowMatrixXd>` refers to and has contiguous memory. -/
structure Contiguous (r : EigenMat) : Prop where
  rowMajor : r.rowMajor = true
  inner : r.inner = 1
  outer : r.rows ≤ 1 ∨ r.outer = r.cols

/-- The returned matrix has the given columns. -/
structure HasColumns (R : RowMatrix) (rows cols : Nat) (F : Nat → List ℝ) : Prop where
  rows_eq : R.rows = rows
  cols_eq : R.cols = cols
  size : R.entries.length = rows * cols
  entry : ∀ i j, i < rows → j < cols → R.entries.getD (i * cols + j) 0 = (F j).getD i 0

/-- A returned view, with the memory behind it: a row-major matrix with the given columns. -/
structure Gives (R : List ℝ × View2) (rows cols : Nat) (F : Nat → List ℝ) : Prop where
  view : R.2 = layoutRight 0 rows cols
  size : R.1.length = rows * cols
  entry : ∀ i j, i < rows → j < cols → R.1[R.2.addr i j]? = some ((F j).getD i 0)

/-- `y` is the one solution of `T(lead, y) = r`. -/
def Solves (m : CMap) (c : List ℝ) (lead r : List ℝ) (y : List ℝ) : Prop :=
  y.length = m.outputDim ∧ fn m c (lead ++ y) = r ∧ ∀ y' : List ℝ, y'.length = m.outputDim → fn m c (lead ++ y') = r → y' = y

end MParT.Spec
