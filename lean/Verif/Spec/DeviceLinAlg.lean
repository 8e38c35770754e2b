import Verif.Model.DeviceLinAlg
import Verif.Spec.DeviceMaps
import Verif.Spec.LinearAlgebra
/-!
# Specification: matrices and factorisations in device memory
-/
namespace MParT.Spec
open Arrays LinAlg

/-- The array is the matrix `M`. -/
def IsMatrix {s : Space} {m n : Nat} (A : Mat s) (M : Matrix (Fin m) (Fin n) ℝ) : Prop :=
  A.view.ext0 = m ∧ A.view.ext1 = n ∧ ∀ (i : Fin m) (j : Fin n), A.mem[A.view.addr i j]? = some (M i j)

/-- The transpose object stands for the matrix `M`. -/
def StandsForDev {m n : Nat} (A : DevTrans) (M : Matrix (Fin m) (Fin n) ℝ) : Prop :=
  (A.isTransposed = false ∧ IsMatrix A.mat M) ∨ (A.isTransposed = true ∧ IsMatrix A.mat M.transpose)

/-- If the columns are contiguous then the next column starts behind the end of the last one. -/
def ColumnsApart {s : Space} (A : Mat s) : Prop := A.view.str0 = 1 → A.view.ext0 ≤ A.view.str1

/-- `getrf` is a factorisation `P A = L U` with row exchanges, with both triangles in the memory of `A`; `info` is positive exactly if `U` has a zero on its
diagonal, and not negative. -/
def IsGetrf (getrf : Getrf) : Prop := ∀ n (mem : List ℝ), mem.length = n * n →
  (getrf n mem).1.length = n * n ∧
  Factorises (matOf n mem n) ⟨(getrf n mem).2.1, matOf n (getrf n mem).1 n⟩ ∧
  0 ≤ (getrf n mem).2.2 ∧ (0 < (getrf n mem).2.2 ↔ ∃ i, matOf n (getrf n mem).1 n i i = 0)

/-- `potrf` is the Cholesky factorisation of the symmetric matrix whose lower triangle is given; it replaces the lower triangle. `info` is 0 exactly if the
matrix is positive definite, and not negative. -/
def IsPotrf (potrf : Potrf) : Prop := ∀ n (mem : List ℝ), mem.length = n * n →
  (potrf n mem).1.length = n * n ∧ 0 ≤ (potrf n mem).2 ∧
  ((potrf n mem).2 = 0 ↔ (lowerSym (matOf n mem n)).PosDef) ∧
  ((potrf n mem).2 = 0 → IsCholesky (lowerPart (matOf n (potrf n mem).1 n)) (lowerSym (matOf n mem n)))

end MParT.Spec
