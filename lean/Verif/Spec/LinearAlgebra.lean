import Verif.Model.LinearAlgebra
import Verif.Spec.Distributions
import Mathlib.LinearAlgebra.Matrix.PosDef
/-!
# Vocabulary for the matrix helpers
-/
namespace MParT.Spec

open LinAlg

/-- The entries of a view, as a matrix. -/
def mat {R : Type} (m n : Nat) (V : View2 R) : Matrix (Fin m) (Fin n) R := Matrix.of fun i j => V.get i j

/-- The matrix a transpose object stands for. -/
def opMat {R : Type} (m n : Nat) (A : Trans R) : Matrix (Fin m) (Fin n) R :=
  if A.isTransposed then (mat n m A.view).transpose else mat m n A.view

/-- The view `V` is the `m × n` matrix `M`. -/
def IsMat {R : Type} {m n : Nat} (V : View2 R) (M : Matrix (Fin m) (Fin n) R) : Prop :=
  V.n0 = m ∧ V.n1 = n ∧ ∀ (i : Fin m) (j : Fin n), V.get i j = M i j

/-- The transpose object `A` stands for the `m × n` matrix `M`: its view is `M`, or its view is the transpose of `M` and marked
as transposed. -/
def StandsFor {R : Type} {m n : Nat} (A : Trans R) (M : Matrix (Fin m) (Fin n) R) : Prop :=
  (A.isTransposed = false ∧ IsMat A.view M) ∨ (A.isTransposed = true ∧ IsMat A.view M.transpose)

/-- The lower triangle, with ones on the diagonal. -/
def unitLower {n : Nat} (M : Matrix (Fin n) (Fin n) ℝ) : Matrix (Fin n) (Fin n) ℝ :=
  Matrix.of fun i j => if j < i then M i j else if i = j then 1 else 0

/-- The upper triangle with the diagonal. -/
def upper {n : Nat} (M : Matrix (Fin n) (Fin n) ℝ) : Matrix (Fin n) (Fin n) ℝ :=
  Matrix.of fun i j => if i ≤ j then M i j else 0

/-- `f` is an LU factorisation of `A` with row exchanges: `P A = L U`. -/
def Factorises {n : Nat} (A : Matrix (Fin n) (Fin n) ℝ) (f : LU n) : Prop :=
  ∀ i j, A (f.perm i) j = (unitLower f.lu * upper f.lu) i j

/-- The symmetric matrix with the lower triangle of `A`: all that `Eigen::LLT` reads. -/
def lowerSym {n : Nat} (A : Matrix (Fin n) (Fin n) ℝ) : Matrix (Fin n) (Fin n) ℝ :=
  Matrix.of fun i j => if j ≤ i then A i j else A j i

end MParT.Spec
