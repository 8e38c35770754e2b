import Verif.Model.DeviceMaps
import Verif.Spec.Arrays
/-!
# Specification: matrices in host and device memory
-/
namespace MParT.Spec
open Arrays

/-- The array is the matrix with entries `M i j`, `i < rows`, `j < cols`. -/
structure Holds {s : Space} (A : Mat s) (rows cols : Nat) (M : Nat → Nat → ℝ) : Prop where
  rows_eq : A.view.ext0 = rows
  cols_eq : A.view.ext1 = cols
  entry : ∀ i j, i < rows → j < cols → A.mem[A.view.addr i j]? = some (M i j)

/-- Different entries of the array are different memory. -/
def NoOverlap {s : Space} (A : Mat s) : Prop := ∀ i j i' j', i < A.view.ext0 → j < A.view.ext1 → i' < A.view.ext0 → j' < A.view.ext1 →
  A.view.addr i j = A.view.addr i' j' → i = i' ∧ j = j'

/-- Consecutive entries of a column, or of a row, are consecutive in memory. -/
def UnitStride {s : Space} (A : Mat s) : Prop := A.view.str0 = 1 ∨ A.view.str1 = 1

/-- The matrix with the given columns. -/
def ofCols (F : Nat → List ℝ) (i j : Nat) : ℝ := (F j).getD i 0

end MParT.Spec
