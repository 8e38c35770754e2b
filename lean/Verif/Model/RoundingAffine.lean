import Verif.Model.Rounding
import Verif.Model.AffineMap
/-!
# Model of affine maps in rounded arithmetic

Source: `src/AffineMap.cpp`, `src/Utilities/LinearAlgebra.cpp`. The order in which Eigen adds the products of a row with a column is not fixed by
the code (it depends on the size of the blocks and of the registers): it is any `Split` of the columns.
-/
namespace MParT.AffineMap
variable {R : Type} [Add R] [Mul R] [Zero R] [One R]

/-- The sum of the products in one entry of `eigA * eigB`, LinearAlgebra.cpp 31; Eigen's loops are replaced by a given split. -/
def sumProducts (f : Nat → R) : Parallel.Split → R
  | .chunk l => l.foldl (fun s k => s + f k) 0
  | .join a b => sumProducts f a + sumProducts f b
  | .andThen a l => l.foldl (fun s k => s + f k) (sumProducts f a)

/-- Entry `i` of `beta*eigC + alpha*eigA*eigB` on one column, LinearAlgebra.cpp 31. Simplified: the factor `alpha` is applied to the sum. -/
def gemvEntry (alpha : R) (A : View2 R) (B : List R) (beta c : R) (s : Parallel.Split) (i : Nat) : R :=
  beta * c + alpha * sumProducts (fun k => A.get i k * B.getD k 0) s

/-- Entry `i` of the output of `EvaluateImpl` at one point, AffineMap.cpp 137–164. -/
def evaluateEntry (A : View2 R) (b pts : List R) (s : Parallel.Split) (i : Nat) : R :=
  let out := if 0 < A.n0 then gemvEntry 1 A pts 0 0 s i else pts.getD i 0
  if 0 < b.length then out + b.getD i 0 else out

/-- Entry `j` of the output of `GradientImpl` at one point, AffineMap.cpp 181–192. `c` is what the output contained: it is multiplied by `0.0`. -/
def gradientEntry (A : View2 R) (sens : List R) (c : R) (s : Parallel.Split) (j : Nat) : R :=
  if 0 < A.n0 then gemvEntry 1 A.transpose sens 0 c s j else sens.getD j 0

end MParT.AffineMap

namespace MParT.View2

/-- The matrix with its entries stored as `double`. `A_`, AffineMap.h 68. -/
def rounded {fl : ℝ → ℝ} (A : View2 ℝ) : View2 (Fl fl) := ⟨A.n0, A.n1, fun i j => Fl.of (A.get i j)⟩

end MParT.View2
