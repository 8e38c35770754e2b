import Verif.Model.DeviceMaps
import Verif.Model.LinearAlgebra
/-!
# Model of the matrix helpers in device memory (`MPART_ENABLE_GPU`)

Source: `src/Utilities/LinearAlgebra.cpp` 127–485, `MParT/Utilities/LinearAlgebra.h` 142–368.

Simplifications
* exact arithmetic, a division by zero is undefined behaviour;
* cuBLAS: `cublasDgemm`, `cublasDtrmm` and `cublasDtrsm` are their reference definitions on column-major memory with a leading dimension; arguments that the
  documentation calls invalid give an error status and leave the output alone;
* cuSOLVER: the factorisations `getrf` and `potrf` are parameters (`Spec/DeviceLinAlg.lean` says what they do), the pivots are a permutation, and the solves are
  substitutions. What `info` is after a solve with an invalid leading dimension is a parameter;
* the output of a product does not share memory with its arguments;
* the leading dimensions are `int` and do not overflow.
-/
namespace MParT.Arrays
open LinAlg

/-- `TransposeObject<mpart::DeviceSpace>`, LinearAlgebra.h 151–163. -/
structure DevTrans where
  mat : Mat .device
  isTransposed : Bool

/-- `rows()`, LinearAlgebra.h 161. -/
def DevTrans.rows (A : DevTrans) : Nat := if A.isTransposed then A.mat.view.ext1 else A.mat.view.ext0

/-- `cols()`, LinearAlgebra.h 162. -/
def DevTrans.cols (A : DevTrans) : Nat := if A.isTransposed then A.mat.view.ext0 else A.mat.view.ext1

/-- A column-major operand of cuBLAS with the leading dimension `ld`, or its transpose. cuBLAS library; LinearAlgebra.cpp 172–180. -/
def opView (trans : Bool) (data rows cols ld : Nat) : View2 := if trans then ⟨data, rows, cols, ld, 1⟩ else ⟨data, rows, cols, 1, ld⟩

/-- The sum of the products of the entries. cuBLAS library; LinearAlgebra.cpp 172. -/
def dotOf (x y : List ℝ) : ℝ := (List.zipWith (· * ·) x y).sum

/-- Entries `i..i+n-1` of `alpha op(A) x + beta old`. cuBLAS library; LinearAlgebra.cpp 172–180. -/
def gemmColumn (alpha : ℝ) (mem : List ℝ) (opA : View2) (beta : ℝ) (x old : List ℝ) (i : Nat) : Nat → Res (List ℝ)
  | 0 => .ok []
  | n + 1 => do
    let row ← readFrom mem (fun l => opA.addr i l) 0 opA.ext1
    let o ← Res.idx old i
    let rest ← gemmColumn alpha mem opA beta x old (i + 1) n
    .ok ((alpha * dotOf row x + beta * o) :: rest)

/-- `cublasDgemm(handle, transa, transb, m, n, k, alpha, A, lda, B, ldb, beta, C, ldc)`: the memory of `C` afterwards. The status is not part of the result
because the code does not look at it. cuBLAS library; LinearAlgebra.cpp 172–180. -/
def cublasDgemm (transa transb : Bool) (m n k : Nat) (alpha : ℝ) (A : List ℝ) (a lda : Nat) (B : List ℝ) (b ldb : Nat) (beta : ℝ) (C : List ℝ) (c ldc : Nat) :
    Res (List ℝ) :=
  if lda < max 1 (if transa then k else m) ∨ ldb < max 1 (if transb then n else k) ∨ ldc < max 1 m then .ok C
  else onColumns (fun x old => gemmColumn alpha A (opView transa a m k lda) beta x old 0 m) B (opView transb b k n ldb) C (opView false c m n ldc) (List.range n)

/-- A column-major version of a matrix, LinearAlgebra.cpp 142–156: the matrix itself if consecutive entries of its columns are consecutive in memory, otherwise
a copy. -/
def leftOf (A : Mat .device) : Res (Mat .device) :=
  if A.view.str0 = 1 then .ok A
  else do
    let v := layoutLeft 0 A.view.ext0 A.view.ext1
    let out ← copyTo A (List.replicate (A.view.ext0 * A.view.ext1) 0) v
    .ok ⟨out, v⟩

/-- `dgemm(alpha, A, B, beta, C)`, LinearAlgebra.cpp 129–185: the memory of `C` afterwards. -/
def devDgemm (alpha : ℝ) (A B : DevTrans) (beta : ℝ) (C : Mat .device) : Res (List ℝ) := do
  let ALeft ← leftOf A.mat
  let BLeft ← leftOf B.mat
  if C.view.str0 = 1 then
    cublasDgemm A.isTransposed B.isTransposed A.rows B.cols A.cols alpha ALeft.mem ALeft.view.data ALeft.view.str1 BLeft.mem BLeft.view.data BLeft.view.str1 beta
      C.mem C.view.data C.view.str1
  else do
    let v := layoutLeft 0 C.view.ext0 C.view.ext1
    let CLeft ← copyTo C (List.replicate (C.view.ext0 * C.view.ext1) 0) v
    let out ← cublasDgemm A.isTransposed B.isTransposed A.rows B.cols A.cols alpha ALeft.mem ALeft.view.data ALeft.view.str1 BLeft.mem BLeft.view.data
      BLeft.view.str1 beta CLeft v.data v.str1
    copyTo (⟨out, v⟩ : Mat .device) C.mem C.view

/-- `A * B`, LinearAlgebra.h 223–231. -/
def devMul (A B : DevTrans) : Res (Mat .device) :=
  if A.cols = B.rows then do
    let C := newDevice A.rows B.cols
    let out ← devDgemm 1 A B 0 ⟨C.1, C.2⟩
    .ok ⟨out, C.2⟩
  else .throw

/-- The `n × n` matrix that a routine finds in column-major memory with the leading dimension `ld`. cuSOLVER and cuBLAS libraries; LinearAlgebra.cpp 275–276, 456. -/
def matOf (n : Nat) (mem : List ℝ) (ld : Nat) : Matrix (Fin n) (Fin n) ℝ := Matrix.of fun i j => mem.getD (i + j * ld) 0

/-- A routine that reads the lower triangle, or all, of such a matrix: memory behind the end is undefined behaviour. cuSOLVER and cuBLAS libraries; LinearAlgebra.cpp
275–276, 456. -/
def loadSquare (n : Nat) (mem : List ℝ) (ld : Nat) : Res (Matrix (Fin n) (Fin n) ℝ) :=
  if n = 0 ∨ (n - 1) + (n - 1) * ld < mem.length then .ok (matOf n mem ld) else .ub

/-- The product of the diagonal entries, in the order in which the reduction runs. LinearAlgebra.cpp 298–300, 476–478. -/
def diagProduct (n : Nat) (mem : List ℝ) : List Nat → Res ℝ
  | [] => .ok 1
  | i :: is => do
    let x ← Res.idx mem (i + i * n)
    let p ← diagProduct n mem is
    .ok (p * x)

/-! ### LU -/

/-- A computed `PartialPivLU<mpart::DeviceSpace>`: `LU_` (column-major, without gaps) and `pivots_`. LinearAlgebra.h 316–317. -/
structure DevLU where
  n : Nat
  mem : List ℝ
  perm : Equiv.Perm (Fin n)

/-- What `cusolverDnXgetrf` does with a column-major `n × n` matrix: the new content, the row exchanges and `info`. LinearAlgebra.cpp 228–240. -/
abbrev Getrf := (n : Nat) → List ℝ → List ℝ × Equiv.Perm (Fin n) × Int

/-- `PartialPivLU<mpart::DeviceSpace>::compute(A)`, LinearAlgebra.cpp 187–256. -/
def luCompute (getrf : Getrf) (A : Mat .device) : Res DevLU :=
  if A.view.ext0 = A.view.ext1 then do
    let n := A.view.ext0
    let LU ← copyTo A (List.replicate (n * n) 0) (layoutLeft 0 n n)
    let r := getrf n LU
    if r.2.2 < 0 then .throw
    else if r.2.2 > 0 then .throw
    else .ok ⟨n, r.1, r.2.1⟩
  else .throw

/-- `solveInPlace(x)`, LinearAlgebra.cpp 258–290: `x` has `LayoutLeft`; the number of its rows is not looked at. `none` is an object for which `compute` was not
called: `isComputed` has no value then. `bad` is `info` after a call with an invalid leading dimension. -/
noncomputable def luSolveDev (f : Option DevLU) (bad : Int) (x : Mat .device) : Res (List ℝ) :=
  match f with
  | none => .ub
  | some f =>
    if x.view.str1 < max 1 f.n then
      if bad ≠ 0 then .throw else .ok x.mem
    else do
      let lu ← loadSquare f.n f.mem f.n
      let v := opView false x.view.data f.n x.view.ext1 x.view.str1
      onColumns (fun _ old => (LU.mk f.perm lu).solveColumn fun i => old.getD i 0) x.mem v x.mem v (List.range x.view.ext1)

/-- `solve(x)`, LinearAlgebra.cpp 38–45. -/
noncomputable def luSolveCopy (f : Option DevLU) (bad : Int) (x : Mat .device) : Res (Mat .device) := do
  let v := layoutLeft 0 x.view.ext0 x.view.ext1
  let output ← copyTo x (List.replicate (x.view.ext0 * x.view.ext1) 0) v
  let out ← luSolveDev f bad ⟨output, v⟩
  .ok ⟨out, v⟩

/-- `determinant()`, LinearAlgebra.cpp 293–303: the product of the diagonal of `LU_`. -/
def luDetDev (f : Option DevLU) (order : List Nat) : Res ℝ :=
  match f with
  | none => .ub
  | some f => diagProduct f.n f.mem order

/-! ### Cholesky -/

/-- A computed `Cholesky<mpart::DeviceSpace>`: `LLT_` (column-major, without gaps) and `ldA`. LinearAlgebra.h 364–365. -/
structure DevChol where
  n : Nat
  mem : List ℝ
  ldA : Nat

/-- What `cusolverDnXpotrf` does with the lower triangle of a column-major `n × n` matrix: the new content and `info`. LinearAlgebra.cpp 345–357. -/
abbrev Potrf := (n : Nat) → List ℝ → List ℝ × Int

/-- `Cholesky<mpart::DeviceSpace>::compute(A)`, LinearAlgebra.cpp 305–373. -/
def cholCompute (potrf : Potrf) (A : Mat .device) : Res DevChol :=
  if A.view.ext0 = A.view.ext1 then do
    let n := A.view.ext0
    let LLT ← copyTo A (List.replicate (n * n) 0) (layoutLeft 0 n n)
    let r := potrf n LLT
    if r.2 < 0 then .throw
    else if r.2 > 0 then .throw
    else .ok ⟨n, r.1, A.view.str1⟩
  else .throw

/-- The lower triangle, with the diagonal: `CUBLAS_FILL_MODE_LOWER`. LinearAlgebra.h 366. -/
def lowerPart {n : Nat} (M : Matrix (Fin n) (Fin n) ℝ) : Matrix (Fin n) (Fin n) ℝ := Matrix.of fun i j => if j ≤ i then M i j else 0

/-- `solveInPlaceL(x)`, LinearAlgebra.cpp 408–437. -/
noncomputable def cholSolveLDev (f : Option DevChol) (x : Mat .device) : Res (List ℝ) :=
  match f with
  | none => .ub
  | some f =>
    if x.view.str1 < max 1 f.n then .throw
    else do
      let L ← loadSquare f.n f.mem f.n
      let v := opView false x.view.data f.n x.view.ext1 x.view.str1
      onColumns (fun _ old => cholForward (lowerPart L) fun i => old.getD i 0) x.mem v x.mem v (List.range x.view.ext1)

/-- `solveInPlace(x)`, LinearAlgebra.cpp 375–406: `potrs` solves with the factor and then with its transpose. -/
noncomputable def cholSolveDev (f : Option DevChol) (bad : Int) (x : Mat .device) : Res (List ℝ) :=
  match f with
  | none => .ub
  | some f =>
    if x.view.str1 < max 1 f.n then
      if bad ≠ 0 then .throw else .ok x.mem
    else do
      let L ← loadSquare f.n f.mem f.n
      let v := opView false x.view.data f.n x.view.ext1 x.view.str1
      onColumns (fun _ old => do
        let y ← cholForward (lowerPart L) fun i => old.getD i 0
        cholBackward (lowerPart L) fun i => y.getD i 0) x.mem v x.mem v (List.range x.view.ext1)

/-- `solve(x)`, LinearAlgebra.cpp 110–117. -/
noncomputable def cholSolveCopy (f : Option DevChol) (bad : Int) (x : Mat .device) : Res (Mat .device) := do
  let v := layoutLeft 0 x.view.ext0 x.view.ext1
  let output ← copyTo x (List.replicate (x.view.ext0 * x.view.ext1) 0) v
  let out ← cholSolveDev f bad ⟨output, v⟩
  .ok ⟨out, v⟩

/-- `multiplyL(x)`, LinearAlgebra.cpp 439–468: the leading dimension passed for `LLT_` is that of the matrix given to `compute`. -/
def cholMultiplyLDev (f : Option DevChol) (x : Mat .device) : Res (Mat .device) :=
  match f with
  | none => .ub
  | some f => do
    let y := newDevice x.view.ext0 x.view.ext1
    if f.ldA < max 1 f.n ∨ x.view.str1 < max 1 f.n ∨ y.2.str1 < max 1 f.n then .throw
    else do
      let out ← onColumns (fun pt _ => do
          let L ← loadSquare f.n f.mem f.ldA
          .ok ((List.range f.n).map fun i => ((List.range f.n).map fun l => ext (lowerPart L) i l * pt.getD l 0).sum))
        x.mem (opView false x.view.data f.n x.view.ext1 x.view.str1) y.1 (opView false 0 f.n x.view.ext1 y.2.str1) (List.range x.view.ext1)
      .ok ⟨out, y.2⟩

/-- `determinant()`, LinearAlgebra.cpp 471–480. -/
def cholDetDev (f : Option DevChol) (order : List Nat) : Res ℝ :=
  match f with
  | none => .ub
  | some f => do
    let det ← diagProduct f.n f.mem order
    .ok (det * det)

end MParT.Arrays
