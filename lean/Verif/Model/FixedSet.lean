import Verif.Model.MultiIndexSet
/-!
# Model of `mpart::FixedMultiIndexSet` (host instantiation)

Source: `MParT/MultiIndices/FixedMultiIndexSet.h`, `src/MultiIndices/FixedMultiIndexSet.cpp`, and
`MultiIndexSet::Fix`, `src/MultiIndices/MultiIndexSet.cpp` 130–179.

Kokkos views are lists; a view access outside its extent is `ub`.  A newly allocated view is filled
with zeros (Kokkos' default).  Device code is not modelled.
-/
namespace MParT

/-- `class FixedMultiIndexSet` data members, FixedMultiIndexSet.h 103–111. -/
structure FixedSet where
  dim : Nat
  isCompressed : Bool
  nzStarts : List Nat
  nzDims : List Nat
  nzOrders : List Nat
  maxDegrees : List Nat
deriving DecidableEq, Repr

namespace FixedSet

/-- `Size()`, FixedMultiIndexSet.h 63–70; the dense branch divides by `dim`. -/
def size (f : FixedSet) : Res Nat :=
  if f.isCompressed then .ok (f.nzStarts.length - 1)
  else if f.dim = 0 then .ub
  else .ok (f.nzOrders.length / f.dim)

/-- Loop of `CalculateMaxDegrees` over the storage positions `i..i+n-1`,
FixedMultiIndexSet.cpp 48 and 136–138. -/
def maxDegreeLoop (nzDims nzOrders : List Nat) (md : List Nat) (i : Nat) : Nat → Res (List Nat)
  | 0 => .ok md
  | n + 1 => do
    let d ← Res.idx nzDims i
    let o ← Res.idx nzOrders i
    let old ← Res.idx md d
    let md' ← Res.setIdx md d (max old o)
    maxDegreeLoop nzDims nzOrders md' (i + 1) n

/-- `CalculateMaxDegrees()`, FixedMultiIndexSet.cpp 124–140. -/
def calcMaxDegrees (dim : Nat) (nzDims nzOrders : List Nat) : Res (List Nat) :=
  maxDegreeLoop nzDims nzOrders (List.replicate dim 0) 0 nzOrders.length

/-- `for(i=0; i<n; ++i) a(i) = f(i)` (StartSetter, DimSetter; FixedMultiIndexSet.cpp 102–111). -/
def setLoop (f : Nat → Nat) (a : List Nat) (i : Nat) : Nat → Res (List Nat)
  | 0 => .ok a
  | n + 1 => do
    let a' ← Res.setIdx a i (f i)
    setLoop f a' (i + 1) n

/-- Dense constructor, FixedMultiIndexSet.cpp 74–83 with `SetupTerms` 95–112.  Only the first
`numTerms` entries of `nzStarts` (of extent `numTerms+1`) are set. -/
def ofDense (dim : Nat) (orders : List Nat) : Res FixedSet :=
  if dim = 0 then .ub
  else do
    let numTerms := orders.length / dim
    let starts ← setLoop (fun i => i * dim) (List.replicate (numTerms + 1) 0) 0 numTerms
    let dims ← setLoop (fun i => i % dim) (List.replicate orders.length 0) 0 (dim * numTerms)
    let md ← calcMaxDegrees dim dims orders
    return { dim := dim, isCompressed := false, nzStarts := starts, nzDims := dims
             nzOrders := orders, maxDegrees := md }

/-- Compressed constructor, FixedMultiIndexSet.cpp 142–153. -/
def ofCompressed (dim : Nat) (nzStarts nzDims nzOrders : List Nat) : Res FixedSet := do
  let md ← calcMaxDegrees dim nzDims nzOrders
  return { dim := dim, isCompressed := true, nzStarts := nzStarts, nzDims := nzDims
           nzOrders := nzOrders, maxDegrees := md }

/-- Compressed branch of `IndexToMulti`, FixedMultiIndexSet.cpp 197–199, over positions
`i..i+n-1`. -/
def readLoop (f : FixedSet) (out : List Nat) (i : Nat) : Nat → Res (List Nat)
  | 0 => .ok out
  | n + 1 => do
    let d ← Res.idx f.nzDims i
    let o ← Res.idx f.nzOrders i
    let out' ← Res.setAt out d o
    readLoop f out' (i + 1) n

/-- Dense branch of `IndexToMulti`, FixedMultiIndexSet.cpp 201–202. -/
def readDense (f : FixedSet) (index : Nat) (out : List Nat) (i : Nat) : Nat → Res (List Nat)
  | 0 => .ok out
  | n + 1 => do
    let o ← Res.idx f.nzOrders (i + f.dim * index)
    let out' ← Res.setAt out i o
    readDense f index out' (i + 1) n

/-- `IndexToMulti`, FixedMultiIndexSet.cpp 192–205. -/
def indexToMulti (f : FixedSet) (index : Nat) : Res (List Nat) :=
  if f.isCompressed then do
    let lo ← Res.idx f.nzStarts index
    let hi ← Res.idx f.nzStarts (index + 1)
    readLoop f (List.replicate f.dim 0) lo (hi - lo)
  else readDense f index (List.replicate f.dim 0) 0 f.dim

/-- Content comparison in the compressed branch of `MultiToIndex`, FixedMultiIndexSet.cpp 225–231. -/
def matchLoop (f : FixedSet) (multi : List Nat) (j : Nat) : Nat → Res Bool
  | 0 => .ok true
  | n + 1 => do
    let o ← Res.idx f.nzOrders j
    let d ← Res.idx f.nzDims j
    let x ← Res.at' multi d
    if o ≠ x then pure false else matchLoop f multi (j + 1) n

/-- Search loop of the compressed branch, FixedMultiIndexSet.cpp 219–237; the loop bound is
`nzStarts.extent(0)`, one more than the number of terms.  (The subtraction is unsigned in the code;
the starts of a constructed set are increasing.) -/
def searchLoop (f : FixedSet) (multi : List Nat) (nnz : Nat) (i : Nat) : Nat → Res (Option Nat)
  | 0 => .ok none
  | n + 1 => do
    let hi ← Res.idx f.nzStarts (i + 1)
    let lo ← Res.idx f.nzStarts i
    if hi - lo = nnz then do
      let m ← matchLoop f multi lo (hi - lo)
      if m then pure (some i) else searchLoop f multi nnz (i + 1) n
    else searchLoop f multi nnz (i + 1) n

/-- Inner loop of the dense branch, FixedMultiIndexSet.cpp 246–252. -/
def denseMatch (f : FixedSet) (multi : List Nat) (i d : Nat) : Nat → Res Bool
  | 0 => .ok true
  | n + 1 => do
    let x ← Res.at' multi d
    let o ← Res.idx f.nzOrders (d + i * f.dim)
    if x ≠ o then pure false else denseMatch f multi i (d + 1) n

/-- Outer loop of the dense branch, FixedMultiIndexSet.cpp 243–256. -/
def denseSearch (f : FixedSet) (multi : List Nat) (i : Nat) : Nat → Res (Option Nat)
  | 0 => .ok none
  | n + 1 => do
    let m ← denseMatch f multi i 0 f.dim
    if m then pure (some i) else denseSearch f multi (i + 1) n

/-- `int MultiToIndex(std::vector<unsigned int> const&)`, FixedMultiIndexSet.cpp 208–261; `none` is
`-1`. -/
def multiToIndex (f : FixedSet) (multi : List Nat) : Res (Option Nat) :=
  if f.isCompressed then
    searchLoop f multi (multi.countP fun x => decide (x > 0)) 0 f.nzStarts.length
  else do
    let n ← f.size
    denseSearch f multi 0 n

/-- Loop of `TotalOrderSize`, FixedMultiIndexSet.cpp 303–307. -/
def sizeLoop (rec' : Nat → Nat × Nat) (maxOrder : Nat) (acc : Nat × Nat) : List Nat → Nat × Nat
  | [] => acc
  | pow :: rest =>
    let l := rec' (maxOrder - pow)
    sizeLoop rec' maxOrder (acc.1 + l.1, acc.2 + l.2 + (if pow > 0 then l.1 else 0)) rest

/-- `TotalOrderSize(maxOrder, currDim)`, FixedMultiIndexSet.cpp 296–314; the recursion is on
`rem = dim - 1 - currDim`. -/
def totalOrderSize : Nat → Nat → Nat × Nat
  | 0, maxOrder => (maxOrder + 1, maxOrder)
  | rem + 1, maxOrder => sizeLoop (totalOrderSize rem) maxOrder (0, 0) (List.range (maxOrder + 1))

/-- Mutable state of `FillTotalOrder`: the arrays, `workspace`, `currTerm`, `currNz`. FixedMultiIndexSet.cpp 169–173 and 317–321. -/
structure Fill where
  starts : List Nat
  dims : List Nat
  orders : List Nat
  workspace : List Nat
  currTerm : Nat
  currNz : Nat
deriving DecidableEq, Repr

/-- Copy of the current multi-index in compressed form, FixedMultiIndexSet.cpp 336–342. -/
def copyNz (st : Fill) (i : Nat) : Nat → Res Fill
  | 0 => .ok st
  | n + 1 => do
    let x ← Res.idx st.workspace i
    if x > 0 then do
      let dims ← Res.setIdx st.dims st.currNz i
      let orders ← Res.setIdx st.orders st.currNz x
      copyNz { st with dims := dims, orders := orders, currNz := st.currNz + 1 } (i + 1) n
    else copyNz st (i + 1) n

/-- Innermost loop of `FillTotalOrder`, FixedMultiIndexSet.cpp 331–345. -/
def fillLast (dim currDim : Nat) (st : Fill) : List Nat → Res Fill
  | [] => .ok st
  | pow :: rest => do
    let ws ← Res.setIdx st.workspace currDim pow
    let starts ← Res.setIdx st.starts st.currTerm st.currNz
    let st1 ← copyNz { st with workspace := ws, starts := starts } 0 dim
    fillLast dim currDim { st1 with currTerm := st1.currTerm + 1 } rest

/-- Recursive case of `FillTotalOrder`, FixedMultiIndexSet.cpp 325–328. -/
def fillInner (rec' : Nat → Fill → Res Fill) (currDim maxOrder : Nat) (st : Fill) :
    List Nat → Res Fill
  | [] => .ok st
  | pow :: rest => do
    let ws ← Res.setIdx st.workspace currDim pow
    let st1 ← rec' (maxOrder - pow) { st with workspace := ws }
    fillInner rec' currDim maxOrder st1 rest

/-- `FillTotalOrder` without its last statement, FixedMultiIndexSet.cpp 316–347. -/
def fillTotalOrder (dim : Nat) : Nat → Nat → Nat → Fill → Res Fill
  | 0, currDim, maxOrder, st => fillLast dim currDim st (List.range (maxOrder + 1))
  | rem + 1, currDim, maxOrder, st =>
    fillInner (fillTotalOrder dim rem (currDim + 1)) currDim maxOrder st (List.range (maxOrder + 1))

/-- Total-order constructor, FixedMultiIndexSet.cpp 155–176 (with 349–350).  For `dim = 0` the
expression `dim-1` wraps around and the recursion leaves the workspace: `ub`. -/
def totalOrder (dim maxOrder : Nat) : Res FixedSet :=
  if dim = 0 then .ub
  else do
    let sz := totalOrderSize (dim - 1) maxOrder
    let st ← fillTotalOrder dim (dim - 1) 0 maxOrder
      { starts := List.replicate (sz.1 + 1) 0, dims := List.replicate sz.2 0
        orders := List.replicate sz.2 0, workspace := List.replicate dim 0
        currTerm := 0, currNz := 0 }
    let starts ← Res.setIdx st.starts st.currTerm st.currNz
    ofCompressed dim starts st.dims st.orders

end FixedSet

namespace MISet
open FixedSet

/-- Number of nonzeros over the active terms, MultiIndexSet.cpp 136–137. -/
def totalNnz (s : MISet) : List Nat → Res Nat
  | [] => .ok 0
  | g :: gs => do
    let m ← Res.at' s.allMultis g
    let r ← totalNnz s gs
    return m.numNz + r

/-- Inner loop of `Fix(true)`, MultiIndexSet.cpp 153–156, over the remaining nonzeros. -/
def fixNz (dims orders : List Nat) (pos : Nat) : List Nat → List Nat → Res (List Nat × List Nat)
  | [], _ => .ok (dims, orders)
  | i :: is, vals => do
    let dims' ← Res.setIdx dims pos i
    let v ← Res.idx vals 0
    let orders' ← Res.setIdx orders pos v
    fixNz dims' orders' (pos + 1) is vals.tail

/-- Outer loop of `Fix(true)`, MultiIndexSet.cpp 146–159, over the remaining active terms. -/
def fixLoop (s : MISet) (starts dims orders : List Nat) (i cumNz : Nat) :
    List Nat → Res (List Nat × List Nat × List Nat)
  | [] => .ok (starts, dims, orders)
  | g :: gs => do
    let m ← Res.at' s.allMultis g
    let starts' ← Res.setIdx starts i cumNz
    let p ← fixNz dims orders cumNz m.nzInds m.nzVals
    fixLoop s starts' p.1 p.2 (i + 1) (cumNz + m.numNz) gs

/-- Inner loop of `Fix(false)`, MultiIndexSet.cpp 172–173. -/
def fixDenseRow (orders multi : List Nat) (len i d : Nat) : Nat → Res (List Nat)
  | 0 => .ok orders
  | n + 1 => do
    let x ← Res.at' multi d
    let orders' ← Res.setIdx orders (d + i * len) x
    fixDenseRow orders' multi len i (d + 1) n

/-- Outer loop of `Fix(false)`, MultiIndexSet.cpp 169–175. -/
def fixDenseLoop (s : MISet) (orders : List Nat) (i : Nat) : Nat → Res (List Nat)
  | 0 => .ok orders
  | n + 1 => do
    let m ← s.indexToMulti i
    let multi ← m.vector
    let orders' ← fixDenseRow orders multi s.length i 0 s.length
    fixDenseLoop s orders' (i + 1) n

/-- `FixedMultiIndexSet Fix(bool compress) const`, MultiIndexSet.cpp 130–179. -/
def fix (s : MISet) (compress : Bool) : Res FixedSet :=
  if compress then do
    let nnz ← totalNnz s s.active2global
    let r ← fixLoop s (List.replicate (s.size + 1) 0) (List.replicate nnz 0) (List.replicate nnz 0)
      0 0 s.active2global
    let starts ← Res.setIdx r.1 s.size nnz
    ofCompressed s.length starts r.2.1 r.2.2
  else do
    let orders ← fixDenseLoop s (List.replicate (s.length * s.size) 0) 0 s.size
    ofDense s.length orders

end MISet
end MParT
