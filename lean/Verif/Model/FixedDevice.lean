import Verif.Model.FixedSet
/-!
# Model of `mpart::FixedMultiIndexSet` in device memory, its 32-bit sizes, and `Print`

Source: `MParT/MultiIndices/FixedMultiIndexSet.h`, `src/MultiIndices/FixedMultiIndexSet.cpp`.

Simplifications
* a `parallel_for` over `n` indices executes every index once; the indices take effect in some order. `Launch k n` is the order
  of the `k`-th launch of a function, an argument. One iteration of the three functors modelled here is a single write, or a
  single atomic maximum, so an order describes every schedule;
* the arrays of a set in device memory are the same lists; host code that reads or writes one of their entries is `ub`;
* memory for the arrays is available.
-/
namespace MParT.FixedSet

/-- The order in which the `k`-th `parallel_for` of a function, over `n` indices, executes them. Kokkos library;
FixedMultiIndexSet.cpp 92–93, 120–121. -/
abbrev Launches := Nat → Nat → List Nat

/-- `parallel_for` with `StartSetter`, `DimSetter` or `MaxDegreeInitializer`, FixedMultiIndexSet.cpp 17–19, 31–33, 63–65: the
remaining indices of the launch. -/
def setAll (f : Nat → Nat) (a : List Nat) : List Nat → Res (List Nat)
  | [] => .ok a
  | i :: is => do
    let a' ← Res.setIdx a i (f i)
    setAll f a' is

/-- `parallel_for` with `MaxDegreeSetter`, FixedMultiIndexSet.cpp 47–49: the remaining indices of the launch. -/
def maxDegreeAll (nzDims nzOrders md : List Nat) : List Nat → Res (List Nat)
  | [] => .ok md
  | i :: is => do
    let d ← Res.idx nzDims i
    let o ← Res.idx nzOrders i
    let old ← Res.idx md d
    let md' ← Res.setIdx md d (max old o)
    maxDegreeAll nzDims nzOrders md' is

/-- `CalculateMaxDegrees()` in device memory, FixedMultiIndexSet.cpp 115–122. -/
def calcMaxDegreesDev (l : Launches) (dim : Nat) (nzDims nzOrders : List Nat) : Res (List Nat) := do
  let md ← setAll (fun _ => 0) (List.replicate dim 0) (l 2 dim)
  maxDegreeAll nzDims nzOrders md (l 3 nzOrders.length)

/-- Dense constructor in device memory, FixedMultiIndexSet.cpp 74–83 with `SetupTerms` 85–94. -/
def ofDenseDev (l : Launches) (dim : Nat) (orders : List Nat) : Res FixedSet :=
  if dim = 0 then .ub
  else do
    let numTerms := orders.length / dim
    let starts ← setAll (fun i => i * dim) (List.replicate (numTerms + 1) 0) (l 0 numTerms)
    let dims ← setAll (fun i => i % dim) (List.replicate orders.length 0) (l 1 (dim * numTerms))
    let md ← calcMaxDegreesDev l dim dims orders
    return { dim := dim, isCompressed := false, nzStarts := starts, nzDims := dims
             nzOrders := orders, maxDegrees := md }

/-- Compressed constructor in device memory, FixedMultiIndexSet.cpp 142–153. -/
def ofCompressedDev (l : Launches) (dim : Nat) (nzStarts nzDims nzOrders : List Nat) : Res FixedSet := do
  let md ← calcMaxDegreesDev l dim nzDims nzOrders
  return { dim := dim, isCompressed := true, nzStarts := nzStarts, nzDims := nzDims
           nzOrders := nzOrders, maxDegrees := md }

/-- `ToDevice<DeviceSpace>()` of a set in host memory, FixedMultiIndexSet.cpp 362–371: always the compressed constructor. -/
def toDevice (l : Launches) (f : FixedSet) : Res FixedSet :=
  ofCompressedDev l f.dim f.nzStarts f.nzDims f.nzOrders

/-- `ToDevice<HostSpace>()` of a set in host memory, FixedMultiIndexSet.cpp 353–358. -/
def toHostOfHost (f : FixedSet) : Res FixedSet := .ok f

/-- `ToDevice<HostSpace>()` and `ToDevice<DeviceSpace>()` of a set in device memory, FixedMultiIndexSet.cpp 373–387:
`assert(false)`. -/
def toAnyOfDevice (_f : FixedSet) : Res FixedSet := .throw

/-- `IndexToMulti` of a set in device memory, FixedMultiIndexSet.cpp 185–190: `assert(false)`. -/
def indexToMultiDev (_f : FixedSet) (_index : Nat) : Res (List Nat) := .throw

/-- `MultiToIndex` of a set in device memory, FixedMultiIndexSet.cpp 208–261: host code that reads device arrays as soon as
there is something to compare. -/
def multiToIndexDev (f : FixedSet) (multi : List Nat) : Res (Option Nat) :=
  if f.isCompressed then (if f.nzStarts.length = 0 then .ok none else .ub)
  else do
    let n ← f.size
    if n = 0 then .ok none
    else do
      let _ ← Res.at' multi 0
      .ub

/-- Total-order constructor in device memory, FixedMultiIndexSet.cpp 155–176: `FillTotalOrder` is host code that writes
`nzStarts(0)` (335) before anything else. -/
def totalOrderDev (_dim _maxOrder : Nat) : Res FixedSet := .ub

/-- The rows `Print` writes after "Multis:", FixedMultiIndexSet.cpp 285–292, from term `term` on. -/
def printRows (f : FixedSet) (term : Nat) : Nat → Res (List (List Nat))
  | 0 => .ok []
  | n + 1 => do
    let row ← f.indexToMulti term
    let rest ← printRows f (term + 1) n
    return row :: rest

/-- `Print()` in host memory, FixedMultiIndexSet.cpp 263–294: the arrays of a compressed set, and the rows. Without an entry in
`nzStarts` the bound `extent(0)-1` wraps around, and the first row is read from empty arrays. -/
def print (f : FixedSet) : Res (Option (List Nat × List Nat × List Nat) × List (List Nat)) :=
  if f.nzStarts.length = 0 then .ub
  else do
    let rows ← printRows f 0 (f.nzStarts.length - 1)
    return (if f.isCompressed then some (f.nzStarts, f.nzDims, f.nzOrders) else none, rows)

/-! ## Sizes as 32-bit numbers -/

/-- Loop of `TotalOrderSize`, FixedMultiIndexSet.cpp 303–307, with `unsigned int` sums. -/
def sizeLoop32 (rec' : Nat → Nat × Nat) (maxOrder : Nat) (acc : Nat × Nat) : List Nat → Nat × Nat
  | [] => acc
  | pow :: rest =>
    let l := rec' (maxOrder - pow)
    sizeLoop32 rec' maxOrder
      ((acc.1 + l.1) % 2 ^ 32, (acc.2 + (l.2 + (if pow > 0 then l.1 else 0)) % 2 ^ 32) % 2 ^ 32) rest

/-- `TotalOrderSize(maxOrder, currDim)`, FixedMultiIndexSet.cpp 296–314, with `unsigned int` sums. -/
def totalOrderSize32 : Nat → Nat → Nat × Nat
  | 0, maxOrder => ((maxOrder + 1) % 2 ^ 32, maxOrder)
  | rem + 1, maxOrder => sizeLoop32 (totalOrderSize32 rem) maxOrder (0, 0) (List.range (maxOrder + 1))

/-- Total-order constructor, FixedMultiIndexSet.cpp 155–176, with the sizes computed in `unsigned int`. (The counters `currTerm`
and `currNz` never reach `2^32`: they are at most the extents of the arrays, or an access is out of range first. `maxOrder` is
less than `2^32 - 1`: otherwise `pow<=maxOrder` always holds.) -/
def totalOrder32 (dim maxOrder : Nat) : Res FixedSet :=
  if dim = 0 then .ub
  else do
    let sz := totalOrderSize32 (dim - 1) maxOrder
    let st ← fillTotalOrder dim (dim - 1) 0 maxOrder
      { starts := List.replicate ((sz.1 + 1) % 2 ^ 32) 0, dims := List.replicate sz.2 0
        orders := List.replicate sz.2 0, workspace := List.replicate dim 0
        currTerm := 0, currNz := 0 }
    let starts ← Res.setIdx st.starts st.currTerm st.currNz
    ofCompressed dim starts st.dims st.orders

end MParT.FixedSet
