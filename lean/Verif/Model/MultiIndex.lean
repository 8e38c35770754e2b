import Verif.Model.Res
/-!
# Model of `mpart::MultiIndex`

Source: `src/MultiIndices/MultiIndex.cpp`, `MParT/MultiIndices/MultiIndex.h`.
`unsigned int` is modelled by `Nat` (no 32-bit wrap-around).
-/
namespace MParT

/-- `class MultiIndex` data members (MultiIndex.h): the length, the sparse storage
`nzInds`/`nzVals` and the cached maximum and total order. MultiIndex.h 181–191. -/
structure MultiIndex where
  length : Nat
  nzInds : List Nat
  nzVals : List Nat
  maxValue : Nat
  totalOrder : Nat
deriving DecidableEq, Repr

namespace MultiIndex

/-- `MultiIndex(unsigned int lengthIn, unsigned val)`, MultiIndex.cpp 11–22. -/
def const (lengthIn val : Nat) : MultiIndex where
  length := lengthIn
  maxValue := val
  totalOrder := lengthIn * val
  nzVals := if val > 0 then List.replicate lengthIn val else []
  nzInds := if val > 0 then List.range lengthIn else []

/-- Body of the loop of the pointer constructor, MultiIndex.cpp 28–35: position `i` holds `x`. -/
def pushEntry (m : MultiIndex) (i x : Nat) : MultiIndex :=
  if x > 0 then
    { m with nzInds := m.nzInds ++ [i]
             nzVals := m.nzVals ++ [x]
             maxValue := max m.maxValue x
             totalOrder := m.totalOrder + x }
  else m

/-- The loop of the pointer constructor, MultiIndex.cpp 28–35 (also 45–54), from position `i`. -/
def fillLoop (m : MultiIndex) (i : Nat) : List Nat → MultiIndex
  | [] => m
  | x :: xs => fillLoop (m.pushEntry i x) (i + 1) xs

/-- `MultiIndex(const unsigned int* fullVec, unsigned int lengthIn)`, MultiIndex.cpp 25–36.
The `std::vector` (MultiIndex.h) and initializer-list (39–55) constructors do the same. -/
def ofVec (v : List Nat) : MultiIndex :=
  fillLoop (const v.length 0) 0 v

/-- The loop of `Vector()`, MultiIndex.cpp 62–63. `output[nzInds[i]]` is unchecked, so an
index beyond the end is undefined behaviour; so is reading `nzInds` past its end. -/
def vectorLoop (out : List Nat) : List Nat → List Nat → Res (List Nat)
  | _, [] => .ok out
  | [], _ :: _ => .ub
  | i :: is, v :: vs =>
    if i < out.length then vectorLoop (out.set i v) is vs else .ub

/-- `std::vector<unsigned int> Vector() const`, MultiIndex.cpp 58–66. -/
def vector (m : MultiIndex) : Res (List Nat) :=
  vectorLoop (List.replicate m.length 0) m.nzInds m.nzVals

/-- `std::lower_bound(nzInds.begin(), nzInds.end(), ind) - nzInds.begin()`: on the sorted
range `nzInds` this is the first position whose entry is not smaller than `ind`. MultiIndex.cpp 78 and 137. -/
def lowerBound (l : List Nat) (ind : Nat) : Nat :=
  l.findIdx (fun a => !(decide (a < ind)))

/-- Recomputation of `totalOrder` and `maxValue`, MultiIndex.cpp 112–118. -/
def refresh (m : MultiIndex) : MultiIndex :=
  { m with totalOrder := m.nzVals.foldl (fun s x => s + x) 0
           maxValue := m.nzVals.foldl (fun s x => max s x) 0 }

/-- `bool Set(unsigned int ind, unsigned int val)`, MultiIndex.cpp 68–122, with the bound
check `ind > length` exactly as written (70). -/
def set (m : MultiIndex) (ind val : Nat) : Res (MultiIndex × Bool) :=
  if ind > m.length then .throw
  else
    let index := lowerBound m.nzInds ind
    let existingNz := m.nzInds[index]? == some ind
    if existingNz then
      if val > 0 then do
        let vals ← Res.setAt m.nzVals index val
        return (refresh { m with nzVals := vals }, true)
      else
        return (refresh { m with nzInds := m.nzInds.eraseIdx index
                                 nzVals := m.nzVals.eraseIdx index }, true)
    else if val = 0 then
      return (m, false)
    else
      return (refresh { m with nzInds := m.nzInds.insertIdx index ind
                               nzVals := m.nzVals.insertIdx index val }, false)

/-- `unsigned int NumNz() const`, MultiIndex.cpp 124–127. -/
def numNz (m : MultiIndex) : Nat := m.nzInds.length

/-- `unsigned int Sum() const`, MultiIndex.h. MultiIndex.h 74. -/
def sum (m : MultiIndex) : Nat := m.totalOrder

/-- `unsigned int Max() const`, MultiIndex.h. MultiIndex.h 79. -/
def max' (m : MultiIndex) : Nat := m.maxValue

/-- `unsigned int Get(unsigned ind) const`, MultiIndex.cpp 130–147, with the bound check
`ind > length` exactly as written (132). -/
def get (m : MultiIndex) (ind : Nat) : Res Nat :=
  if ind > m.length then .throw
  else
    let index := lowerBound m.nzInds ind
    if m.nzInds[index]? == some ind then Res.at' m.nzVals index
    else .ok 0

/-- The comparison loop of `operator!=`, MultiIndex.cpp 159–164 (`.at` is checked). -/
def neLoop : List Nat → List Nat → List Nat → List Nat → Res Bool
  | [], _, _, _ => .ok false
  | i :: is, js, vs, ws => do
    let j ← Res.at' js 0
    if j ≠ i then return true
    let v ← Res.at' vs 0
    let w ← Res.at' ws 0
    if w ≠ v then return true
    neLoop is js.tail vs.tail ws.tail

/-- `bool operator!=(const MultiIndex &b) const`, MultiIndex.cpp 151–167. -/
def ne (a b : MultiIndex) : Res Bool :=
  if b.length ≠ a.length ∨ b.maxValue ≠ a.maxValue ∨ b.totalOrder ≠ a.totalOrder then .ok true
  else if b.nzInds.length ≠ a.nzInds.length then .ok true
  else neLoop a.nzInds b.nzInds a.nzVals b.nzVals

/-- `bool operator==(const MultiIndex &b) const`, MultiIndex.cpp 169–171. -/
def eq (a b : MultiIndex) : Res Bool := do return !(← ne a b)

/-- The loop of `operator<`, MultiIndex.cpp 193–199, over positions `i, i+1, ..., i+n-1`. -/
def ltLoop (a b : MultiIndex) (i : Nat) : Nat → Res Bool
  | 0 => .ok false
  | n + 1 => do
    let x ← a.get i
    let y ← b.get i
    if x < y then return true
    else if x > y then return false
    else ltLoop a b (i + 1) n

/-- `bool operator<(const MultiIndex &b) const`, MultiIndex.cpp 177–205. -/
def lt (a b : MultiIndex) : Res Bool :=
  if a.length < b.length then .ok true
  else if a.length > b.length then .ok false
  else if a.totalOrder < b.totalOrder then .ok true
  else if a.totalOrder > b.totalOrder then .ok false
  else if a.maxValue < b.maxValue then .ok true
  else if a.maxValue > b.maxValue then .ok false
  else ltLoop a b 0 (min a.length b.length)

/-- `bool operator>(const MultiIndex &b) const`, MultiIndex.cpp 173–175. -/
def gt (a b : MultiIndex) : Res Bool := lt b a

/-- `bool operator>=(const MultiIndex &b) const`, MultiIndex.cpp 207–209. -/
def ge (a b : MultiIndex) : Res Bool := do return !(← lt a b)

/-- `bool operator<=(const MultiIndex &b) const`, MultiIndex.cpp 211–213. -/
def le (a b : MultiIndex) : Res Bool := do return !(← gt a b)

/-- The loop of `AnyBounded`, MultiIndex.cpp 219–223, over positions `i, ..., i+n-1`. -/
def anyBoundedLoop (a bound : MultiIndex) (i : Nat) : Nat → Res Bool
  | 0 => .ok false
  | n + 1 => do
    let x ← a.get i
    let y ← bound.get i
    if x ≥ y then return true
    else anyBoundedLoop a bound (i + 1) n

/-- `bool AnyBounded(const MultiIndex &bound) const`, MultiIndex.cpp 215–225. -/
def anyBounded (a bound : MultiIndex) : Res Bool :=
  if a.length > bound.length then .throw
  else anyBoundedLoop a bound 0 a.length

/-- The loop of `String()`, MultiIndex.cpp 229–233, over positions `i, ..., i+n-1`. -/
def stringLoop (m : MultiIndex) (out : String) (i : Nat) : Nat → Res String
  | 0 => .ok out
  | n + 1 => do
    let x ← m.get i
    stringLoop m ((if i > 0 then out ++ " " else out) ++ toString x) (i + 1) n

/-- `std::string String() const`, MultiIndex.cpp 227–235. -/
def string (m : MultiIndex) : Res String := stringLoop m "" 0 m.length

end MultiIndex
end MParT
