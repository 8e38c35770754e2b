import Verif.Model.MultiIndexSet
import Verif.Model.Limiter
/-!
# `mpart::MultiIndex` with 32-bit arithmetic

`Model/MultiIndex.lean` computes with natural numbers.  Here the places of the code where the type
`unsigned int` (32 bits) can make a difference are modelled again, with wrap-around: the constructors,
`Set`, and the neighbourhood.  `Vector`, `Get`, the comparison operators and the limiters contain no
arithmetic on entries (apart from the comparison of `Sum()`), so the definitions of
`Model/MultiIndex.lean` and `Model/Limiter.lean` are used unchanged.
-/
namespace MParT
namespace MultiIndex
namespace W32

/-- Arithmetic on `unsigned int`: the number modulo 2³². -/
def wrap (n : Nat) : Nat := n % 2 ^ 32

/-- `MultiIndex(unsigned int lengthIn, unsigned val)`, MultiIndex.cpp 11–22: `lengthIn*val` is a
product of 32-bit numbers. -/
def const (lengthIn val : Nat) : MultiIndex :=
  { MultiIndex.const lengthIn val with totalOrder := wrap (lengthIn * val) }

/-- Body of the loop of the pointer constructor, MultiIndex.cpp 28–35 (the constructors from
`std::vector` and from Eigen vectors, MultiIndex.h 38 and 41–52, are the same). -/
def pushEntry (m : MultiIndex) (i x : Nat) : MultiIndex :=
  if x > 0 then
    { m with nzInds := m.nzInds ++ [i]
             nzVals := m.nzVals ++ [x]
             maxValue := max m.maxValue x
             totalOrder := wrap (m.totalOrder + x) }
  else m

/-- Its loop, MultiIndex.cpp 28–35. -/
def fillLoop (m : MultiIndex) (i : Nat) : List Nat → MultiIndex
  | [] => m
  | x :: xs => fillLoop (pushEntry m i x) (i + 1) xs

/-- `MultiIndex(const unsigned int*, unsigned int)`, MultiIndex.cpp 25–36. -/
def ofVec (v : List Nat) : MultiIndex := fillLoop (const v.length 0) 0 v

/-- Conversion of an `unsigned int` to `int` (two's complement). Used in MultiIndex.cpp 50. -/
def toInt (n : Nat) : Int := if n < 2 ^ 31 then n else (n : Int) - 2 ^ 32

/-- Conversion of an `int` to `unsigned int`. Used in MultiIndex.cpp 50. -/
def ofInt (z : Int) : Nat := (z % 2 ^ 32).toNat

/-- Body of the loop of the initializer-list constructor, MultiIndex.cpp 46–53.  The maximum is
taken with `std::max<int>` (50), which converts both numbers to `int` and the result back. -/
def pushInit (m : MultiIndex) (i x : Nat) : MultiIndex :=
  if x > 0 then
    { m with nzInds := m.nzInds ++ [i]
             nzVals := m.nzVals ++ [x]
             maxValue := ofInt (max (toInt m.maxValue) (toInt x))
             totalOrder := wrap (m.totalOrder + x) }
  else m

/-- Its loop, MultiIndex.cpp 45–54. -/
def initLoop (m : MultiIndex) (i : Nat) : List Nat → MultiIndex
  | [] => m
  | x :: xs => initLoop (pushInit m i x) (i + 1) xs

/-- `MultiIndex(std::initializer_list<unsigned int> const&)`, MultiIndex.cpp 39–55. -/
def ofInit (v : List Nat) : MultiIndex := initLoop (const v.length 0) 0 v

/-- Recomputation of `totalOrder` and `maxValue`, MultiIndex.cpp 112–118. -/
def refresh (m : MultiIndex) : MultiIndex :=
  { m with totalOrder := m.nzVals.foldl (fun s x => wrap (s + x)) 0
           maxValue := m.nzVals.foldl (fun s x => max s x) 0 }

/-- `bool Set(unsigned int ind, unsigned int val)`, MultiIndex.cpp 68–122. -/
def set (m : MultiIndex) (ind val : Nat) : Res (MultiIndex × Bool) :=
  if ind > m.length then .throw
  else
    let index := lowerBound m.nzInds ind
    let existingNz := m.nzInds[index]? == some ind
    if existingNz then
      if val > 0 then do
        let vals ← Res.setAt m.nzVals index val
        return (refresh { m with nzVals := vals }, true)
      else
        return (refresh { m with nzInds := m.nzInds.eraseIdx index
                                 nzVals := m.nzVals.eraseIdx index }, true)
    else if val = 0 then
      return (m, false)
    else
      return (refresh { m with nzInds := m.nzInds.insertIdx index ind
                               nzVals := m.nzVals.insertIdx index val }, false)

/-- Loop of `ForwardNeighbors`, MultiIndexNeighborhood.cpp 11–15: `vec.at(i)++` wraps around. -/
def forwardLoop (vec : List Nat) (output : List MultiIndex) (i : Nat) : Nat → Res (List MultiIndex)
  | 0 => .ok output
  | n + 1 => do
    let x ← Res.at' vec i
    let vec1 ← Res.setAt vec i (wrap (x + 1))
    let y ← Res.at' vec1 i
    let vec2 ← Res.setAt vec1 i (wrap (y + 2 ^ 32 - 1))
    forwardLoop vec2 (output ++ [ofVec vec1]) (i + 1) n

/-- `DefaultNeighborhood::ForwardNeighbors`, MultiIndexNeighborhood.cpp 6–18. -/
def forwardNeighbors (m : MultiIndex) : Res (List MultiIndex) := do
  let vec ← m.vector
  forwardLoop vec [] 0 vec.length

/-- Loop of `IsForward`, MultiIndexNeighborhood.cpp 51–61: `diffSum` wraps around. -/
def isForwardLoop (base next : MultiIndex) (diffSum : Nat) (i : Nat) : Nat → Res Bool
  | 0 => .ok (diffSum == 1)
  | n + 1 => do
    let nextVal ← next.get i
    let baseVal ← base.get i
    if nextVal < baseVal then return false
    else if wrap (diffSum + (nextVal - baseVal)) > 1 then return false
    else isForwardLoop base next (wrap (diffSum + (nextVal - baseVal))) (i + 1) n

/-- `DefaultNeighborhood::IsForward`, MultiIndexNeighborhood.cpp 36–64. -/
def isForward (base next : MultiIndex) : Res Bool :=
  if next.numNz > wrap (base.numNz + 1) ∨ next.numNz < base.numNz then .ok false
  else isForwardLoop base next 0 0 next.length

end W32
end MultiIndex
end MParT
