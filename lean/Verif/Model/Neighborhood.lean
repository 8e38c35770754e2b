import Verif.Model.MultiIndex
/-!
# Model of `mpart::DefaultNeighborhood`

Source: `src/MultiIndices/MultiIndexNeighborhood.cpp`.
-/
namespace MParT
namespace Neighborhood
open MultiIndex

/-- Loop of `ForwardNeighbors`, MultiIndexNeighborhood.cpp 11–15, over positions `i..i+n-1`:
increment in place, copy, decrement again. -/
def forwardLoop (vec : List Nat) (output : List MultiIndex) (i : Nat) : Nat → Res (List MultiIndex)
  | 0 => .ok output
  | n + 1 => do
    let x ← Res.at' vec i
    let vec1 ← Res.setAt vec i (x + 1)
    let y ← Res.at' vec1 i
    let vec2 ← Res.setAt vec1 i (y - 1)
    forwardLoop vec2 (output ++ [ofVec vec1]) (i + 1) n

/-- `DefaultNeighborhood::ForwardNeighbors`, MultiIndexNeighborhood.cpp 6–18. -/
def forwardNeighbors (m : MultiIndex) : Res (List MultiIndex) := do
  let vec ← m.vector
  forwardLoop vec [] 0 vec.length

/-- Loop of `BackwardNeighbors`, MultiIndexNeighborhood.cpp 25–31. -/
def backwardLoop (vec : List Nat) (output : List MultiIndex) (i : Nat) : Nat → Res (List MultiIndex)
  | 0 => .ok output
  | n + 1 => do
    let x ← Res.at' vec i
    if x ≠ 0 then
      let vec1 ← Res.setAt vec i (x - 1)
      let y ← Res.at' vec1 i
      let vec2 ← Res.setAt vec1 i (y + 1)
      backwardLoop vec2 (output ++ [ofVec vec1]) (i + 1) n
    else
      backwardLoop vec output (i + 1) n

/-- `DefaultNeighborhood::BackwardNeighbors`, MultiIndexNeighborhood.cpp 20–34. -/
def backwardNeighbors (m : MultiIndex) : Res (List MultiIndex) := do
  let vec ← m.vector
  backwardLoop vec [] 0 vec.length

/-- Loop of `IsForward`, MultiIndexNeighborhood.cpp 51–61, over positions `i..i+n-1` with the
running difference `diffSum`. -/
def isForwardLoop (base next : MultiIndex) (diffSum : Nat) (i : Nat) : Nat → Res Bool
  | 0 => .ok (diffSum == 1)
  | n + 1 => do
    let nextVal ← next.get i
    let baseVal ← base.get i
    if nextVal < baseVal then return false
    else if diffSum + (nextVal - baseVal) > 1 then return false
    else isForwardLoop base next (diffSum + (nextVal - baseVal)) (i + 1) n

/-- `DefaultNeighborhood::IsForward`, MultiIndexNeighborhood.cpp 36–64. -/
def isForward (base next : MultiIndex) : Res Bool :=
  if next.numNz > base.numNz + 1 ∨ next.numNz < base.numNz then .ok false
  else isForwardLoop base next 0 0 next.length

/-- `DefaultNeighborhood::IsBackward`, MultiIndexNeighborhood.cpp 66–70. -/
def isBackward (base prev : MultiIndex) : Res Bool := isForward prev base

end Neighborhood
end MParT
