import Verif.Model.MultiIndexSet
/-!
# Model of the remaining queries of `MultiIndexSet`: `BackwardNeighbors(MultiIndex)` and `Visualize`

The output stream is the string written to it.
-/
namespace MParT
namespace MISet
open MultiIndex

/-- `std::vector<unsigned> BackwardNeighbors(MultiIndex const&) const`, MultiIndexSet.cpp 590–602: the assertion that the
multi-index is stored, then the loop of the other overload (`none` is `-1` converted to unsigned). -/
def backwardNeighbors (s : MISet) (m : MultiIndex) : Res (List (Option Nat)) := do
  match ← mapFind m s.multi2global with
  | none => .throw
  | some g => s.mapActive (← Res.idx s.inEdges g)

/-- A number followed by blanks up to width three, as on the horizontal axis: MultiIndexSet.cpp 414–416 and 469–472. -/
def axisLabel (j : Nat) : String := toString j ++ (if j < 10 then "  " else " ")

/-- `for(int j=0; j<n; j++) out << f(j)`. E.g. MultiIndexSet.cpp 405–418. -/
def printLoop (f : Nat → Res String) : Nat → Res String
  | 0 => .ok ""
  | n + 1 => do
    let a ← printLoop f n
    let b ← f n
    return a ++ b

/-- The picture of a set of length one, MultiIndexSet.cpp 405–418. -/
def visualizeOne (dim : Nat) : Res String := do
  let a ← printLoop (fun _ => .ok "a  ") dim
  let b ← printLoop (fun _ => .ok "--") dim
  let c ← printLoop (fun j => .ok (axisLabel j)) dim
  return " 0 | " ++ a ++ "\n    -" ++ b ++ "\n     " ++ c ++ "\n"

/-- `(multi.Get(0)==j)&&(multi.Get(1)==i)`, MultiIndexSet.cpp 435 and 445. -/
def atCell (m : MultiIndex) (j i : Nat) : Res Bool := do
  let x ← m.get 0
  if x = j then
    let y ← m.get 1
    return y == i
  else return false

/-- The loop over the active terms, MultiIndexSet.cpp 432–440: `found`. -/
def cellActive (s : MISet) (j i : Nat) : List Nat → Res Bool
  | [] => .ok false
  | g :: rest => do
    let m ← Res.at' s.allMultis g
    if ← atCell m j i then return true else cellActive s j i rest

/-- The loop over the stored multi-indices, MultiIndexSet.cpp 443–453: what it prints; `found2` holds if that is not empty. -/
def cellStored (s : MISet) (j i : Nat) : List MultiIndex → Res String
  | [] => .ok ""
  | m :: rest => do
    if ← atCell m j i then
      let a ← s.isAdmissible m
      let r ← cellStored s j i rest
      return (if a then "r  " else "m  ") ++ r
    else cellStored s j i rest

/-- One cell, MultiIndexSet.cpp 432–457. -/
def cell (s : MISet) (i j : Nat) : Res String := do
  if ← s.cellActive j i s.active2global then return "a  "
  else
    let t ← s.cellStored j i s.allMultis
    return if t = "" then "   " else t

/-- One row, MultiIndexSet.cpp 424–459. -/
def visualizeRow (s : MISet) (w h order : Nat) : Res String := do
  let i := h - order
  let cells ← printLoop (s.cell i) (w + 1)
  return (if i < 10 then " " else "") ++ toString i ++ " | " ++ cells ++ "\n"

/-- `void Visualize(std::ostream&) const`, MultiIndexSet.cpp 402–476.  The `maxOrders.at(0)` of the loop conditions are hoisted: the
vector has at least two entries where they are reached. -/
def visualize (s : MISet) : Res String :=
  if s.maxOrders.length = 1 then do
    visualizeOne (← Res.at' s.maxOrders 0)
  else do
    let h := (← Res.at' s.maxOrders 1) + 1
    let w := (← Res.at' s.maxOrders 0) + 1
    let rows ← printLoop (s.visualizeRow w h) (h + 1)
    let line ← printLoop (fun _ => .ok "---") (w + 1)
    let labels ← printLoop (fun j => .ok (axisLabel j)) (w + 1)
    return rows ++ "    -" ++ line ++ "\n     " ++ labels ++ "\n"

end MISet
end MParT
