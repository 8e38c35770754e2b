import Verif.Model.Neighborhood
/-!
# Model of `mpart::MultiIndexSet`

Source: `src/MultiIndices/MultiIndexSet.cpp`, `MParT/MultiIndices/MultiIndexSet.h`.

Simplifications
* the limiter is a total function `MultiIndex → Bool` (a user limiter that throws is not modelled);
* the neighbourhood is `DefaultNeighborhood` (custom neighbourhoods are not modelled);
* `global2active` entries `-1` / `k ≥ 0` are `none` / `some k`;
* `std::set<int>` is a strictly increasing list (iteration order of `std::set`);
* `std::map<MultiIndex,unsigned>` is an association list searched with the equivalence
  `!(a<b) && !(b<a)` induced by `MultiIndex::operator<`.
-/
namespace MParT

/-- Data members of `class MultiIndexSet`, MultiIndexSet.h 382–431. -/
structure MISet where
  length : Nat
  limiter : MultiIndex → Bool
  allMultis : List MultiIndex
  active2global : List Nat
  global2active : List (Option Nat)
  outEdges : List (List Nat)
  inEdges : List (List Nat)
  maxOrders : List Nat
  multi2global : List (MultiIndex × Nat)

namespace MISet
open MultiIndex

/-- `std::set<int>::insert`. MultiIndexSet.cpp 389–390. -/
def setInsert (x : Nat) : List Nat → List Nat
  | [] => [x]
  | y :: ys => if x < y then x :: y :: ys else if x = y then y :: ys else y :: setInsert x ys

/-- `std::set<int>::erase(key)`. MultiIndexSet.cpp 206. -/
def setErase (x : Nat) (l : List Nat) : List Nat := l.filter (· ≠ x)

/-- `std::map::find`, with key equivalence `!(a<b) && !(b<a)`. E.g. MultiIndexSet.cpp 217. -/
def mapFind (m : MultiIndex) : List (MultiIndex × Nat) → Res (Option Nat)
  | [] => .ok none
  | (k, g) :: rest => do
    let a ← MultiIndex.lt k m
    let b ← MultiIndex.lt m k
    if !a && !b then return some g else mapFind m rest

/-- `std::map::operator[](key) = val`. MultiIndexSet.cpp 232. -/
def mapInsert (m : MultiIndex) (val : Nat) : List (MultiIndex × Nat) → Res (List (MultiIndex × Nat))
  | [] => .ok [(m, val)]
  | (k, g) :: rest => do
    let a ← MultiIndex.lt k m
    let b ← MultiIndex.lt m k
    if !a && !b then return (k, val) :: rest
    else
      let r ← mapInsert m val rest
      return (k, g) :: r

/-- Constructor `MultiIndexSet(lengthIn, limiterIn)`, MultiIndexSet.cpp 110–117. -/
def init (lengthIn : Nat) (limiterIn : MultiIndex → Bool) : MISet where
  length := lengthIn
  limiter := limiterIn
  allMultis := []
  active2global := []
  global2active := []
  outEdges := []
  inEdges := []
  maxOrders := List.replicate lengthIn 0
  multi2global := []

/-- `unsigned int Size() const`, MultiIndexSet.h 154. -/
def size (s : MISet) : Nat := s.active2global.length

/-- `MultiIndex IndexToMulti(unsigned int activeIndex) const`, MultiIndexSet.h 114
(also `at`, 141). -/
def indexToMulti (s : MISet) (i : Nat) : Res MultiIndex := do
  let g ← Res.at' s.active2global i
  Res.at' s.allMultis g

/-- `int MultiToIndex(MultiIndex const&) const`, MultiIndexSet.cpp 215–224; `none` is `-1`. -/
def multiToIndex (s : MISet) (m : MultiIndex) : Res (Option Nat) := do
  match ← mapFind m s.multi2global with
  | some g => Res.idx s.global2active g
  | none => return none

/-- `bool IsActive(unsigned int globalIndex) const`, MultiIndexSet.cpp 289–292. -/
def isActiveG (s : MISet) (g : Nat) : Res Bool := do
  let a ← Res.idx s.global2active g
  return a.isSome

/-- `bool IsActive(MultiIndex const&) const`, MultiIndexSet.cpp 278–287. -/
def isActive (s : MISet) (m : MultiIndex) : Res Bool := do
  match ← mapFind m s.multi2global with
  | some g => s.isActiveG g
  | none => return false

/-- `v.at(i).insert(x)` on a vector of sets. MultiIndexSet.cpp 389–390. -/
def insertEdge (edges : List (List Nat)) (i x : Nat) : Res (List (List Nat)) := do
  let e ← Res.at' edges i
  Res.setAt edges i (setInsert x e)

/-- Body of the loop of `AddForwardNeighbors`, MultiIndexSet.cpp 383–396.  `onMissing` is what
happens to a neighbour not yet stored: nothing when `addInactive == false`, `AddInactive`
otherwise. -/
def forwardStep (onMissing : MISet → MultiIndex → Res MISet) (g : Nat) (multi : MultiIndex)
    (s : MISet) : Res MISet :=
  if s.limiter multi then
    (mapFind multi s.multi2global) >>= fun o =>
    match o with
    | some h => do
      let inE ← insertEdge s.inEdges h g
      let outE ← insertEdge s.outEdges g h
      pure { s with inEdges := inE, outEdges := outE }
    | none => onMissing s multi
  else .ok s

/-- Loop of `AddForwardNeighbors`, MultiIndexSet.cpp 380–398. -/
def forwardFold (onMissing : MISet → MultiIndex → Res MISet) (g : Nat) :
    List MultiIndex → MISet → Res MISet
  | [], s => .ok s
  | multi :: rest, s => do
    let s1 ← forwardStep onMissing g multi s
    forwardFold onMissing g rest s1

/-- `AddForwardNeighbors`, MultiIndexSet.cpp 376–399. -/
def addForwardNeighbors (onMissing : MISet → MultiIndex → Res MISet) (s : MISet) (g : Nat) :
    Res MISet := do
  let m ← Res.at' s.allMultis g
  let ns ← Neighborhood.forwardNeighbors m
  forwardFold onMissing g ns s

/-- Body of the loop of `AddBackwardNeighbors`, MultiIndexSet.cpp 630–642. -/
def backwardStep (onMissing : MISet → MultiIndex → Res MISet) (g : Nat) (multi : MultiIndex)
    (s : MISet) : Res MISet :=
  if s.limiter multi then
    (mapFind multi s.multi2global) >>= fun o =>
    match o with
    | some h => do
      let outE ← insertEdge s.outEdges h g
      let inE ← insertEdge s.inEdges g h
      pure { s with inEdges := inE, outEdges := outE }
    | none => onMissing s multi
  else .ok s

/-- Loop of `AddBackwardNeighbors`, MultiIndexSet.cpp 628–644. -/
def backwardFold (onMissing : MISet → MultiIndex → Res MISet) (g : Nat) :
    List MultiIndex → MISet → Res MISet
  | [], s => .ok s
  | multi :: rest, s => do
    let s1 ← backwardStep onMissing g multi s
    backwardFold onMissing g rest s1

/-- `AddBackwardNeighbors`, MultiIndexSet.cpp 624–645. -/
def addBackwardNeighbors (onMissing : MISet → MultiIndex → Res MISet) (s : MISet) (g : Nat) :
    Res MISet := do
  let m ← Res.at' s.allMultis g
  let ns ← Neighborhood.backwardNeighbors m
  backwardFold onMissing g ns s

/-- `addInactive == false`: a missing neighbour is skipped. MultiIndexSet.cpp 393. -/
def skipMissing (s : MISet) (_ : MultiIndex) : Res MISet := .ok s

/-- `int AddMulti(MultiIndex const&)`, MultiIndexSet.cpp 227–245. -/
def addMulti (s : MISet) (newMulti : MultiIndex) : Res (MISet × Nat) := do
  let g := s.allMultis.length
  let m2g ← mapInsert newMulti g s.multi2global
  let s1 : MISet := { s with
    allMultis := s.allMultis ++ [newMulti]
    multi2global := m2g
    global2active := s.global2active ++ [none]
    inEdges := s.inEdges ++ [[]]
    outEdges := s.outEdges ++ [[]] }
  let s2 ← addForwardNeighbors skipMissing s1 g
  let s3 ← addBackwardNeighbors skipMissing s2 g
  return (s3, g)

/-- `int AddInactive(MultiIndex const&)`, MultiIndexSet.cpp 263–276; `none` is `-1`. -/
def addInactive (s : MISet) (newNode : MultiIndex) : Res (MISet × Option Nat) := do
  match ← mapFind newNode s.multi2global with
  | some g => return (s, some g)
  | none =>
    if s.limiter newNode then
      let (s', g) ← addMulti s newNode
      return (s', some g)
    else return (s, none)

/-- `addInactive == true`: a missing neighbour is stored as inactive, MultiIndexSet.cpp 393–395, 639–641. -/
def storeMissing (s : MISet) (m : MultiIndex) : Res MISet := do
  let (s', _) ← addInactive s m
  return s'

/-- Update of `maxOrders` in `Activate`, MultiIndexSet.cpp 358–359. -/
def bumpOrders (mo : List Nat) : List Nat → List Nat → Res (List Nat)
  | [], _ => .ok mo
  | i :: is, vs => do
    let old ← Res.at' mo i
    let v ← Res.at' vs 0
    let mo' ← Res.setAt mo i (max old v)
    bumpOrders mo' is vs.tail

/-- `void Activate(int globalIndex)`, MultiIndexSet.cpp 342–364. -/
def activateG (s : MISet) (g : Nat) : Res MISet := do
  let a ← Res.at' s.global2active g
  if a.isSome then pure s
  else do
    let newNode ← Res.at' s.allMultis g
    let g2a ← Res.setAt s.global2active g (some ((s.active2global ++ [g]).length - 1))
    let mo ← bumpOrders s.maxOrders newNode.nzInds newNode.nzVals
    let s2 ← addForwardNeighbors storeMissing
      { s with active2global := s.active2global ++ [g], global2active := g2a, maxOrders := mo } g
    addBackwardNeighbors storeMissing s2 g

/-- `int AddActive(MultiIndex const&)`, MultiIndexSet.cpp 247–259 (also `operator+=`, 788–792);
`none` is `-1`. -/
def addActive (s : MISet) (newNode : MultiIndex) : Res (MISet × Option Nat) := do
  let (s1, og) ← addInactive s newNode
  match og with
  | some g =>
    let s2 ← activateG s1 g
    let a ← Res.idx s2.global2active g
    return (s2, a)
  | none => return (s1, none)

/-- Number of active nodes in a list of global indices, MultiIndexSet.cpp 305–309 / 609–614. -/
def countActive (s : MISet) : List Nat → Res Nat
  | [] => .ok 0
  | h :: rest => do
    let a ← s.isActiveG h
    let n ← countActive s rest
    return (if a then n + 1 else n)

/-- `bool IsAdmissible(unsigned int globalIndex) const`, MultiIndexSet.cpp 294–316. -/
def isAdmissibleG (s : MISet) (g : Nat) : Res Bool := do
  let multi ← Res.at' s.allMultis g
  if s.limiter multi then do
    let act ← s.isActiveG g
    if act then pure true
    else do
      let ins ← Res.at' s.inEdges g
      let numAdmiss ← s.countActive ins
      pure (numAdmiss == multi.numNz)
  else pure false

/-- `bool IsAdmissible(MultiIndex const&) const`, MultiIndexSet.cpp 318–327. -/
def isAdmissible (s : MISet) (m : MultiIndex) : Res Bool := do
  match ← mapFind m s.multi2global with
  | none => return false
  | some g => s.isAdmissibleG g

/-- `void Activate(MultiIndex const&)`, MultiIndexSet.cpp 366–374 (assertions enabled). -/
def activate (s : MISet) (m : MultiIndex) : Res MISet := do
  match ← mapFind m s.multi2global with
  | none => .throw
  | some g =>
    let adm ← s.isAdmissibleG g
    if adm then activateG s g else .throw

/-- Loop of `IsExpandable`, MultiIndexSet.cpp 335–338 (both tests are pure, so evaluating the
second one eagerly does not matter). -/
def expandableLoop (s : MISet) : List Nat → Res Bool
  | [] => .ok false
  | h :: rest => do
    let act ← s.isActiveG h
    let adm ← s.isAdmissibleG h
    if !act && adm then pure true else expandableLoop s rest

/-- `bool IsExpandable(unsigned int activeIndex) const`, MultiIndexSet.cpp 330–340. -/
def isExpandable (s : MISet) (i : Nat) : Res Bool := do
  let g ← Res.at' s.active2global i
  let outs ← Res.idx s.outEdges g
  s.expandableLoop outs

/-- Loop of `Frontier`, MultiIndexSet.cpp 497–500, over active indices `i..i+n-1`. -/
def frontierLoop (s : MISet) (i : Nat) : Nat → Res (List Nat)
  | 0 => .ok []
  | n + 1 => do
    let e ← s.isExpandable i
    let rest ← frontierLoop s (i + 1) n
    return (if e then i :: rest else rest)

/-- `Frontier()`, MultiIndexSet.cpp 493–503. -/
def frontier (s : MISet) : Res (List Nat) := s.frontierLoop 0 s.active2global.length

/-- Is any / are all of the listed nodes active: loops at MultiIndexSet.cpp 515–520, 540–541, 565–570. -/
def anyActive (s : MISet) : List Nat → Res Bool
  | [] => .ok false
  | h :: rest => do
    let a ← s.isActiveG h
    if a then pure true else anyActive s rest

/-- `allActive = (allActive && IsActive(neighbor))`, MultiIndexSet.cpp 539–541. -/
def allActive (s : MISet) : List Nat → Res Bool
  | [] => .ok true
  | h :: rest => do
    let a ← s.isActiveG h
    if a then allActive s rest else pure false

/-- Does `Margin` keep stored node `g`?  MultiIndexSet.cpp 512–521. -/
def inMargin (s : MISet) (g : Nat) : Res Bool := do
  let a ← s.isActiveG g
  if a then pure false
  else do
    let ins ← Res.idx s.inEdges g
    s.anyActive ins

/-- Loop of `Margin`, MultiIndexSet.cpp 509–522. -/
def marginLoop (s : MISet) (g : Nat) : Nat → Res (List MultiIndex)
  | 0 => .ok []
  | n + 1 => do
    let keep ← s.inMargin g
    if keep then do
      let m ← Res.at' s.allMultis g
      let rest ← marginLoop s (g + 1) n
      pure (m :: rest)
    else marginLoop s (g + 1) n

/-- `Margin()`, MultiIndexSet.cpp 505–525. -/
def margin (s : MISet) : Res (List MultiIndex) := s.marginLoop 0 s.global2active.length

/-- Does `ReducedMargin` keep stored node `g`?  MultiIndexSet.cpp 536–546. -/
def inReducedMargin (s : MISet) (g : Nat) : Res Bool := do
  let a ← s.isActiveG g
  if a then pure false
  else do
    let ins ← Res.idx s.inEdges g
    s.allActive ins

/-- Loop of `ReducedMargin`, MultiIndexSet.cpp 533–547. -/
def reducedMarginLoop (s : MISet) (g : Nat) : Nat → Res (List MultiIndex)
  | 0 => .ok []
  | n + 1 => do
    let keep ← s.inReducedMargin g
    if keep then do
      let m ← Res.at' s.allMultis g
      let rest ← reducedMarginLoop s (g + 1) n
      pure (m :: rest)
    else reducedMarginLoop s (g + 1) n

/-- `ReducedMargin()`, MultiIndexSet.cpp 528–550. -/
def reducedMargin (s : MISet) : Res (List MultiIndex) :=
  s.reducedMarginLoop 0 s.global2active.length

/-- Loop of `StrictFrontier`, MultiIndexSet.cpp 558–574. -/
def strictLoop (s : MISet) : List Nat → Res (List Nat)
  | [] => .ok []
  | i :: rest => do
    let g ← Res.at' s.active2global i
    let outs ← Res.idx s.outEdges g
    let any ← s.anyActive outs
    let r ← strictLoop s rest
    return (if any then r else i :: r)

/-- `StrictFrontier()`, MultiIndexSet.cpp 553–577. -/
def strictFrontier (s : MISet) : Res (List Nat) := do
  let f ← s.frontier
  s.strictLoop f

/-- `NumActiveForward`, MultiIndexSet.cpp 605–616. -/
def numActiveForward (s : MISet) (i : Nat) : Res Nat := do
  let g ← Res.at' s.active2global i
  let outs ← Res.idx s.outEdges g
  s.countActive outs

/-- `NumForward`, MultiIndexSet.cpp 618–622. -/
def numForward (s : MISet) (i : Nat) : Res Nat := do
  let g ← Res.at' s.active2global i
  let outs ← Res.idx s.outEdges g
  return outs.length

/-- `std::vector<unsigned> output; for(n : edges) output.push_back(global2active.at(n))`. MultiIndexSet.cpp 583–585 and 597–599. -/
def mapActive (s : MISet) : List Nat → Res (List (Option Nat))
  | [] => .ok []
  | h :: rest => do
    let a ← Res.at' s.global2active h
    let r ← mapActive s rest
    return a :: r

/-- `BackwardNeighbors(unsigned activeIndex)`, MultiIndexSet.cpp 579–588 (`none` is `-1` cast to
unsigned). -/
def backwardNeighborsI (s : MISet) (i : Nat) : Res (List (Option Nat)) := do
  let g ← Res.at' s.active2global i
  let ins ← Res.idx s.inEdges g
  s.mapActive ins

/-- Loop of `AdmissibleForwardNeighbors`, MultiIndexSet.cpp 484–488. -/
def admFwdLoop (s : MISet) : List Nat → Res (List MultiIndex)
  | [] => .ok []
  | h :: rest => do
    let a ← s.isAdmissibleG h
    if a then
      let m ← Res.at' s.allMultis h
      let r ← admFwdLoop s rest
      return m :: r
    else admFwdLoop s rest

/-- `AdmissibleForwardNeighbors`, MultiIndexSet.cpp 479–491. -/
def admissibleForwardNeighbors (s : MISet) (i : Nat) : Res (List MultiIndex) := do
  let g ← Res.at' s.active2global i
  let outs ← Res.idx s.outEdges g
  s.admFwdLoop outs

/-- Loop of `Expand(unsigned)`, MultiIndexSet.cpp 660–666. -/
def expandLoop (s : MISet) (newIndices : List Nat) : List Nat → Res (MISet × List Nat)
  | [] => .ok (s, newIndices)
  | h :: rest => do
    let adm ← s.isAdmissibleG h
    let act ← s.isActiveG h
    if adm && !act then
      let s' ← s.activateG h
      match ← Res.at' s'.global2active h with
      | some i => expandLoop s' (newIndices ++ [i]) rest
      | none => .ub  -- would push back (unsigned)(-1); shown unreachable
    else expandLoop s newIndices rest

/-- `std::vector<unsigned int> Expand(unsigned int activeIndex)`, MultiIndexSet.cpp 647–670. -/
def expand (s : MISet) (i : Nat) : Res (MISet × List Nat) :=
  if i ≥ s.active2global.length then .throw
  else do
    let g ← Res.at' s.active2global i
    let tempSet ← Res.at' s.outEdges g
    s.expandLoop [] tempSet

/-- Inner loop of `Expand()`, MultiIndexSet.cpp 684–689. -/
def toExpandInner (s : MISet) : List Nat → Res (List Nat)
  | [] => .ok []
  | h :: rest => do
    let adm ← s.isAdmissibleG h
    let act ← s.isActiveG h
    let r ← toExpandInner s rest
    return (if adm && !act then h :: r else r)

/-- Outer loop of `Expand()`, MultiIndexSet.cpp 678–690. -/
def toExpandOuter (s : MISet) : List Nat → Res (List Nat)
  | [] => .ok []
  | i :: rest => do
    let g ← Res.at' s.active2global i
    let tempSet ← Res.at' s.outEdges g
    let a ← s.toExpandInner tempSet
    let r ← toExpandOuter s rest
    return a ++ r

/-- Activation loop of `Expand()`, MultiIndexSet.cpp 694–697. -/
def activateLoop (s : MISet) (allNewInds : List Nat) : List Nat → Res (MISet × List Nat)
  | [] => .ok (s, allNewInds)
  | h :: rest => do
    let s' ← s.activateG h
    match ← Res.at' s'.global2active h with
    | some i => activateLoop s' (allNewInds ++ [i]) rest
    | none => .ub  -- would push back (unsigned)(-1); shown unreachable

/-- `std::vector<unsigned int> Expand()`, MultiIndexSet.cpp 673–700. -/
def expandAll (s : MISet) : Res (MISet × List Nat) := do
  let f ← s.frontier
  let toExpand ← s.toExpandOuter f
  s.activateLoop [] toExpand

/-- `for(int ind : tempSet) ...` where `tempSet` is a *reference* to an element of the vector
`edges s`, MultiIndexSet.cpp 710–712 and 729–731.  `snap` is the set when the loop started; if the
set changed while it is being iterated the outcome is `ub` (not modelled further; shown
unreachable). -/
def refLoop (edges : MISet → List (List Nat)) (body : MISet → List Nat → Nat → Res (MISet × List Nat))
    (g : Nat) (snap : List Nat) : List Nat → MISet → List Nat → Res (MISet × List Nat)
  | [], s, newIndices => .ok (s, newIndices)
  | k :: ks, s, newIndices => do
    let cur ← Res.idx (edges s) g
    if cur = snap then do
      let r ← body s newIndices k
      refLoop edges body g snap ks r.1 r.2
    else .ub

/-- `ForciblyActivate(int, std::vector&)`, MultiIndexSet.cpp 719–734, called while an enclosing loop
holds a reference into `inEdges` or `outEdges`.  `cap` is the capacity these vectors had when the
outermost such loop started: if `Activate` makes them longer, they reallocate, the reference dangles
and the outcome is `ub`.  `fuel` bounds the recursion depth. -/
def forceG (cap : Nat) : Nat → MISet → List Nat → Nat → Res (MISet × List Nat)
  | 0, _, _, _ => .ub
  | fuel + 1, s, newIndices, g => do
    let act ← s.isActiveG g
    if act then pure (s, newIndices)
    else do
      let s1 ← s.activateG g
      if s1.inEdges.length > cap then .ub
      else do
        let a ← Res.at' s1.global2active g
        match a with
        | none => .ub
        | some i => do
          let snap ← Res.at' s1.inEdges g
          refLoop (·.inEdges) (forceG cap fuel) g snap snap s1 (newIndices ++ [i])

/-- Outermost call of `ForciblyActivate(int, std::vector&)`, MultiIndexSet.cpp 719–734: the first
`Activate` happens before any reference is taken. -/
def forceTop (cap fuel : Nat) (s : MISet) (g : Nat) : Res (MISet × List Nat) := do
  let act ← s.isActiveG g
  if act then pure (s, [])
  else do
    let s1 ← s.activateG g
    let a ← Res.at' s1.global2active g
    match a with
    | none => .ub
    | some i => do
      let snap ← Res.at' s1.inEdges g
      refLoop (·.inEdges) (forceG cap fuel) g snap snap s1 [i]

/-- `std::vector<unsigned int> ForciblyActivate(MultiIndex const&)`, MultiIndexSet.cpp 736–753
(assertions enabled). -/
def forciblyActivate (cap : Nat) (s : MISet) (m : MultiIndex) : Res (MISet × List Nat) :=
  if s.limiter m then
    (mapFind m s.multi2global) >>= fun o =>
    match o with
    | some g => forceTop cap m.sum s g
    | none => (addInactive s m) >>= fun r =>
      match r.2 with
      | some g => forceTop cap m.sum r.1 g
      | none => .ub
  else .throw

/-- `std::vector<unsigned int> ForciblyExpand(unsigned int const)`, MultiIndexSet.cpp 702–717
(assertions enabled). -/
def forciblyExpand (cap : Nat) (s : MISet) (i : Nat) : Res (MISet × List Nat) :=
  if i ≥ s.active2global.length then .throw
  else do
    let g ← Res.at' s.active2global i
    let m ← Res.at' s.allMultis g
    let snap ← Res.at' s.outEdges g
    refLoop (·.outEdges) (forceG cap (m.sum + 2)) g snap snap s []

/-- Body of the loop of `Union`, MultiIndexSet.cpp 775–782: `m` is a stored term of `rhs` and `a`
its active index there. -/
def unionStep (s : MISet) (m : MultiIndex) (a : Option Nat) : Res MISet :=
  if s.limiter m then
    if a.isNone then (addInactive s m) >>= fun r => pure r.1
    else (addActive s m) >>= fun r => pure r.1
  else .ok s

/-- Loop of `Union`, MultiIndexSet.cpp 773–783, over the remaining stored terms of `rhs`
together with their active flags. -/
def unionLoop (s : MISet) : List (MultiIndex × Option Nat) → Res MISet
  | [] => .ok s
  | (m, a) :: rest => do
    let s1 ← unionStep s m a
    unionLoop s1 rest

/-- `unsigned int Union(const MultiIndexSet& rhs)`, MultiIndexSet.cpp 769–786 (also
`operator+=(const MultiIndexSet&)`, 755–759). -/
def union (s rhs : MISet) : Res (MISet × Nat) := do
  let s' ← s.unionLoop (rhs.allMultis.zip rhs.global2active)
  return (s', s'.size - s.size)

/-- Loop of `FilterBounded`, MultiIndexSet.cpp 763–765. -/
def filterLoop (s : MISet) (bound : MultiIndex) : List Nat → Res (List Bool)
  | [] => .ok []
  | g :: rest => do
    let m ← Res.idx s.allMultis g
    let b ← m.anyBounded bound
    let r ← filterLoop s bound rest
    return b :: r

/-- `std::vector<bool> FilterBounded(const MultiIndex&) const`, MultiIndexSet.cpp 761–767. -/
def filterBounded (s : MISet) (bound : MultiIndex) : Res (List Bool) :=
  s.filterLoop bound s.active2global

/-- Removal of the edges into an inactive node, MultiIndexSet.cpp 205–207. -/
def clearIn (s : MISet) (g : Nat) : Res MISet := do
  let ins ← Res.idx s.inEdges g
  let outE ← ins.foldlM (fun outE inNode => do
    let e ← Res.idx outE inNode
    Res.setIdx outE inNode (setErase g e)) s.outEdges
  let inE ← Res.setIdx s.inEdges g []
  return { s with outEdges := outE, inEdges := inE }

/-- Loop of `SetLimiter`, MultiIndexSet.cpp 189–210.  The bound `allMultis.size()` is re-read in
every iteration; `fuel` bounds the number of iterations (running out of fuel is the outcome
`ub`, shown unreachable).  The boolean tells whether `std::invalid_argument` was thrown; the
state returned with it is the state the caller's object is left in. -/
def setLimiterLoop (s : MISet) (g : Nat) : Nat → Res (MISet × Bool)
  | 0 => .ub
  | fuel + 1 =>
    if g < s.allMultis.length then do
      let m ← Res.at' s.allMultis g
      let act ← s.isActiveG g
      if act then
        if s.limiter m then do
          let s' ← addForwardNeighbors storeMissing s g
          setLimiterLoop s' (g + 1) fuel
        else pure (s, true)
      else
        if s.limiter m then setLimiterLoop s (g + 1) fuel
        else do
          let s' ← s.clearIn g
          setLimiterLoop s' (g + 1) fuel
    else pure (s, false)

/-- `void SetLimiter(LimiterType const&)`, MultiIndexSet.cpp 182–213: the limiter is replaced
(185) before anything is checked. -/
def setLimiter (s : MISet) (newLimiter : MultiIndex → Bool) : Res (MISet × Bool) :=
  setLimiterLoop { s with limiter := newLimiter } 0
    (s.allMultis.length + s.active2global.length * s.length + 1)

/-- `operator=`, MultiIndexSet.cpp 794–810: throws if the lengths differ, otherwise copies. -/
def assign (s rhs : MISet) : Res MISet :=
  if rhs.length ≠ s.length then .throw else .ok { rhs with length := s.length }

/-- Sum of `base.at(i)`, `i < currDim`, MultiIndexSet.cpp 49–51. -/
def prefixSum (base : List Nat) : Nat → Res Nat
  | 0 => .ok 0
  | n + 1 => do
    let a ← prefixSum base n
    let b ← Res.at' base n
    return a + b

/-- `for(k = i; k < i+n; ++k) base.at(k) = 0`, MultiIndexSet.cpp 68–69. -/
def zeroFrom (base : List Nat) (i : Nat) : Nat → Res (List Nat)
  | 0 => .ok base
  | n + 1 => do
    let b ← Res.setAt base i 0
    zeroFrom b (i + 1) n

/-- Innermost loop (`currDim == length-1`), MultiIndexSet.cpp 57–63 and 88–94, over the remaining
values `i`. -/
def fillLast (lim : MultiIndex → Bool) (st : MISet × List Nat) : List Nat → Res (MISet × List Nat)
  | [] => .ok st
  | i :: rest => do
    let base ← Res.setAt st.2 (st.2.length - 1) i
    let newTerm := ofVec base
    if lim newTerm then
      let (s', _) ← addActive st.1 newTerm
      fillLast lim (s', base) rest
    else fillLast lim (st.1, base) rest

/-- Loop of the recursive case, MultiIndexSet.cpp 66–73 and 97–104, over the remaining values. -/
def fillInner (recFill : MISet × List Nat → Res (MISet × List Nat)) (currDim : Nat)
    (st : MISet × List Nat) : List Nat → Res (MISet × List Nat)
  | [] => .ok st
  | i :: rest => do
    let b0 ← zeroFrom st.2 (currDim + 1) (st.2.length - (currDim + 1))
    let b1 ← Res.setAt b0 currDim i
    let st' ← recFill (st.1, b1)
    fillInner recFill currDim st' rest

/-- `RecursiveTotalOrderFill`, MultiIndexSet.cpp 43–75.  The recursion is on
`rem = length - 1 - currDim`. -/
def totalOrderFill (maxOrder : Nat) (lim : MultiIndex → Bool) :
    Nat → Nat → MISet × List Nat → Res (MISet × List Nat)
  | 0, currDim, st => do
    let currOrder ← prefixSum st.2 currDim
    fillLast lim st (List.range (maxOrder - currOrder + 1))
  | rem + 1, currDim, st => do
    let currOrder ← prefixSum st.2 currDim
    fillInner (totalOrderFill maxOrder lim rem (currDim + 1)) currDim st
      (List.range (maxOrder - currOrder + 1))

/-- `CreateTotalOrder`, MultiIndexSet.cpp 8–23 (`assert(length>0)`). -/
def createTotalOrder (len maxOrder : Nat) (lim : MultiIndex → Bool) : Res MISet :=
  if len = 0 then .throw
  else do
    let (s, _) ← totalOrderFill maxOrder lim (len - 1) 0 (init len lim, List.replicate len 0)
    return s

/-- `RecursiveTensorFill`, MultiIndexSet.cpp 78–106. -/
def tensorFill (maxDegree : Nat) (lim : MultiIndex → Bool) :
    Nat → Nat → MISet × List Nat → Res (MISet × List Nat)
  | 0, _, st => fillLast lim st (List.range (maxDegree + 1))
  | rem + 1, currDim, st =>
    fillInner (tensorFill maxDegree lim rem (currDim + 1)) currDim st (List.range (maxDegree + 1))

/-- `CreateTensorProduct`, MultiIndexSet.cpp 26–41 (`assert(length>0)`). -/
def createTensorProduct (len maxDegree : Nat) (lim : MultiIndex → Bool) : Res MISet :=
  if len = 0 then .throw
  else do
    let (s, _) ← tensorFill maxDegree lim (len - 1) 0 (init len lim, List.replicate len 0)
    return s

/-- Constructor from a matrix whose rows are multi-indices, MultiIndexSet.cpp 120–128. -/
def ofRows (len : Nat) (rows : List (List Nat)) : Res MISet :=
  rows.foldlM (fun s r => do
    let (s', _) ← addActive s (ofVec r)
    return s') (init len fun _ => true)

end MISet
end MParT
