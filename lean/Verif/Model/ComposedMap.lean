import Verif.Model.Maps
/-!
# Model of `ComposedMap` and its `Checkpointer`

Source: `src/ComposedMap.cpp`, `MParT/ComposedMap.h`. Same conventions as in `Model/Maps.lean`. `int` and `unsigned int`
are unbounded integers.
-/
namespace MParT

/-- A layer as the checkpointer uses it: `EvaluateImpl(pts, output)` with its coefficients. ComposedMap.h 143. -/
abbrev Layer := (pts output : List ℝ) → Res (List ℝ)

/-- Data members of `ComposedMap::Checkpointer`: `checks` holds `checkpointLayers_` and `checkpoints_`, last one first. ComposedMap.h 136–143. -/
structure Checkpointer where
  maxSaves : Nat
  checks : List (Nat × List ℝ)
  ws1 : List ℝ
  ws2 : List ℝ

namespace Checkpointer

/-- Constructor, ComposedMap.cpp 11–29. -/
def new (maxSaves : Nat) (initialPts : List ℝ) : Res Checkpointer :=
  if maxSaves = 0 then .throw
  else .ok ⟨maxSaves, [(0, initialPts)], List.replicate initialPts.length 0, List.replicate initialPts.length 0⟩

/-- Integer division; by zero it is undefined behaviour. Divisions of ComposedMap.cpp 50–84. -/
def idiv (a b : Int) : Res Int := if b = 0 then .ub else .ok (a.tdiv b)

/-- `while(range < target) { reps += 1; range = range*(reps+avail)/reps; }`, ComposedMap.cpp 50–53, for at most `fuel`
rounds (`.ub` stands for a loop that is still running then). -/
def grow (avail target : Int) : Nat → (reps range : Int) → Res (Int × Int)
  | 0, reps, range => if range < target then .ub else .ok (reps, range)
  | n + 1, reps, range =>
    if range < target then do
      let r ← idiv (range * (reps + 1 + avail)) (reps + 1)
      grow avail target n (reps + 1) r
    else .ok (reps, range)

/-- `bino2`, ComposedMap.cpp 57. -/
def bino2 (avail reps bino1 : Int) : Res Int := if 1 < avail then idiv (bino1 * avail) (avail + reps - 1) else .ok 1

/-- `bino3`, ComposedMap.cpp 59–62. -/
def bino3 (avail reps bino2 : Int) : Res Int :=
  if avail = 1 then .ok 0 else if 2 < avail then idiv (bino2 * (avail - 1)) (avail + reps - 2) else .ok 1

/-- `bino5`, ComposedMap.cpp 65–68. -/
def bino5 (avail reps bino3 : Int) : Res Int :=
  if avail < 3 then .ok 0 else if 3 < avail then idiv (bino3 * (avail - 2)) reps else .ok 1

/-- The choice of the next checkpoint, ComposedMap.cpp 71–84. -/
def chooseNext (curr layerInd : Nat) (range bino1 bino2 bino3 bino4 bino5 : Int) : Int :=
  let next : Int :=
    if (layerInd : Int) - curr ≤ bino1 + bino3 then curr + bino4
    else if range - bino5 ≤ (layerInd : Int) - curr then curr + bino1
    else layerInd - bino2 - bino3
  if next = curr then curr + 1 else next

/-- `GetNextCheckpoint(layerInd)`, ComposedMap.cpp 32–85, with `curr = checkpointLayers_.back()` and
`saved = checkpoints_.size()`. The subtractions involving `layerInd` are unsigned in the code; they are done with integers
here, which agrees as long as they are not negative. -/
def getNextCheckpoint (maxSaves saved curr layerInd : Nat) : Res Int := do
  let avail : Int := (maxSaves : Int) - saved
  if avail = 0 then return -1
  let (reps, range) ← grow avail ((layerInd : Int) + 1 - curr) (layerInd + 1 - curr) 0 1
  let bino1 ← idiv (range * reps) (avail + reps)
  let b2 ← bino2 avail reps bino1
  let b3 ← bino3 avail reps b2
  let bino4 ← idiv (b2 * (reps - 1)) avail
  let b5 ← bino5 avail reps b3
  return chooseNext curr layerInd range bino1 b2 b3 bino4 b5

/-- The loop `for(; i<layerInd; ++i)`, ComposedMap.cpp 112–127, with `n = layerInd - i` rounds left; `next` is
`nextCheckLayer`. -/
def advance (layers : List Layer) (layerInd : Nat) : Nat → (i : Nat) → (next : Int) → Checkpointer → Res Checkpointer
  | 0, _, _, st => .ok st
  | n + 1, i, next, st => do
    let (st, next) ← if (i : Int) = next then do
        let st : Checkpointer := { st with checks := (i, st.ws1) :: st.checks }
        let nx ← getNextCheckpoint st.maxSaves st.checks.length i layerInd
        pure (st, nx)
      else pure (st, next)
    let f ← Res.at' layers i
    let o ← f st.ws1 st.ws2
    advance layers layerInd n (i + 1) next { st with ws1 := o, ws2 := st.ws1 }

/-- `GetLayerInput(layerInd)`, ComposedMap.cpp 89–131, on the list of checkpoints: the layer input and the new state. -/
def getLayerInput (layers : List Layer) (layerInd maxSaves : Nat) (ws1 ws2 : List ℝ) :
    List (Nat × List ℝ) → Res (List ℝ × Checkpointer)
  | [] => .ub
  | (l, x) :: rest =>
    if layerInd = l then .ok (x, ⟨maxSaves, (l, x) :: rest, ws1, ws2⟩)
    else if layerInd < l then getLayerInput layers layerInd maxSaves ws1 ws2 rest
    else do
      let next ← getNextCheckpoint maxSaves (rest.length + 1) l layerInd
      let f ← Res.at' layers l
      let o ← f x ws1
      let st ← advance layers layerInd (layerInd - (l + 1)) (l + 1) next ⟨maxSaves, (l, x) :: rest, o, ws2⟩
      return (st.ws1, st)

/-- `GetLayerInput` on the object. ComposedMap.cpp 306, 360. -/
def request (layers : List Layer) (st : Checkpointer) (layerInd : Nat) : Res (List ℝ × Checkpointer) :=
  getLayerInput layers layerInd st.maxSaves st.ws1 st.ws2 st.checks

end Checkpointer

namespace ComposedMap

/-- The maps together with the coefficients each of them refers to, ComposedMap.cpp 187–195. -/
def withCoeffs (c : List ℝ) : List CMap → Nat → List (CMap × List ℝ)
  | [], _ => []
  | m :: ms, k => (m, slice c k m.numCoeffs) :: withCoeffs c ms (k + m.numCoeffs)

/-- The layers as the checkpointer sees them. `maps_`, ComposedMap.h 143. -/
def layers (ms : List (CMap × List ℝ)) : List Layer := ms.map fun m => m.1.eval m.2

/-- Loop of `EvaluateImpl`, ComposedMap.cpp 277–280. -/
def evalLoop : List (CMap × List ℝ) → (int1 int2 : List ℝ) → Res (List ℝ)
  | [], int1, _ => .ok int1
  | m :: ms, int1, int2 => do
    let o ← m.1.eval m.2 int1 int2
    evalLoop ms o int1

/-- `EvaluateImpl`, ComposedMap.cpp 268–283. -/
def evaluate (ms : List (CMap × List ℝ)) (pts output : List ℝ) : Res (List ℝ) :=
  match ms with
  | [] => .throw
  | m :: ms => do
    let o ← m.1.eval m.2 pts (List.replicate pts.length 0)
    let r ← evalLoop ms o (List.replicate pts.length 0)
    deepCopy output r

/-- Loop of `LogDeterminantImpl`, ComposedMap.cpp 249–263; `prev` is `maps_.at(i-1)`. -/
def logDetLoop : (prev : CMap × List ℝ) → List (CMap × List ℝ) → (int1 int2 : List ℝ) → (incr output : Option ℝ) →
    Res (Option ℝ)
  | _, [], _, _, _, output => .ok output
  | prev, m :: ms, int1, int2, incr, output => do
    let x ← prev.1.eval prev.2 int1 int2
    let d ← m.1.logDet m.2 x incr
    logDetLoop m ms x int1 d (addLD output d)

/-- `LogDeterminantImpl`, ComposedMap.cpp 234–265. -/
def logDet (ms : List (CMap × List ℝ)) (pts : List ℝ) (output : Option ℝ) : Res (Option ℝ) :=
  match ms with
  | [] => .throw
  | m :: ms => do
    let o ← m.1.logDet m.2 pts output
    logDetLoop m ms pts (List.replicate pts.length 0) (some 0) o

/-- Loop of `InverseImpl`, ComposedMap.cpp 332–336, over the layers from the last to the first. -/
def invLoop (x1 : List ℝ) : List (CMap × List ℝ) → (int1 int2 : List ℝ) → Res (List ℝ)
  | [], int1, _ => .ok int1
  | m :: ms, int1, int2 => do
    let o ← m.1.inv m.2 x1 int1 int2
    invLoop x1 ms o int1

/-- `InverseImpl`, ComposedMap.cpp 318–339. -/
def inverse (ms : List (CMap × List ℝ)) (x1 r output : List ℝ) : Res (List ℝ) := do
  let o ← invLoop x1 ms.reverse r (List.replicate r.length 0)
  deepCopy output o

/-- Loop of `GradientImpl`, ComposedMap.cpp 303–311, over the layers `n-1, ..., 0`. -/
def gradLoop (ms : List (CMap × List ℝ)) : Nat → Checkpointer → (sens1 sens2 : List ℝ) → Res (List ℝ)
  | 0, _, sens1, _ => .ok sens1
  | i + 1, ck, sens1, sens2 => do
    let (input, ck) ← ck.request (layers ms) i
    let m ← Res.at' ms i
    let o ← m.1.grad m.2 input sens1 sens2
    gradLoop ms i ck o sens1

/-- `GradientImpl`, ComposedMap.cpp 286–314. -/
def gradient (maxChecks : Nat) (ms : List (CMap × List ℝ)) (pts sens output : List ℝ) : Res (List ℝ) := do
  let ck ← Checkpointer.new maxChecks pts
  let o ← gradLoop ms ms.length ck sens (List.replicate sens.length 0)
  deepCopy output o

/-- Loop of `CoeffGradImpl`, ComposedMap.cpp 356–378. -/
def coeffGradLoop (ms : List (CMap × List ℝ)) : Nat → Checkpointer → (sens1 sens2 : List ℝ) → (endParam : Nat) →
    (output : List ℝ) → Res (List ℝ)
  | 0, _, _, _, _, output => .ok output
  | i + 1, ck, sens1, sens2, endParam, output => do
    let (input, ck) ← ck.request (layers ms) i
    let m ← Res.at' ms i
    let subOut ← rows output (endParam - m.1.numCoeffs) m.1.numCoeffs
    let o ← m.1.coeffGrad m.2 input sens1 subOut
    let output := putRows output (endParam - m.1.numCoeffs) m.1.numCoeffs o
    if 0 < i then do
      let g ← m.1.grad m.2 input sens1 sens2
      coeffGradLoop ms i ck g sens1 (endParam - m.1.numCoeffs) output
    else coeffGradLoop ms i ck sens1 sens2 (endParam - m.1.numCoeffs) output

/-- `CoeffGradImpl`, ComposedMap.cpp 342–380. -/
def coeffGrad (maxChecks numCoeffs : Nat) (ms : List (CMap × List ℝ)) (pts sens output : List ℝ) : Res (List ℝ) := do
  let ck ← Checkpointer.new maxChecks pts
  coeffGradLoop ms ms.length ck sens (List.replicate sens.length 0) numCoeffs output

/-- Loop of `LogDeterminantCoeffGradImpl`, ComposedMap.cpp 408–436. -/
def ldCoeffGradLoop (ms : List (CMap × List ℝ)) : Nat → Checkpointer → (sens1 sens2 : List ℝ) → (endParam : Nat) →
    (output : List ℝ) → Res (List ℝ)
  | 0, _, _, _, _, output => .ok output
  | i + 1, ck, sens1, sens2, endParam, output => do
    let (input, ck) ← ck.request (layers ms) i
    let m ← Res.at' ms i
    let subOut ← rows output (endParam - m.1.numCoeffs) m.1.numCoeffs
    let o ← m.1.ldCoeffGrad m.2 input subOut
    let o2 ← m.1.coeffGrad m.2 input sens1 (List.replicate m.1.numCoeffs 0)
    let o ← addInPlace o o2
    let output := putRows output (endParam - m.1.numCoeffs) m.1.numCoeffs o
    if 0 < i then do
      let g ← m.1.grad m.2 input sens1 sens2
      let h ← m.1.ldInputGrad m.2 input sens1
      let s ← addInPlace g h
      ldCoeffGradLoop ms i ck s h (endParam - m.1.numCoeffs) output
    else ldCoeffGradLoop ms i ck sens1 sens2 (endParam - m.1.numCoeffs) output

/-- `LogDeterminantCoeffGradImpl`, ComposedMap.cpp 384–437. -/
def ldCoeffGrad (maxChecks numCoeffs : Nat) (ms : List (CMap × List ℝ)) (pts output : List ℝ) : Res (List ℝ) := do
  let ck ← Checkpointer.new maxChecks pts
  let (input, ck) ← ck.request (layers ms) (ms.length - 1)
  let m ← match ms.getLast? with | some m => Res.ok m | none => .ub
  let subOut ← rows output (numCoeffs - m.1.numCoeffs) m.1.numCoeffs
  let o ← m.1.ldCoeffGrad m.2 input subOut
  let output := putRows output (numCoeffs - m.1.numCoeffs) m.1.numCoeffs o
  let s ← m.1.ldInputGrad m.2 input (List.replicate pts.length 0)
  ldCoeffGradLoop ms (ms.length - 1) ck s (List.replicate pts.length 0) (numCoeffs - m.1.numCoeffs) output

/-- Loop of `LogDeterminantInputGradImpl`, ComposedMap.cpp 454–465: after the swap the second buffer holds the previous
sensitivities when `LogDeterminantInputGradImpl` of the layer is called with it. -/
def ldInputGradLoop (ms : List (CMap × List ℝ)) : Nat → Checkpointer → (sens1 sens2 : List ℝ) → Res (List ℝ)
  | 0, _, sens1, _ => .ok sens1
  | i + 1, ck, sens1, sens2 => do
    let (input, ck) ← ck.request (layers ms) i
    let m ← Res.at' ms i
    let g ← m.1.grad m.2 input sens1 sens2
    let h ← m.1.ldInputGrad m.2 input sens1
    let s ← addInPlace g h
    ldInputGradLoop ms i ck s h

/-- `LogDeterminantInputGradImpl`, ComposedMap.cpp 442–468. -/
def ldInputGrad (maxChecks : Nat) (ms : List (CMap × List ℝ)) (pts output : List ℝ) : Res (List ℝ) := do
  let ck ← Checkpointer.new maxChecks pts
  let (input, ck) ← ck.request (layers ms) (ms.length - 1)
  let m ← match ms.getLast? with | some m => Res.ok m | none => .ub
  let s ← m.1.ldInputGrad m.2 input (List.replicate pts.length 0)
  let o ← ldInputGradLoop ms (ms.length - 1) ck s (List.replicate pts.length 0)
  deepCopy output o

/-- Number of coefficients, ComposedMap.cpp 138. -/
def numCoeffs (maps : List CMap) : Nat := (maps.map CMap.numCoeffs).sum

/-- `maxChecks_`, ComposedMap.cpp 140. -/
def maxChecks (maps : List CMap) (maxChecks : Int) : Nat := if maxChecks ≤ 0 then maps.length else maxChecks.toNat

/-- The object made by the constructor, ComposedMap.cpp 135–140. -/
def obj (maps : List CMap) (checks : Int) : CMap where
  inputDim := (maps.head?.map CMap.inputDim).getD 0
  outputDim := (maps.head?.map CMap.inputDim).getD 0
  numCoeffs := numCoeffs maps
  eval c := evaluate (withCoeffs c maps 0)
  logDet c := logDet (withCoeffs c maps 0)
  inv c := inverse (withCoeffs c maps 0)
  grad c := gradient (maxChecks maps checks) (withCoeffs c maps 0)
  coeffGrad c := coeffGrad (maxChecks maps checks) (numCoeffs maps) (withCoeffs c maps 0)
  ldCoeffGrad c := ldCoeffGrad (maxChecks maps checks) (numCoeffs maps) (withCoeffs c maps 0)
  ldInputGrad c := ldInputGrad (maxChecks maps checks) (withCoeffs c maps 0)

/-- Size checks, ComposedMap.cpp 144–155. -/
def checkSquare : List CMap → Bool
  | m :: m' :: ms => (m.inputDim == m.outputDim) && (m.outputDim == m'.inputDim) && checkSquare (m' :: ms)
  | [m] => m.inputDim == m.outputDim
  | [] => true

/-- Constructor with `moveCoeffs = false`, ComposedMap.cpp 135–155; `front()` of an empty vector is undefined behaviour. -/
def new (maps : List CMap) (checks : Int) : Res CMap :=
  if maps = [] then .ub
  else if !checkSquare maps then .throw
  else .ok (obj maps checks)

end ComposedMap
end MParT
