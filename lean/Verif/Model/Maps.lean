import Verif.Model.Res
import Mathlib.Data.Real.Basic
/-!
# Model of conditional maps: the interface, `TriangularMap`, `ComposedMap`, `SummarizedMap`, `IdentityMap`

Source: `MParT/ConditionalMapBase.h`, `src/TriangularMap.cpp`, `src/ComposedMap.cpp`, `src/SummarizedMap.cpp`,
`src/IdentityMap.cpp`.

Simplifications
* every function is modelled on one column (one point); a matrix with several columns is processed column by column,
  since the code here only takes row ranges, copies and adds entry by entry;
* every output argument is a buffer: its previous content is an argument and its new content the result;
* the coefficients are an argument. A parent passes to its components their slice of its own coefficients, which is what
  the shared views amount to (`Model/Coeffs.lean` and C44);
* `double` arithmetic is exact; the value `-infinity` of a log-determinant is `none`.
-/
namespace MParT

/-- The virtual functions of a `ConditionalMapBase` object, ConditionalMapBase.h 54–159 and ParameterizedFunctionBase.h:
`EvaluateImpl(pts, output)`, `LogDeterminantImpl(pts, output)`, `InverseImpl(x1, r, output)`,
`GradientImpl(pts, sens, output)`, `CoeffGradImpl(pts, sens, output)`, `LogDeterminantCoeffGradImpl(pts, output)` and
`LogDeterminantInputGradImpl(pts, output)`, with the coefficients as first argument. -/
structure CMap where
  inputDim : Nat
  outputDim : Nat
  numCoeffs : Nat
  eval : (coeffs pts output : List ℝ) → Res (List ℝ)
  logDet : (coeffs pts : List ℝ) → (output : Option ℝ) → Res (Option ℝ)
  inv : (coeffs x1 r output : List ℝ) → Res (List ℝ)
  grad : (coeffs pts sens output : List ℝ) → Res (List ℝ)
  coeffGrad : (coeffs pts sens output : List ℝ) → Res (List ℝ)
  ldCoeffGrad : (coeffs pts output : List ℝ) → Res (List ℝ)
  ldInputGrad : (coeffs pts output : List ℝ) → Res (List ℝ)

/-- `Kokkos::subview(v, std::make_pair(a, a+n), Kokkos::ALL())` on one column; a range outside the view is undefined
behaviour. E.g. TriangularMap.cpp 137–138. -/
def rows (v : List ℝ) (a n : Nat) : Res (List ℝ) := if a + n ≤ v.length then .ok ((v.drop a).take n) else .ub

/-- `v` after the rows `a, ..., a+n-1` were changed to `s` through a subview. TriangularMap.cpp 138 and 178. -/
def putRows (v : List ℝ) (a n : Nat) (s : List ℝ) : List ℝ := v.take a ++ s ++ v.drop (a + n)

/-- `Kokkos::deep_copy(dst, src)`: throws when the extents differ. E.g. TriangularMap.cpp 154, 158. -/
def deepCopy (dst src : List ℝ) : Res (List ℝ) := if dst.length = src.length then .ok src else .throw

/-- `for i < n: output(i) += v(i)`. TriangularMap.cpp 218. -/
def addRows (output v : List ℝ) : Nat → Nat → Res (List ℝ)
  | _, 0 => .ok output
  | i, n + 1 => do
    let o ← Res.idx output i
    let a ← Res.idx v i
    let output ← Res.setIdx output i (o + a)
    addRows output v (i + 1) n

/-- `output += v`, LinearAlgebra.h 50–72, with its assertion. -/
def addInPlace (output v : List ℝ) : Res (List ℝ) :=
  if output.length = v.length then addRows output v 0 output.length else .throw

/-- Sum of two log-determinants, one of which may be `-infinity`. TriangularMap.cpp 122. -/
def addLD (a b : Option ℝ) : Option ℝ :=
  match a, b with
  | some x, some y => some (x + y)
  | _, _ => none

/-- The slice of the parent's coefficients a component refers to, TriangularMap.cpp 76–78, ComposedMap.cpp 191–193. -/
def slice (coeffs : List ℝ) (start n : Nat) : List ℝ := (coeffs.drop start).take n

namespace TriangularMap

/-- Loop of `EvaluateImpl`, TriangularMap.cpp 136–143. -/
def evalLoop (c pts : List ℝ) : List CMap → (startOut startCoeff : Nat) → (output : List ℝ) → Res (List ℝ)
  | [], _, _, output => .ok output
  | m :: ms, s, k, output => do
    let subPts ← rows pts 0 m.inputDim
    let subOut ← rows output s m.outputDim
    let o ← m.eval (slice c k m.numCoeffs) subPts subOut
    evalLoop c pts ms (s + m.outputDim) (k + m.numCoeffs) (putRows output s m.outputDim o)

/-- Loop of `LogDeterminantImpl`, TriangularMap.cpp 116–124; `compDet` is reused by all components. -/
def logDetLoop (c pts : List ℝ) : List CMap → (startCoeff : Nat) → (compDet output : Option ℝ) → Res (Option ℝ)
  | [], _, _, output => .ok output
  | m :: ms, k, compDet, output => do
    let subPts ← rows pts 0 m.inputDim
    let d ← m.logDet (slice c k m.numCoeffs) subPts compDet
    logDetLoop c pts ms (k + m.numCoeffs) d (addLD output d)

/-- `LogDeterminantImpl`, TriangularMap.cpp 100–125. -/
def logDet (comps : List CMap) (c pts : List ℝ) (output : Option ℝ) : Res (Option ℝ) :=
  match comps with
  | [] => .throw
  | m :: ms => do
    let subPts ← rows pts 0 m.inputDim
    let o ← m.logDet (slice c 0 m.numCoeffs) subPts output
    logDetLoop c pts ms m.numCoeffs (some 0) o

/-- `InverseInplace`, TriangularMap.cpp 162–184: `subOut` is a part of `subX`. -/
def inverseInplace (c r : List ℝ) (extraInputs : Nat) :
    List CMap → (startOut startCoeff : Nat) → (x : List ℝ) → Res (List ℝ)
  | [], _, _, x => .ok x
  | m :: ms, s, k, x => do
    let subX ← rows x 0 m.inputDim
    let subR ← rows r s m.outputDim
    let subOut ← rows x (extraInputs + s) m.outputDim
    let o ← m.inv (slice c k m.numCoeffs) subX subR subOut
    inverseInplace c r extraInputs ms (s + m.outputDim) (k + m.numCoeffs) (putRows x (extraInputs + s) m.outputDim o)

/-- `InverseImpl`, TriangularMap.cpp 147–159. -/
def inverse (comps : List CMap) (ipdim opdim : Nat) (c x1 r output : List ℝ) : Res (List ℝ) := do
  let fullOut := List.replicate ipdim 0
  let head ← rows fullOut 0 x1.length
  let head ← deepCopy head x1
  let fullOut ← inverseInplace c r (ipdim - opdim) comps 0 0 (putRows fullOut 0 x1.length head)
  let tail ← rows fullOut (ipdim - opdim) opdim
  deepCopy output tail

/-- Loop of `GradientImpl`, TriangularMap.cpp 206–223. -/
def gradLoop (c pts sens : List ℝ) : List CMap → (startOut startCoeff : Nat) → (output : List ℝ) → Res (List ℝ)
  | [], _, _, output => .ok output
  | m :: ms, s, k, output => do
    let subPts ← rows pts 0 m.inputDim
    let subSens ← rows sens s m.outputDim
    let g ← m.grad (slice c k m.numCoeffs) subPts subSens (List.replicate m.inputDim 0)
    let output ← addRows output g 0 m.inputDim
    gradLoop c pts sens ms (s + m.outputDim) (k + m.numCoeffs) output

/-- `output(d) = 0` for `d < n`, TriangularMap.cpp 199–203 (`n = pts.extent(0)`). -/
def zeroRows (output : List ℝ) : Nat → Nat → Res (List ℝ)
  | _, 0 => .ok output
  | i, n + 1 => do
    let output ← Res.setIdx output i 0
    zeroRows output (i + 1) n

/-- `GradientImpl`, TriangularMap.cpp 188–224. -/
def gradient (comps : List CMap) (c pts sens output : List ℝ) : Res (List ℝ) := do
  let output ← zeroRows output 0 pts.length
  gradLoop c pts sens comps 0 0 output

/-- `CoeffGradImpl`, TriangularMap.cpp 227–254. -/
def coeffGradLoop (c pts sens : List ℝ) : List CMap → (startOut startParam : Nat) → (output : List ℝ) → Res (List ℝ)
  | [], _, _, output => .ok output
  | m :: ms, s, k, output =>
    if m.numCoeffs ≠ 0 then do
      let subPts ← rows pts 0 m.inputDim
      let subSens ← rows sens s m.outputDim
      let subOut ← rows output k m.numCoeffs
      let o ← m.coeffGrad (slice c k m.numCoeffs) subPts subSens subOut
      coeffGradLoop c pts sens ms (s + m.outputDim) (k + m.numCoeffs) (putRows output k m.numCoeffs o)
    else coeffGradLoop c pts sens ms (s + m.outputDim) k output

/-- `LogDeterminantCoeffGradImpl`, TriangularMap.cpp 257–276. -/
def ldCoeffGradLoop (c pts : List ℝ) : List CMap → (startParam : Nat) → (output : List ℝ) → Res (List ℝ)
  | [], _, output => .ok output
  | m :: ms, k, output =>
    if m.numCoeffs ≠ 0 then do
      let subPts ← rows pts 0 m.inputDim
      let subOut ← rows output k m.numCoeffs
      let o ← m.ldCoeffGrad (slice c k m.numCoeffs) subPts subOut
      ldCoeffGradLoop c pts ms (k + m.numCoeffs) (putRows output k m.numCoeffs o)
    else ldCoeffGradLoop c pts ms k output

/-- Loop of `LogDeterminantInputGradImpl`, TriangularMap.cpp 296–309: all components write into the rows of the same
buffer `compGrad`. -/
def ldInputGradLoop (c pts : List ℝ) : List CMap → (startCoeff : Nat) → (compGrad output : List ℝ) → Res (List ℝ)
  | [], _, _, output => .ok output
  | m :: ms, k, compGrad, output => do
    let subPts ← rows pts 0 m.inputDim
    let subGrad ← rows compGrad 0 m.inputDim
    let g ← m.ldInputGrad (slice c k m.numCoeffs) subPts subGrad
    let output ← addRows output g 0 m.inputDim
    ldInputGradLoop c pts ms (k + m.numCoeffs) (putRows compGrad 0 m.inputDim g) output

/-- `LogDeterminantInputGradImpl`, TriangularMap.cpp 279–310. -/
def ldInputGrad (comps : List CMap) (inputDim : Nat) (c pts output : List ℝ) : Res (List ℝ) :=
  ldInputGradLoop c pts comps 0 (List.replicate inputDim 0) (List.replicate output.length 0)

/-- The object made by the constructor, TriangularMap.cpp 10–13 (`components.back()->inputDim` inputs). -/
def obj (comps : List CMap) : CMap where
  inputDim := (comps.getLast?.map CMap.inputDim).getD 0
  outputDim := (comps.map CMap.outputDim).sum
  numCoeffs := (comps.map CMap.numCoeffs).sum
  eval c pts output := evalLoop c pts comps 0 0 output
  logDet := logDet comps
  inv := inverse comps ((comps.getLast?.map CMap.inputDim).getD 0) (comps.map CMap.outputDim).sum
  grad := gradient comps
  coeffGrad c pts sens output := coeffGradLoop c pts sens comps 0 0 output
  ldCoeffGrad c pts output := ldCoeffGradLoop c pts comps 0 output
  ldInputGrad := ldInputGrad comps ((comps.getLast?.map CMap.inputDim).getD 0)

/-- Size checks between consecutive components, TriangularMap.cpp 28–37. -/
def checkNext : List CMap → Bool
  | m :: m' :: ms => (m'.inputDim == m.inputDim + m'.outputDim) && checkNext (m' :: ms)
  | _ => true

/-- Constructor with `moveCoeffs = false`, TriangularMap.cpp 10–37; `back()` of an empty vector is undefined behaviour. -/
def new (comps : List CMap) : Res CMap :=
  if comps = [] then .ub
  else if comps.any fun m => decide (m.inputDim < m.outputDim) then .throw
  else if !checkNext comps then .throw
  else .ok (obj comps)

end TriangularMap

namespace IdentityMap

/-- `output(i) = 0` for `i < n`, then `deep_copy(tailOut, sens)`, `GradientImpl`, IdentityMap.cpp 60–77. -/
def gradient (inDim outDim : Nat) (sens output : List ℝ) : Res (List ℝ) := do
  let output ← TriangularMap.zeroRows output 0 (inDim - outDim)
  let tail ← rows output (inDim - outDim) outDim
  let tail ← deepCopy tail sens
  return putRows output (inDim - outDim) outDim tail

/-- `IdentityMap`, IdentityMap.cpp 10–96. `CoeffGradImpl` and `LogDeterminantCoeffGradImpl` are `assert(false)`. -/
def obj (inDim outDim : Nat) : CMap where
  inputDim := inDim
  outputDim := outDim
  numCoeffs := 0
  eval _ pts output := do
    let tail ← rows pts (inDim - outDim) outDim
    deepCopy output tail
  logDet _ _ _ := .ok (some 0)
  inv _ _ r output := deepCopy output r
  grad _ _ sens output := gradient inDim outDim sens output
  coeffGrad _ _ _ _ := .throw
  ldCoeffGrad _ _ _ := .throw
  ldInputGrad _ _ output := .ok (List.replicate output.length 0)

end IdentityMap

/-- A summary function: the part of `ParameterizedFunctionBase` that `SummarizedMap` uses, with its own coefficients. `sumFunc_`, SummarizedMap.cpp 75–80. -/
structure Summary where
  inputDim : Nat
  outputDim : Nat
  eval : (pts output : List ℝ) → Res (List ℝ)
  grad : (pts sens output : List ℝ) → Res (List ℝ)

namespace SummarizedMap

/-- `SummarizePts`, SummarizedMap.cpp 70–89. -/
def summarizePts (s : Summary) (pts output : List ℝ) : Res (List ℝ) := do
  let toSummarize ← rows pts 0 s.inputDim
  let after ← rows pts s.inputDim 1
  let outS ← rows output 0 s.outputDim
  let o ← s.eval toSummarize outS
  let output := putRows output 0 s.outputDim o
  let outA ← rows output s.outputDim 1
  let a ← deepCopy outA after
  return putRows output s.outputDim 1 a

/-- `GradientImpl`, SummarizedMap.cpp 142–173. -/
def gradient (s : Summary) (m : CMap) (c pts sens output : List ℝ) : Res (List ℝ) := do
  let sp ← summarizePts s pts (List.replicate m.inputDim 0)
  let g ← m.grad c sp sens (List.replicate m.inputDim 0)
  let gs ← rows g 0 s.outputDim
  let gx ← rows g s.outputDim 1
  let x1 ← rows pts 0 s.inputDim
  let o1 ← rows output 0 s.inputDim
  let o ← s.grad x1 gs o1
  let output := putRows output 0 s.inputDim o
  let o2 ← rows output s.inputDim 1
  let o2 ← deepCopy o2 gx
  return putRows output s.inputDim 1 o2

/-- `LogDeterminantInputGradImpl`, SummarizedMap.cpp 205–237. -/
def ldInputGrad (s : Summary) (m : CMap) (c pts output : List ℝ) : Res (List ℝ) := do
  let sp ← summarizePts s pts (List.replicate m.inputDim 0)
  let g ← m.ldInputGrad c sp (List.replicate m.inputDim 0)
  let gs ← rows g 0 s.outputDim
  let gx ← rows g s.outputDim 1
  let x1 ← rows pts 0 s.inputDim
  let o ← s.grad x1 gs (List.replicate s.inputDim 0)
  let o1 ← rows output 0 s.inputDim
  let o1 ← deepCopy o1 o
  let output := putRows output 0 s.inputDim o1
  let o2 ← rows output s.inputDim 1
  let o2 ← deepCopy o2 gx
  return putRows output s.inputDim 1 o2

/-- `SummarizedMap`, SummarizedMap.cpp 10–237. -/
def obj (s : Summary) (m : CMap) : CMap where
  inputDim := s.inputDim + 1
  outputDim := m.outputDim
  numCoeffs := m.numCoeffs
  eval c pts output := do
    let sp ← summarizePts s pts (List.replicate m.inputDim 0)
    m.eval c sp output
  logDet c pts output := do
    let sp ← summarizePts s pts (List.replicate m.inputDim 0)
    m.logDet c sp output
  inv c x1 r output := do
    let toSummarize ← rows x1 0 s.inputDim
    let summary ← s.eval toSummarize (List.replicate s.outputDim 0)
    m.inv c summary r output
  grad := gradient s m
  coeffGrad c pts sens output := do
    let sp ← summarizePts s pts (List.replicate m.inputDim 0)
    m.coeffGrad c sp sens output
  ldCoeffGrad c pts output := do
    let sp ← summarizePts s pts (List.replicate m.inputDim 0)
    m.ldCoeffGrad c sp output
  ldInputGrad := ldInputGrad s m

/-- Constructor, SummarizedMap.cpp 10–27. -/
def new (s : Summary) (m : CMap) : Res CMap :=
  if m.outputDim ≠ 1 then .throw
  else if m.inputDim ≠ s.outputDim + 1 then .throw
  else .ok (obj s m)

end SummarizedMap
end MParT
