import Verif.Model.Options
import Verif.Model.MultiIndexSet
import Verif.Model.Maps
/-!
# Model of the language bindings

Sources: `bindings/matlab/src`, `bindings/matlab/mat`, `bindings/julia/src`, `bindings/python/src`, and the argument classes of
mexplus, `bindings/matlab/external/mexplus/mexplus/arguments.h`.

Simplifications
* numbers passed from MATLAB have the type the MEX function asks for (MATLAB's `30` is a `double` that mexplus converts);
* `mexErrMsgIdAndTxt`, which leaves the MEX function, is a throw;
* a handle of the MATLAB session is the object it stands for.
-/
namespace MParT
namespace Bind
open Ser

/-! ### MATLAB: arguments -/

/-- An argument or a result of a MEX function. The types of arguments read in ConditionalMap_mex.cpp 121–129. -/
inductive Mx
  | str (s : String)
  | dbl (x : Dbl)
  | uint (n : UInt32)
  | int (n : UInt32)
  | bool (b : Bool)
  | multi (m : MultiIndex)
deriving DecidableEq

/-- `InputArguments input(nrhs, prhs, n)` without optional arguments, arguments.h 102–114 and 218–306: fewer than `n` arguments
are an error, and so are more, since a name or a value of an option is missing then. -/
def input (n : Nat) (args : List Mx) : Res (List Mx) := if args.length = n then .ok args else .throw

/-- `input.get<std::string>(i)`. E.g. ConditionalMap_mex.cpp 125. -/
def getStr (args : List Mx) (i : Nat) : Res String :=
  match args[i]? with
  | some (.str s) => .ok s
  | _ => .throw

/-- `input.get<double>(i)`. E.g. ConditionalMap_mex.cpp 126. -/
def getDbl (args : List Mx) (i : Nat) : Res Dbl :=
  match args[i]? with
  | some (.dbl x) => .ok x
  | _ => .throw

/-- `input.get<unsigned int>(i)`. E.g. ConditionalMap_mex.cpp 121. -/
def getUint (args : List Mx) (i : Nat) : Res UInt32 :=
  match args[i]? with
  | some (.uint x) => .ok x
  | _ => .throw

/-- `input.get<int>(i)`. E.g. FixedMultiIndexSet_mex.cpp 62. -/
def getInt (args : List Mx) (i : Nat) : Res UInt32 :=
  match args[i]? with
  | some (.int x) => .ok x
  | _ => .throw

/-- `input.get<bool>(i)`. E.g. ConditionalMap_mex.cpp 129. -/
def getBln (args : List Mx) (i : Nat) : Res Bool :=
  match args[i]? with
  | some (.bool x) => .ok x
  | _ => .throw

/-- `*Session<MultiIndex>::get(input.get(i))`. MexOptionsConversions.cpp 105. -/
def getMulti (args : List Mx) (i : Nat) : Res MultiIndex :=
  match args[i]? with
  | some (.multi x) => .ok x
  | _ => .throw

/-- `OutputArguments output(nlhs, plhs, maximum_size)`, arguments.h 363–377. -/
def output (nlhs maximum : Nat) : Res Unit := if maximum < nlhs then .throw else .ok ()

/-- `output.set(index, value)`, arguments.h 380–383: assigned only if the caller asked for this output. The outputs are a list of
`nlhs` places. -/
def setOut (outs : List (Option Mx)) (i : Nat) (v : Mx) : List (Option Mx) := if i < outs.length then outs.set i (some v) else outs

/-! ### MATLAB: options -/

/-- `classdef MapOptions`, MapOptions.m 2–16. The three kinds are given by their names, `char(obj.basisType)` and so on. -/
structure MatOptions where
  basisType : String
  posFuncType : String
  quadType : String
  quadAbsTol : Dbl
  quadRelTol : Dbl
  quadMaxSub : UInt32
  quadMinSub : UInt32
  quadPts : UInt32
  contDeriv : Bool
  basisLB : Dbl
  basisUB : Dbl
  basisNorm : Bool
  nugget : Dbl
deriving DecidableEq

/-- `getMexOptions(obj)`, MapOptions.m 58–72. -/
def MatOptions.mex (o : MatOptions) : List Mx :=
  [.str o.basisType, .str o.posFuncType, .str o.quadType, .dbl o.quadAbsTol, .dbl o.quadRelTol, .uint o.quadMaxSub,
   .uint o.quadMinSub, .uint o.quadPts, .bool o.contDeriv, .dbl o.basisLB, .dbl o.basisUB, .bool o.basisNorm, .dbl o.nugget]

/-- `MapOptions opts;`, MapOptions.h 47–100. -/
def defaultOptions : Options where
  basisType := 0
  basisLB := 0xFFF0000000000000
  basisUB := 0x7FF0000000000000
  posFuncType := 1
  quadType := 1
  quadAbsTol := 0x3EB0C6F7A0B5ED8D
  quadRelTol := 0x3EB0C6F7A0B5ED8D
  quadMaxSub := 30
  quadMinSub := 0
  quadPts := 5
  contDeriv := true
  basisNorm := true
  nugget := 0

/-- The kind of basis, MexOptionsConversions.cpp 14–22 and 133–141; `dflt` is kept, with a message, for an unknown name. -/
def basisOfName (s : String) (dflt : UInt32) : UInt32 :=
  if s = "ProbabilistHermite" then 0
  else if s = "PhysicistHermite" then 1
  else if s = "HermiteFunctions" then 2
  else dflt

/-- The positive function, MexOptionsConversions.cpp 24–30 and 143–149. -/
def posOfName (s : String) (dflt : UInt32) : UInt32 :=
  if s = "Exp" then 0
  else if s = "SoftPlus" then 1
  else dflt

/-- The quadrature, MexOptionsConversions.cpp 32–40 and 151–159. -/
def quadOfName (s : String) (dflt : UInt32) : UInt32 :=
  if s = "ClenshawCurtis" then 0
  else if s = "AdaptiveSimpson" then 1
  else if s = "AdaptiveClenshawCurtis" then 2
  else dflt

/-- `MapOptionsFromMatlab(basisType, ...)`, MexOptionsConversions.cpp 6–53. -/
def mapOptionsFromMatlab (basisType posFuncType quadType : String) (quadAbsTol quadRelTol : Dbl)
    (quadMaxSub quadMinSub quadPts : UInt32) (contDeriv : Bool) (basisLB basisUB : Dbl) (basisNorm : Bool) (nugget : Dbl) :
    Options where
  basisType := basisOfName basisType defaultOptions.basisType
  posFuncType := posOfName posFuncType defaultOptions.posFuncType
  quadType := quadOfName quadType defaultOptions.quadType
  quadAbsTol := quadAbsTol
  quadRelTol := quadRelTol
  quadMaxSub := quadMaxSub
  quadMinSub := quadMinSub
  quadPts := quadPts
  contDeriv := contDeriv
  basisLB := basisLB
  basisUB := basisUB
  basisNorm := basisNorm
  nugget := nugget

/-- The thirteen arguments from position `start` are handed to `MapOptionsFromMatlab`: ConditionalMap_mex.cpp 125–129 (`start` 3),
140–144 and 155–159 (1), ParameterizedFunctionBase_mex.cpp 46–50 (2) and 212–216 (1). -/
def optionsAt (args : List Mx) (start : Nat) : Res Options := do
  let basisType ← getStr args start
  let posFuncType ← getStr args (start + 1)
  let quadType ← getStr args (start + 2)
  let quadAbsTol ← getDbl args (start + 3)
  let quadRelTol ← getDbl args (start + 4)
  let quadMaxSub ← getUint args (start + 5)
  let quadMinSub ← getUint args (start + 6)
  let quadPts ← getUint args (start + 7)
  let contDeriv ← getBln args (start + 8)
  let basisLB ← getDbl args (start + 9)
  let basisUB ← getDbl args (start + 10)
  let basisNorm ← getBln args (start + 11)
  let nugget ← getDbl args (start + 12)
  return mapOptionsFromMatlab basisType posFuncType quadType quadAbsTol quadRelTol quadMaxSub quadMinSub quadPts contDeriv
    basisLB basisUB basisNorm nugget

/-- The options the C++ factory gets from `CreateComponent(mset, options)`: CreateComponent.m, ConditionalMap.m 38–57,
`ConditionalMap_newMap` and `ConditionalMap_newMapFixed`, ConditionalMap_mex.cpp 134–162. `mset` is the handle. -/
def createComponentOptions (mset : Mx) (o : MatOptions) : Res Options := do
  let args ← input 14 (mset :: o.mex)
  optionsAt args 1

/-- The options the C++ factory gets from `CreateTriangular(inDim, outDim, order, opts)`: CreateTriangular.m, ConditionalMap.m
67–81, `ConditionalMap_newTotalTriMap`, ConditionalMap_mex.cpp 116–132. -/
def createTriangularOptions (inDim outDim order : UInt32) (o : MatOptions) : Res Options := do
  let args ← input 16 (.uint inDim :: .uint outDim :: .uint order :: o.mex)
  optionsAt args 3

/-- The options the C++ factory gets from `ParameterizedFunction_newMap`, ParameterizedFunctionBase_mex.cpp 39–53. -/
def newExpansionOptions (outputDim : UInt32) (mset : Mx) (o : MatOptions) : Res Options := do
  let args ← input 15 (.uint outputDim :: mset :: o.mex)
  optionsAt args 2

/-- `classdef ATMOptions < TrainOptions & MapOptions`, ATMOptions.m 2–6 and TrainOptions.m 2–12. -/
structure MatATM extends MatOptions where
  opt_alg : String
  opt_stopval : Dbl
  opt_ftol_rel : Dbl
  opt_ftol_abs : Dbl
  opt_xtol_rel : Dbl
  opt_xtol_abs : Dbl
  opt_maxeval : UInt32
  opt_maxtime : Dbl
  verbose : UInt32
  maxPatience : UInt32
  maxSize : UInt32
  maxDegrees : MultiIndex

/-- `getMexOptions(obj)`, ATMOptions.m 17–42. -/
def MatATM.mex (o : MatATM) : List Mx :=
  [.str o.basisType, .str o.posFuncType, .str o.quadType, .dbl o.quadAbsTol, .dbl o.quadRelTol, .uint o.quadMaxSub,
   .uint o.quadMinSub, .uint o.quadPts, .bool o.contDeriv, .dbl o.basisLB, .dbl o.basisUB, .bool o.basisNorm,
   .str o.opt_alg, .dbl o.opt_stopval, .dbl o.opt_ftol_rel, .dbl o.opt_ftol_abs, .dbl o.opt_xtol_rel, .dbl o.opt_xtol_abs,
   .int o.opt_maxeval, .dbl o.opt_maxtime, .int o.verbose, .uint o.maxPatience, .uint o.maxSize, .multi o.maxDegrees]

/-- `struct ATMOptions` with the options of the optimiser, TrainMapAdaptive.h 19–25 and TrainMap.h 17–35. -/
structure ATMFull extends Options where
  opt_alg : String
  opt_stopval : Dbl
  opt_ftol_rel : Dbl
  opt_ftol_abs : Dbl
  opt_xtol_rel : Dbl
  opt_xtol_abs : Dbl
  opt_maxeval : UInt32
  opt_maxtime : Dbl
  verbose : UInt32
  maxPatience : UInt32
  maxSize : UInt32
  maxDegrees : MultiIndex

/-- `ATMOptionsFromMatlab(input, start)`, MexOptionsConversions.cpp 104–118, and the conversion it calls, 120–184: a default
constructed object whose members are assigned. -/
def atmAt (args : List Mx) (start : Nat) : Res ATMFull := do
  let maxDegrees ← getMulti args (start + 23)
  let basisType ← getStr args start
  let posFuncType ← getStr args (start + 1)
  let quadType ← getStr args (start + 2)
  let quadAbsTol ← getDbl args (start + 3)
  let quadRelTol ← getDbl args (start + 4)
  let quadMaxSub ← getUint args (start + 5)
  let quadMinSub ← getUint args (start + 6)
  let quadPts ← getUint args (start + 7)
  let contDeriv ← getBln args (start + 8)
  let basisLB ← getDbl args (start + 9)
  let basisUB ← getDbl args (start + 10)
  let basisNorm ← getBln args (start + 11)
  let opt_alg ← getStr args (start + 12)
  let opt_stopval ← getDbl args (start + 13)
  let opt_ftol_rel ← getDbl args (start + 14)
  let opt_ftol_abs ← getDbl args (start + 15)
  let opt_xtol_rel ← getDbl args (start + 16)
  let opt_xtol_abs ← getDbl args (start + 17)
  let opt_maxeval ← getInt args (start + 18)
  let opt_maxtime ← getDbl args (start + 19)
  let verbose ← getInt args (start + 20)
  let maxPatience ← getUint args (start + 21)
  let maxSize ← getUint args (start + 22)
  return { defaultOptions with
    basisType := basisOfName basisType defaultOptions.basisType
    posFuncType := posOfName posFuncType defaultOptions.posFuncType
    quadType := quadOfName quadType defaultOptions.quadType
    quadAbsTol := quadAbsTol, quadRelTol := quadRelTol, quadMaxSub := quadMaxSub, quadMinSub := quadMinSub
    quadPts := quadPts, contDeriv := contDeriv, basisLB := basisLB, basisUB := basisUB, basisNorm := basisNorm
    opt_alg := opt_alg, opt_stopval := opt_stopval, opt_ftol_rel := opt_ftol_rel, opt_ftol_abs := opt_ftol_abs
    opt_xtol_rel := opt_xtol_rel, opt_xtol_abs := opt_xtol_abs, opt_maxeval := opt_maxeval, opt_maxtime := opt_maxtime
    verbose := verbose, maxPatience := maxPatience, maxSize := maxSize, maxDegrees := maxDegrees }

/-- The options `TrainMapAdaptive` gets from MATLAB: AdaptiveTransportMap.m and ConditionalMap_mex.cpp 39–61. The first two arguments
are the handles of the sets and of the objective. -/
def trainAdaptiveOptions (msets objective : Mx) (o : MatATM) : Res ATMFull := do
  let args ← input 26 (msets :: objective :: o.mex)
  atmAt args 2

/-- `maxDegrees = MultiIndex(0)`, ATMOptions.m 5: one argument, so that `MultiIndex_newEigen` is called with the 1 by 1 matrix `0`
(MultiIndex.m 23–35, MultiIndex_mex.cpp 31–38). -/
def matDefaultMaxDegrees : MultiIndex := MultiIndex.ofVec [0]

/-- The name of a basis, MexOptionsConversions.cpp 58–63. -/
def basisName (b : UInt32) : String :=
  if b = 0 then "ProbabilistHermite" else if b = 1 then "PhysicistHermite" else if b = 2 then "HermiteFunctions" else ""

/-- The name of a positive function, MexOptionsConversions.cpp 64–68. -/
def posName (p : UInt32) : String := if p = 0 then "Exp" else if p = 1 then "SoftPlus" else ""

/-- The name of a quadrature, MexOptionsConversions.cpp 69–74. -/
def quadName (q : UInt32) : String :=
  if q = 0 then "ClenshawCurtis" else if q = 1 then "AdaptiveSimpson" else if q = 2 then "AdaptiveClenshawCurtis" else ""

/-- `MapOptionsToMatlab(opts, output, start = 0)`, MexOptionsConversions.cpp 55–86. -/
def mapOptionsToMatlab (o : Options) (outs : List (Option Mx)) : List (Option Mx) :=
  let outs := setOut outs 0 (.str (basisName o.basisType))
  let outs := setOut outs 1 (.str (posName o.posFuncType))
  let outs := setOut outs 2 (.str (quadName o.quadType))
  let outs := setOut outs 3 (.dbl o.quadAbsTol)
  let outs := setOut outs 4 (.dbl o.quadRelTol)
  let outs := setOut outs 5 (.uint o.quadMaxSub)
  let outs := setOut outs 6 (.uint o.quadMinSub)
  let outs := setOut outs 7 (.uint o.quadPts)
  let outs := setOut outs 8 (.bool o.contDeriv)
  let outs := setOut outs 9 (.dbl o.basisLB)
  let outs := setOut outs 10 (.dbl o.basisUB)
  let outs := setOut outs 11 (.bool o.basisNorm)
  setOut outs 12 (.dbl o.nugget)

/-- `obj.Serialize(filename)`, MapOptions.m 91–96, and `MapOptions_Serialize`, ParameterizedFunctionBase_mex.cpp 204–224: the bytes
written to the file. -/
def matSerialize (filename : String) (o : MatOptions) : Res (List Byte) := do
  let args ← input 14 (.str filename :: o.mex)
  let opts ← optionsAt args 1
  return opts.save

/-- `MapOptions_Deserialize` called for `nlhs` results, ParameterizedFunctionBase_mex.cpp 227–244. -/
def mexDeserialize (nlhs : Nat) (file : List Byte) : Res (List (Option Mx)) := do
  output nlhs 12
  match Options.load file with
  | .ok (opts, _) => return mapOptionsToMatlab opts (List.replicate nlhs none)
  | .throw => .throw
  | .ub => .ub

/-- `obj.Deserialize(filename)`, MapOptions.m 98–124: thirteen results are asked for, and become the fields. -/
def matDeserialize (file : List Byte) : Res MatOptions := do
  let outs ← mexDeserialize 13 file
  let vals := outs.filterMap id
  return {
    basisType := ← getStr vals 0, posFuncType := ← getStr vals 1, quadType := ← getStr vals 2
    quadAbsTol := ← getDbl vals 3, quadRelTol := ← getDbl vals 4, quadMaxSub := ← getUint vals 5
    quadMinSub := ← getUint vals 6, quadPts := ← getUint vals 7, contDeriv := ← getBln vals 8
    basisLB := ← getDbl vals 9, basisUB := ← getDbl vals 10, basisNorm := ← getBln vals 11, nugget := ← getDbl vals 12 }

/-! ### Multi-indices and sets -/

/-- `MultiIndexSet_DeepCopy`, MultiIndexSet_mex.cpp 172–180. -/
def matDeepCopy (s : MISet) : Res MISet := do
  let copy ← MISet.createTotalOrder s.length 0 fun _ => true
  let (copy, _) ← copy.union s
  return copy

/-- `idx[ind]` in Julia, julia/src/MultiIndex.cpp 79: `ind - 1` is computed in `unsigned int`. -/
def jlGet (m : MultiIndex) (ind : UInt32) : Res Nat := m.get (ind - 1).toNat

/-- `idx[ind] = val` in Julia, julia/src/MultiIndex.cpp 78. -/
def jlSet (m : MultiIndex) (val ind : UInt32) : Res (MultiIndex × Bool) := m.set (ind - 1).toNat val.toNat

/-! ### Coefficients of a map in a file -/

/-- `map.Serialize(filename)`: python/src/ParameterizedFunctionBase.cpp 51–56, julia/src/ParameterizedFunctionBase.cpp 46–59,
ParameterizedFunctionBase_mex.cpp 158–179 and ConditionalMap_mex.cpp 395–416. -/
def serializeMap (inputDim outputDim numCoeffs : UInt32) (coeffs : View Dbl) : List Byte :=
  putU32 inputDim ++ putU32 outputDim ++ putU32 numCoeffs ++ coeffs.save putU64

/-- `DeserializeMap(filename)` in Python (python/src/Serialization.cpp 22–31) and MATLAB (ParameterizedFunctionBase_mex.cpp 181–202). -/
def deserializeMap : Rd (UInt32 × UInt32 × List Dbl) := do
  let inputDim ← getU32
  let outputDim ← getU32
  let _numCoeffs ← getU32
  let coeffs ← View.load getU64
  pure (inputDim, outputDim, coeffs.data)

/-- `__DeserializeMap(filename, dims)` in Julia, julia/src/ParameterizedFunctionBase.cpp 62–78: the coefficients are copied into a
Julia array of the stored number of coefficients; `Kokkos::deep_copy` throws when the extents differ. -/
def jlDeserializeMap : Rd (UInt32 × UInt32 × List Dbl) := do
  let inputDim ← getU32
  let outputDim ← getU32
  let numCoeffs ← getU32
  let coeffs ← View.load getU64
  if coeffs.data.length = numCoeffs.toNat then pure (inputDim, outputDim, coeffs.data) else Rd.mk fun _ => .throw

/-! ### Results in Julia

`jlMalloc`, JlArrayConversions.h 60–68, returns memory from `malloc`; `mem` is what it happens to contain. As in `Model/Maps.lean` one
column is modelled. -/

/-- `Evaluate`, julia/src/ParameterizedFunctionBase.cpp 15–26: the memory is zeroed first. -/
noncomputable def jlEvaluate (f : CMap) (c pts mem : List ℝ) : Res (List ℝ) := f.eval c pts (mem.map fun _ => 0)

/-- `Gradient`, julia/src/ParameterizedFunctionBase.cpp 34–45: the memory is zeroed first. -/
noncomputable def jlGradient (f : CMap) (c pts sens mem : List ℝ) : Res (List ℝ) := f.grad c pts sens (mem.map fun _ => 0)

/-- `CoeffGrad`, julia/src/ParameterizedFunctionBase.cpp 27–33. -/
def jlCoeffGrad (f : CMap) (c pts sens mem : List ℝ) : Res (List ℝ) := f.coeffGrad c pts sens mem

/-- `LogDeterminant`, julia/src/ConditionalMapBase.cpp 15–20. -/
def jlLogDeterminant (f : CMap) (c pts : List ℝ) (mem : Option ℝ) : Res (Option ℝ) := f.logDet c pts mem

/-- `Inverse`, julia/src/ConditionalMapBase.cpp 35–41. -/
def jlInverse (f : CMap) (c x1 r mem : List ℝ) : Res (List ℝ) := f.inv c x1 r mem

/-- `LogDeterminantCoeffGrad`, julia/src/ConditionalMapBase.cpp 21–27. -/
def jlLdCoeffGrad (f : CMap) (c pts mem : List ℝ) : Res (List ℝ) := f.ldCoeffGrad c pts mem

/-- `LogDeterminantInputGrad`, julia/src/ConditionalMapBase.cpp 28–34. -/
def jlLdInputGrad (f : CMap) (c pts mem : List ℝ) : Res (List ℝ) := f.ldInputGrad c pts mem

end Bind
end MParT
