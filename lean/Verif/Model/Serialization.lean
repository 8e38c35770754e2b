import Verif.Model.FixedSet
/-!
# Model of saving and loading through a binary archive

Sources: `MParT/Utilities/Serialization.h`, and the `save`, `load`, `serialize` and `load_and_construct` members of
`MapOptions`, `FixedMultiIndexSet`, the one-dimensional bases, the quadrature rules, `MultivariateExpansionWorker`,
`MonotoneComponent`, `TriangularMap`, `ConditionalMapBase` and `ParameterizedFunctionBase`.

The archive is cereal's `BinaryOutputArchive` / `BinaryInputArchive`, which is not part of the repository and is modelled
from its documentation:
* numbers are written as their bytes, lowest byte first, four for `unsigned int`, `int` and enumerations, eight for `double`
  and for the sizes of strings and vectors, one for `bool`;
* reading past the end throws;
* a shared pointer to a polymorphic class is written as the number of the class (with the highest bit set and followed by the
  registered name the first time), then the number of the object (with the highest bit set and followed by the object the
  first time); a null pointer is written as class number zero.

A `double` is its 64-bit pattern, so equality of loaded objects is equality of bits.
-/
namespace MParT
namespace Ser

/-- One byte of the archive. cereal library (binary archive); used in Serialization.h 24–31. -/
abbrev Byte := Fin 256
/-- Bit pattern of a `double`, e.g. `nugget_`, MonotoneComponent.h 1063. -/
abbrev Dbl := UInt64

/-! ### Reading -/

/-- A reader consumes a prefix of the bytes. cereal library (binary archive); used in Serialization.h 40–47. -/
def Rd (α : Type) : Type := List Byte → Res (α × List Byte)

instance : Monad Rd where
  pure a := fun s => .ok (a, s)
  bind m f := fun s => match m s with
    | .ok (a, s') => f a s'
    | .throw => .throw
    | .ub => .ub

/-- A reader given as a function. Serialization.h 40–47. -/
def Rd.mk {α : Type} (f : List Byte → Res (α × List Byte)) : Rd α := f

/-- The `k` lowest bytes of `n`, lowest first. cereal library (binary archive); used in Serialization.h 24–31. -/
def putLE : Nat → Nat → List Byte
  | 0, _ => []
  | k + 1, n => ⟨n % 256, Nat.mod_lt _ (by decide)⟩ :: putLE k (n / 256)

/-- The number with the given bytes, lowest first. cereal library (binary archive); used in Serialization.h 40–47. -/
def valLE : List Byte → Nat
  | [] => 0
  | b :: bs => b.val + 256 * valLE bs

/-- `loadBinary(data, k)`: throws if fewer than `k` bytes are left. cereal library; used in Serialization.h 47. -/
def getBytes (k : Nat) : Rd (List Byte) := fun s => if s.length < k then .throw else .ok (s.take k, s.drop k)

/-- Writing an `unsigned int`. cereal library; used in Serialization.h 28. -/
def putU32 (n : UInt32) : List Byte := putLE 4 n.toNat
/-- Reading an `unsigned int`. cereal library; used in Serialization.h 43. -/
def getU32 : Rd UInt32 := do let bs ← getBytes 4; pure (UInt32.ofNat (valLE bs))
/-- Writing eight bytes, e.g. a `double`. cereal library; used in Serialization.h 31. -/
def putU64 (n : UInt64) : List Byte := putLE 8 n.toNat
/-- Reading eight bytes, e.g. a `double`. cereal library; used in Serialization.h 47. -/
def getU64 : Rd UInt64 := do let bs ← getBytes 8; pure (UInt64.ofNat (valLE bs))
/-- Writing a `bool`. cereal library; used in OrthogonalPolynomial.h 285. -/
def putBool (b : Bool) : List Byte := [if b then 1 else 0]
/-- A byte read into a `bool`. Values other than 0 and 1 are not valid representations; compilers treat them as true. cereal library; used in FixedMultiIndexSet.h 93. -/
def getBool : Rd Bool := do let bs ← getBytes 1; pure (valLE bs != 0)

/-- `std::string`: eight bytes for the length, then the characters. cereal library; used in Serialization.h 25 and 41. -/
def putString (l : List Byte) : List Byte := putLE 8 l.length ++ l
/-- Reading a `std::string`. cereal library; used in Serialization.h 41. -/
def getString : Rd (List Byte) := do let n ← getU64; getBytes n.toNat

/-- Reading the same kind of item `n` times. Serialization.h 47. -/
def getMany {α : Type} (g : Rd α) : Nat → Rd (List α)
  | 0 => pure []
  | n + 1 => do
    let a ← g
    let as ← getMany g n
    pure (a :: as)

/-! ### Views -/

/-- `Kokkos::View<T*, HostSpace>`. Serialization.h 20. -/
structure View (α : Type) where
  label : List Byte
  data : List α
  allocated : Bool
deriving DecidableEq

/-- `save` of a one-dimensional view, Serialization.h 18–33. -/
def View.save {α : Type} (put : α → List Byte) (v : View α) : List Byte :=
  putString v.label ++ putLE 4 v.data.length ++ (if v.data.length > 0 then v.data.flatMap put else [])

/-- `load` of a one-dimensional view, Serialization.h 35–50. -/
def View.load {α : Type} (get : Rd α) : Rd (View α) := do
  let name ← getString
  let sz ← getU32
  if sz.toNat > 0 then do
    let data ← getMany get sz.toNat
    pure ⟨name, data, true⟩
  else pure ⟨name, [], true⟩

/-- `Kokkos::View<T**, HostSpace>`: the entries in the order of memory. Serialization.h 54. -/
structure MatView (α : Type) where
  label : List Byte
  rows : Nat
  cols : Nat
  data : List α
  allocated : Bool
deriving DecidableEq

/-- `save` of a two-dimensional view, Serialization.h 52–68. `m * n` is computed in `unsigned int`, that is modulo 2^32. -/
def MatView.save {α : Type} (put : α → List Byte) (v : MatView α) : List Byte :=
  putString v.label ++ putLE 4 v.rows ++ putLE 4 v.cols ++
    (if v.rows % 2 ^ 32 > 0 ∧ v.cols % 2 ^ 32 > 0 then (v.data.take (v.rows * v.cols % 2 ^ 32)).flatMap put else [])

/-- `load` of a two-dimensional view, Serialization.h 70–83. New views are filled with zeros (`z`). -/
def MatView.load {α : Type} (z : α) (get : Rd α) : Rd (MatView α) := do
  let name ← getString
  let m ← getU32
  let n ← getU32
  if m.toNat > 0 ∧ n.toNat > 0 then do
    let data ← getMany get (m.toNat * n.toNat % 2 ^ 32)
    pure ⟨name, m.toNat, n.toNat, data ++ List.replicate (m.toNat * n.toNat - m.toNat * n.toNat % 2 ^ 32) z, true⟩
  else pure ⟨name, m.toNat, n.toNat, [], true⟩

/-! ### Options -/

/-- `struct MapOptions`, MapOptions.h 47–100. Enumerations are stored as `int`. -/
structure Options where
  basisType : UInt32
  basisLB : Dbl
  basisUB : Dbl
  posFuncType : UInt32
  quadType : UInt32
  quadAbsTol : Dbl
  quadRelTol : Dbl
  quadMaxSub : UInt32
  quadMinSub : UInt32
  quadPts : UInt32
  contDeriv : Bool
  basisNorm : Bool
  nugget : Dbl
deriving DecidableEq

/-- `serialize` into an output archive, MapOptions.h 103–107. -/
def Options.save (o : Options) : List Byte :=
  putU32 o.basisType ++ putU64 o.basisLB ++ putU64 o.basisUB ++ putU32 o.posFuncType ++ putU32 o.quadType ++
    putU64 o.quadAbsTol ++ putU64 o.quadRelTol ++ putU32 o.quadMaxSub ++ putU32 o.quadMinSub ++ putU32 o.quadPts ++
    putBool o.contDeriv ++ putBool o.basisNorm ++ putU64 o.nugget

/-- `serialize` from an input archive, MapOptions.h 103–107. -/
def Options.load : Rd Options := do
  let basisType ← getU32
  let basisLB ← getU64
  let basisUB ← getU64
  let posFuncType ← getU32
  let quadType ← getU32
  let quadAbsTol ← getU64
  let quadRelTol ← getU64
  let quadMaxSub ← getU32
  let quadMinSub ← getU32
  let quadPts ← getU32
  let contDeriv ← getBool
  let basisNorm ← getBool
  let nugget ← getU64
  pure ⟨basisType, basisLB, basisUB, posFuncType, quadType, quadAbsTol, quadRelTol, quadMaxSub, quadMinSub, quadPts, contDeriv,
    basisNorm, nugget⟩

/-! ### Fixed multi-index sets -/

/-- `class FixedMultiIndexSet` data members, FixedMultiIndexSet.h 103–111, with the labels of the views. -/
structure SetObj where
  dim : UInt32
  isCompressed : Bool
  nzStarts : View UInt32
  nzDims : View UInt32
  nzOrders : View UInt32
  maxDegrees : View UInt32
deriving DecidableEq

/-- The contents without labels. FixedMultiIndexSet.h 103–111. -/
def SetObj.toFixed (s : SetObj) : FixedSet where
  dim := s.dim.toNat
  isCompressed := s.isCompressed
  nzStarts := s.nzStarts.data.map UInt32.toNat
  nzDims := s.nzDims.data.map UInt32.toNat
  nzOrders := s.nzOrders.data.map UInt32.toNat
  maxDegrees := s.maxDegrees.data.map UInt32.toNat

/-- `save`, FixedMultiIndexSet.h 80–88. -/
def SetObj.save (s : SetObj) : List Byte :=
  putU32 s.dim ++ putBool s.isCompressed ++ s.nzStarts.save putU32 ++ s.nzDims.save putU32 ++ s.nzOrders.save putU32 ++
    s.maxDegrees.save putU32

/-- `load`, FixedMultiIndexSet.h 90–98. -/
def SetObj.load : Rd SetObj := do
  let dim ← getU32
  let isCompressed ← getBool
  let nzStarts ← View.load getU32
  let nzDims ← View.load getU32
  let nzOrders ← View.load getU32
  let maxDegrees ← View.load getU32
  pure ⟨dim, isCompressed, nzStarts, nzDims, nzOrders, maxDegrees⟩

/-! ### One-dimensional bases -/

/-- The types of one-dimensional bases: `OrthogonalPolynomial<Mixer>`, `HermiteFunction`, `LinearizedBasis<B>`. OrthogonalPolynomial.h 17–18, HermiteFunction.h 18, LinearizedBasis.h 16–17. -/
inductive BasisTy
  | poly
  | hermite
  | linearized (b : BasisTy)
deriving DecidableEq

/-- Data members: `normalize_` (OrthogonalPolynomial.h 290), `polyBase` (HermiteFunction.h), `polyBasis_`, `lb_`, `ub_`
(LinearizedBasis.h 157–161). -/
inductive Basis
  | poly (normalize : Bool)
  | hermite (normalize : Bool)
  | linearized (b : Basis) (lb ub : Dbl)
deriving DecidableEq

/-- The type of a basis. OrthogonalPolynomial.h 17–18, HermiteFunction.h 18, LinearizedBasis.h 16–17. -/
def Basis.ty : Basis → BasisTy
  | .poly _ => .poly
  | .hermite _ => .hermite
  | .linearized b _ _ => .linearized b.ty

/-- `serialize`, OrthogonalPolynomial.h 280–287, HermiteFunction.h 146–150, LinearizedBasis.h 150–154; output. -/
def Basis.save : Basis → List Byte
  | .poly n => putBool n
  | .hermite n => putBool n
  | .linearized b lb ub => b.save ++ putU64 lb ++ putU64 ub

/-- `serialize`, as above; input. OrthogonalPolynomial.h 280–287, HermiteFunction.h 146–150, LinearizedBasis.h 150–154. -/
def Basis.load : BasisTy → Rd Basis
  | .poly => do let n ← getBool; pure (.poly n)
  | .hermite => do let n ← getBool; pure (.hermite n)
  | .linearized t => do
    let b ← Basis.load t
    let lb ← getU64
    let ub ← getU64
    pure (.linearized b lb ub)

/-! ### Quadrature rules -/

/-- Where `workspace_` points. Quadrature.h 96. -/
inductive Ptr
  | null
  | internal -- `internalWork_.data()`
  | external (addr : Nat)
deriving DecidableEq

/-- `QuadratureBase` data members, Quadrature.h 91–96. -/
structure QuadBase where
  fdim : UInt32
  maxDim : UInt32
  workspaceSize : UInt32
  internalWork : View Dbl
  workspace : Ptr
deriving DecidableEq

/-- `save`, Quadrature.h 66–71. -/
def QuadBase.save (q : QuadBase) : List Byte :=
  putU32 q.fdim ++ putU32 q.maxDim ++ putU32 q.workspaceSize ++ q.internalWork.save putU64

/-- `load`, Quadrature.h 73–85; `workspace_` is null before (default constructor, 86). -/
def QuadBase.load : Rd QuadBase := do
  let fdim ← getU32
  let maxDim ← getU32
  let workspaceSize ← getU32
  let w ← View.load getU64
  pure ⟨fdim, maxDim, workspaceSize, w,
    if w.allocated then (if workspaceSize.toNat ≤ w.data.length then .internal else .null) else .null⟩

/-- The types of quadrature rules. Quadrature.h 142, 496, 728. -/
inductive QuadTy
  | clenshawCurtis
  | adaptiveSimpson
  | adaptiveClenshawCurtis
deriving DecidableEq

/-- `RecursiveQuadratureBase` members, Quadrature.h 481–486. -/
structure RecBase where
  base : QuadBase
  maxSub : UInt32
  minSub : UInt32
  absTol : Dbl
  relTol : Dbl
  errorMetric : UInt32
deriving DecidableEq

/-- `save`, Quadrature.h 422–427. -/
def RecBase.save (q : RecBase) : List Byte :=
  q.base.save ++ putU32 q.maxSub ++ putU32 q.minSub ++ putU64 q.absTol ++ putU64 q.relTol ++ putU32 q.errorMetric

/-- `load`, Quadrature.h 428–433. -/
def RecBase.load : Rd RecBase := do
  let base ← QuadBase.load
  let maxSub ← getU32
  let minSub ← getU32
  let absTol ← getU64
  let relTol ← getU64
  let errorMetric ← getU32
  pure ⟨base, maxSub, minSub, absTol, relTol, errorMetric⟩

/-- The quadrature classes with their members, Quadrature.h 333–334, `AdaptiveSimpson`, 1005. -/
inductive Quad
  | clenshawCurtis (base : QuadBase) (pts wts : View Dbl) (numPts : UInt32)
  | adaptiveSimpson (r : RecBase)
  | adaptiveClenshawCurtis (r : RecBase) (coarsePts coarseWts finePts fineWts : View Dbl)
deriving DecidableEq

/-- The type of a rule. Quadrature.h 142, 496, 728. -/
def Quad.ty : Quad → QuadTy
  | .clenshawCurtis .. => .clenshawCurtis
  | .adaptiveSimpson .. => .adaptiveSimpson
  | .adaptiveClenshawCurtis .. => .adaptiveClenshawCurtis

/-- The members of the base class. Quadrature.h 91–96. -/
def Quad.base : Quad → QuadBase
  | .clenshawCurtis b .. => b
  | .adaptiveSimpson r => r.base
  | .adaptiveClenshawCurtis r .. => r.base

/-- `save`, Quadrature.h 313–318, 678–682, 970–975. -/
def Quad.save : Quad → List Byte
  | .clenshawCurtis b pts wts n => b.save ++ pts.save putU64 ++ wts.save putU64 ++ putU32 n
  | .adaptiveSimpson r => r.save
  | .adaptiveClenshawCurtis r cp cw fp fw =>
    r.save ++ cp.save putU64 ++ cw.save putU64 ++ fp.save putU64 ++ fw.save putU64

/-- `load`, Quadrature.h 319–324, 683–687, 976–981. -/
def Quad.load : QuadTy → Rd Quad
  | .clenshawCurtis => do
    let b ← QuadBase.load
    let pts ← View.load getU64
    let wts ← View.load getU64
    let n ← getU32
    pure (.clenshawCurtis b pts wts n)
  | .adaptiveSimpson => do
    let r ← RecBase.load
    pure (.adaptiveSimpson r)
  | .adaptiveClenshawCurtis => do
    let r ← RecBase.load
    let cp ← View.load getU64
    let cw ← View.load getU64
    let fp ← View.load getU64
    let fw ← View.load getU64
    pure (.adaptiveClenshawCurtis r cp cw fp fw)

/-! ### Expansions and monotone components -/

/-- `MultivariateExpansionWorker` data members, MultivariateExpansionWorker.h 452–460. -/
structure Expansion where
  dim : UInt32
  multiSet : SetObj
  basis : Basis
  startPos : View UInt32
  maxDegrees : View UInt32
  cacheSize : UInt32
deriving DecidableEq

/-- `save`, MultivariateExpansionWorker.h 436–440. -/
def Expansion.save (e : Expansion) : List Byte :=
  putU32 e.dim ++ e.multiSet.save ++ e.basis.save ++ e.startPos.save putU32 ++ putU32 e.cacheSize

/-- `load`, MultivariateExpansionWorker.h 442–447. -/
def Expansion.load (t : BasisTy) : Rd Expansion := do
  let dim ← getU32
  let multiSet ← SetObj.load
  let basis ← Basis.load t
  let startPos ← View.load getU32
  let cacheSize ← getU32
  pure ⟨dim, multiSet, basis, startPos, multiSet.maxDegrees, cacheSize⟩

/-- `NumCoeffs()`, MultivariateExpansionWorker.h: `multiSet_.Size()`. MultivariateExpansionWorker.h 118. -/
def Expansion.numCoeffs (e : Expansion) : Res Nat := e.multiSet.toFixed.size

/-- `MonotoneComponent` data members, MonotoneComponent.h 1059–1063, and `savedCoeffs`. The template arguments are the type
of the expansion's basis, the positive bijector (`pos`) and the type of the rule. -/
structure Mono where
  pos : Nat
  expansion : Expansion
  quad : Quad
  useContDeriv : Bool
  nugget : Dbl
  coeffs : View Dbl
deriving DecidableEq

/-- An unallocated view. Kokkos library; `savedCoeffs` after ParameterizedFunctionBase.h 33. -/
def View.empty {α : Type} : View α := ⟨[], [], false⟩

/-- Label of the view made by `SetCoeffs`, ParameterizedFunctionBase.cpp 202: the characters are not modelled one by one. -/
def setCoeffsLabel : List Byte := [80, 70, 66]

/-- `save`, MonotoneComponent.h 1028–1034. The base classes write nothing (ConditionalMapBase.h 164–168,
ParameterizedFunctionBase.h 221–225). -/
def Mono.save (m : Mono) : List Byte :=
  m.expansion.save ++ m.quad.save ++ putBool m.useContDeriv ++ putU64 m.nugget ++ m.coeffs.save putU64

/-- `load_and_construct`, MonotoneComponent.h 1036–1055. The constructor with coefficients copies them (`SetCoeffs`). -/
def Mono.load (pos : Nat) (bt : BasisTy) (qt : QuadTy) : Rd Mono := do
  let expansion ← Expansion.load bt
  let quad ← Quad.load qt
  let useContDeriv ← getBool
  let nugget ← getU64
  let coeffs ← View.load getU64
  Rd.mk fun s => match expansion.numCoeffs with
    | .ok n =>
      if coeffs.data.length = n then .ok (⟨pos, expansion, quad, useContDeriv, nugget, ⟨setCoeffsLabel, coeffs.data, true⟩⟩, s)
      else .ok (⟨pos, expansion, quad, useContDeriv, nugget, .empty⟩, s)
    | .throw => .throw
    | .ub => .ub

/-! ### Maps behind shared pointers -/

/-- The registered classes (`REGISTER_MONO_COMP`, Serialization.h 12–14; TriangularMap.cpp 321). -/
inductive Class
  | mono (pos : Nat) (bt : BasisTy) (qt : QuadTy)
  | tri
deriving DecidableEq

/-- A map object. `addr` is its address; two pointers are equal if their addresses are. `coeffs` of a triangular map is its
`savedCoeffs`. MonotoneComponent.h 1059–1063, TriangularMap.h 151. -/
inductive Obj
  | mono (addr : Nat) (m : Mono)
  | tri (addr : Nat) (comps : List Obj) (coeffs : View Dbl)

/-- The address of an object. cereal library (`shared_ptr`); used in ParameterizedFunctionBase.h 200–218. -/
def Obj.addr : Obj → Nat
  | .mono a _ => a
  | .tri a _ _ => a

/-- The class of an object. Serialization.h 14, TriangularMap.cpp 321. -/
def Obj.cls : Obj → Class
  | .mono _ m => .mono m.pos m.expansion.basis.ty m.quad.ty
  | .tri .. => .tri

/-- The coefficients of an object. ParameterizedFunctionBase.h 247. -/
def Obj.coeffs : Obj → View Dbl
  | .mono _ m => m.coeffs
  | .tri _ _ c => c

/-- `inputDim`. ParameterizedFunctionBase.h 33, TriangularMap.cpp 10. -/
def Obj.inputDim : Obj → Nat
  | .mono _ m => m.expansion.multiSet.dim.toNat
  | .tri _ comps _ => lastDim comps
where
  /-- `components.back()->inputDim`, TriangularMap.cpp 10. -/
  lastDim : List Obj → Nat
    | [] => 0
    | [o] => o.inputDim
    | _ :: os => lastDim os

/-- `outputDim`. ParameterizedFunctionBase.h 33, TriangularMap.cpp 11. -/
def Obj.outputDim : Obj → Nat
  | .mono _ _ => 1
  | .tri _ comps _ => sumDims comps
where
  /-- TriangularMap.cpp 11. -/
  sumDims : List Obj → Nat
    | [] => 0
    | o :: os => o.outputDim + sumDims os

/-- The state of an output archive: numbers given to classes and objects. cereal library (`shared_ptr`); used in ParameterizedFunctionBase.h 200–218. -/
structure OutSt where
  classes : List (Class × Nat)
  objects : List (Nat × Nat)

/-- A new archive. ParameterizedFunctionBase.h 200–205. -/
def OutSt.new : OutSt := ⟨[], []⟩

/-- The highest bit. cereal library (`shared_ptr`); used in ParameterizedFunctionBase.h 200–218. -/
def msb : Nat := 2 ^ 31

/-- The class number, and the name the first time. cereal library (`shared_ptr`); used in ParameterizedFunctionBase.h 200–218. -/
def putClass (name : Class → List Byte) (c : Class) (st : OutSt) : List Byte × OutSt :=
  match st.classes.lookup c with
  | some k => (putLE 4 k, st)
  | none => (putLE 4 (st.classes.length + 1 + msb) ++ putString (name c), { st with classes := (c, st.classes.length + 1) :: st.classes })

mutual
/-- Saving a `shared_ptr` that is not null. cereal library (`shared_ptr`); used in ParameterizedFunctionBase.h 200–218. -/
def putPtr (name : Class → List Byte) : Obj → OutSt → List Byte × OutSt
  | .mono a m, st =>
    let p := putClass name (Obj.mono a m).cls st
    match p.2.objects.lookup a with
    | some k => (p.1 ++ putLE 4 k, p.2)
    | none =>
      (p.1 ++ putLE 4 (p.2.objects.length + 1 + msb) ++ m.save, { p.2 with objects := (a, p.2.objects.length + 1) :: p.2.objects })
  | .tri a comps coeffs, st =>
    let p := putClass name .tri st
    match p.2.objects.lookup a with
    | some k => (p.1 ++ putLE 4 k, p.2)
    | none =>
      -- `save`, TriangularMap.h 126–133: `comps_` is written twice
      let st1 : OutSt := { p.2 with objects := (a, p.2.objects.length + 1) :: p.2.objects }
      let q1 := putPtrs name comps st1
      let q2 := putPtrs name comps q1.2
      let moveCoeffs := coeffs.allocated && (coeffs.data.length > 0)
      (p.1 ++ putLE 4 (p.2.objects.length + 1 + msb) ++ (putLE 8 comps.length ++ q1.1) ++ (putLE 8 comps.length ++ q2.1) ++
        putBool moveCoeffs, q2.2)
/-- The elements of a vector of pointers. cereal library (`vector`); used in TriangularMap.h 129 and 132. -/
def putPtrs (name : Class → List Byte) : List Obj → OutSt → List Byte × OutSt
  | [], st => ([], st)
  | o :: os, st =>
    let p := putPtr name o st
    let q := putPtrs name os p.2
    (p.1 ++ q.1, q.2)
end

/-- The state of an input archive: what is left to read, the names and objects by number. cereal library (`shared_ptr`); used in ParameterizedFunctionBase.h 200–218. -/
structure InSt where
  bytes : List Byte
  classes : List (Nat × List Byte)
  objects : List (Nat × Obj)

/-- A new archive over a stream. ParameterizedFunctionBase.h 210–218. -/
def InSt.new (s : List Byte) : InSt := ⟨s, [], []⟩

/-- A reader with the tables of the archive. cereal library (`shared_ptr`); used in ParameterizedFunctionBase.h 200–218. -/
def In (α : Type) : Type := InSt → Res (α × InSt)

instance : Monad In where
  pure a := fun s => .ok (a, s)
  bind m f := fun s => match m s with
    | .ok (a, s') => f a s'
    | .throw => .throw
    | .ub => .ub

/-- A reader given as a function. ParameterizedFunctionBase.h 210–218. -/
def In.mk {α : Type} (f : InSt → Res (α × InSt)) : In α := f

/-- Reading plain data. Serialization.h 40–47. -/
def In.lift {α : Type} (r : Rd α) : In α := fun st => match r st.bytes with
  | .ok (a, s) => .ok (a, { st with bytes := s })
  | .throw => .throw
  | .ub => .ub

/-- Reads the class of a pointer: `none` for a null pointer. Unknown numbers and unregistered names throw. cereal library (`shared_ptr`); used in ParameterizedFunctionBase.h 200–218. -/
def getClass (classOf : List Byte → Option Class) : In (Option Class) := do
  let id ← In.lift getU32
  if id.toNat = 0 then pure none
  else if id.toNat ≥ msb then do
    let name ← In.lift getString
    In.mk fun st =>
      let st := { st with classes := (id.toNat - msb, name) :: st.classes }
      match classOf name with
      | some c => .ok (some c, st)
      | none => .throw
  else In.mk fun st => match st.classes.lookup id.toNat with
    | some name => (match classOf name with
      | some c => .ok (some c, st)
      | none => .throw)
    | none => .throw

/-- Label of the view made by the constructor of `TriangularMap`, TriangularMap.cpp 43. -/
def triLabel : List Byte := [99, 111, 101, 102, 102, 115]

/-- The constructor of `TriangularMap`, TriangularMap.cpp 10–60, given pointers; `none` is a null pointer. Dereferencing a
null pointer, or taking `back()` of an empty vector, is undefined. With `moveCoeffs` the coefficients of the components are
gathered; a component without coefficients makes the constructor throw. The components then use parts of the new vector;
here they keep their own equal copies (the sharing is modelled in Model/Coeffs). (`CheckCoefficients()` is
`savedCoeffs.is_allocated()`, ParameterizedFunctionBase.cpp 340.) -/
def mkTri (addr : Nat) (comps : List (Option Obj)) (moveCoeffs : Bool) : Res Obj :=
  match allSome comps with
  | none => .ub
  | some [] => .ub
  | some os =>
    if os.any (fun o => o.outputDim > o.inputDim) then .throw
    else if !chain os then .throw
    else if moveCoeffs then
      if os.all (fun o => o.coeffs.allocated) then
        .ok (.tri addr os ⟨triLabel, os.flatMap (fun o => o.coeffs.data), true⟩)
      else .throw
    else .ok (.tri addr os .empty)
where
  /-- All pointers are set. -/
  allSome : List (Option Obj) → Option (List Obj)
    | [] => some []
    | none :: _ => none
    | some o :: os => match allSome os with
      | some l => some (o :: l)
      | none => none
  /-- TriangularMap.cpp 28–37. -/
  chain : List Obj → Bool
    | [] => true
    | [_] => true
    | a :: b :: os => (b.inputDim == a.inputDim + b.outputDim) && chain (b :: os)

mutual
/-- Loading a `shared_ptr`. Objects get their number as address. The object is entered in the table after it was built; cereal
enters the pointer before, which makes no difference as no object contains itself. `fuel` bounds the depth. cereal library; used in ParameterizedFunctionBase.h 215–216. -/
def getPtr (classOf : List Byte → Option Class) : Nat → In (Option Obj)
  | 0 => In.mk fun _ => .ub
  | fuel + 1 => do
    let c ← getClass classOf
    match c with
    | none => pure none
    | some c => do
      let id ← In.lift getU32
      if id.toNat ≥ msb then
        match c with
        | .mono pos bt qt => do
          let m ← In.lift (Mono.load pos bt qt)
          In.mk fun st => .ok (some (.mono (id.toNat - msb) m), { st with objects := (id.toNat - msb, .mono (id.toNat - msb) m) :: st.objects })
        | .tri => do
          -- `load_and_construct`, TriangularMap.h 135–145
          let n ← In.lift getU64
          let comps ← getPtrs classOf fuel n.toNat
          let moveCoeffs ← In.lift getBool
          In.mk fun st => match mkTri (id.toNat - msb) comps moveCoeffs with
            | .ok o => .ok (some o, { st with objects := (id.toNat - msb, o) :: st.objects })
            | .throw => .throw
            | .ub => .ub
      else if id.toNat = 0 then pure none
      else In.mk fun st => match st.objects.lookup id.toNat with
        | some o => .ok (some o, st)
        | none => .throw
/-- The elements of a vector of pointers. cereal library (`vector`); used in TriangularMap.h 139. -/
def getPtrs (classOf : List Byte → Option Class) : Nat → Nat → In (List (Option Obj))
  | 0, _ => In.mk fun _ => .ub
  | _ + 1, 0 => pure []
  | fuel + 1, n + 1 => do
    let o ← getPtr classOf fuel
    let os ← getPtrs classOf fuel n
    pure (o :: os)
end

/-- `Save(ostream)`, ParameterizedFunctionBase.h 200–205: a new archive with one pointer. -/
def saveMap (name : Class → List Byte) (o : Obj) : List Byte := (putPtr name o .new).1

/-- `Load(istream)`, ParameterizedFunctionBase.h 210–218. Every pointer takes at least four bytes, so the number of bytes bounds
the nesting. -/
def loadMap (classOf : List Byte → Option Class) : Rd (Option Obj) := fun s =>
  match getPtr classOf (s.length + 2) (.new s) with
  | .ok (o, st) => .ok (o, st.bytes)
  | .throw => .throw
  | .ub => .ub

end Ser
end MParT
