import Verif.Model.Res
/-!
# Model of the life of arrays and of the objects made from them

Sources: `MParT/MapObjective.h`, `src/MapObjective.cpp`, `src/AffineMap.cpp`, `src/AffineFunction.cpp`,
`src/MultiIndices/FixedMultiIndexSet.cpp`, `src/Distributions/GaussianSamplerDensity.cpp`, `src/ParameterizedFunctionBase.cpp`, and the
bindings: `bindings/python/src`, `bindings/julia/src`, `bindings/matlab/src`.

Memory is a list of blocks. A block belongs to the program (an array of Python, Julia or MATLAB, an Eigen matrix, a `std::vector`) or
is counted: it is freed with the last managed `Kokkos::View` of it. Addresses are not used again.

Simplifications
* shapes, strides and layouts are left out (see `Model/Arrays.lean`); a block is the list of its entries;
* of an object only the views are kept whose contents come from arguments;
* arguments passed by value are shared and released again during the call and are left out;
* the constructor's parameters are variables of the program: what a variable no longer in use holds cannot be passed (an error of the
  language, modelled as a throw).
-/
namespace MParT.Life

/-- A block of memory: entries, number of managed views (`none`: memory of the program), and whether it has not been freed. Kokkos library;
ArrayConversions.h 47, MexArrayConversions.cpp 33 and 56 (unmanaged), MapObjective.cpp 35 (managed). -/
structure Block (α : Type) where
  data : List α
  refs : Option Nat
  live : Bool

/-- All blocks, by address. Kokkos library; e.g. MapObjective.cpp 35. -/
abbrev Heap (α : Type) := List (Block α)

/-- A `Kokkos::View`, managed or unmanaged. ArrayConversions.h 47. -/
structure View where
  addr : Nat
  managed : Bool
  deriving DecidableEq

variable {α : Type}

/-- The entries of a view. E.g. MapObjective.cpp 23 reads `train_`. -/
def Heap.read (h : Heap α) (v : View) : Res (List α) := do
  let b ← Res.idx h v.addr
  if b.live then return b.data else Res.ub

/-- Assignment to the entries of a view. E.g. ParameterizedFunctionBase.cpp 205. -/
def Heap.write (h : Heap α) (v : View) (data : List α) : Res (Heap α) := do
  let b ← Res.idx h v.addr
  if b.live then return h.set v.addr { b with data := data } else Res.ub

/-- Copy construction of a view: one more managed view. Kokkos library; e.g. MapObjective.h 41. -/
def Heap.share (h : Heap α) (v : View) : Res (Heap α) :=
  if v.managed then do
    let b ← Res.idx h v.addr
    match b.refs with
    | some k => return h.set v.addr { b with refs := some (k + 1) }
    | none => Res.ub
  else return h

/-- Destruction of a view: one managed view less; the last one frees the block. Kokkos library; e.g. `~MapObjective`, MapObjective.h 51. -/
def Heap.release (h : Heap α) (v : View) : Res (Heap α) :=
  if v.managed then do
    let b ← Res.idx h v.addr
    match b.refs with
    | some (k + 1) => return h.set v.addr { b with refs := some k, live := decide (k ≠ 0) }
    | _ => Res.ub
  else return h

/-- The program frees one of its arrays: garbage collection, or the end of its scope. E.g. the matrix `orders`, python/src/MultiIndex.cpp 161. -/
def Heap.free (h : Heap α) (a : Nat) : Res (Heap α) := do
  let b ← Res.idx h a
  if b.live then return h.set a { b with live := false } else Res.ub

/-- `Kokkos::View<T*> v("label", n)`: a new block with one managed view. E.g. python/src/MapObjective.cpp 34. -/
def Heap.alloc [Inhabited α] (h : Heap α) (n : Nat) : View × Heap α :=
  (⟨h.length, true⟩, h ++ [⟨List.replicate n default, some 1, true⟩])

/-- `Kokkos::deep_copy(dst, src)`: throws for different extents. Kokkos library; e.g. AffineMap.cpp 15. -/
def Heap.deepCopy (h : Heap α) (dst src : View) : Res (Heap α) := do
  let s ← h.read src
  let d ← h.read dst
  if d.length ≠ s.length then Res.throw else h.write dst s

/-- A member of its own: `b_("b", b.extent(0))` and `deep_copy(b_, b)`. AffineMap.cpp 12–15, 20–22, 32–36, AffineFunction.cpp 14–18, 23–25,
33–37; also python/src/MultiIndex.cpp 172–181 (where the copy is a loop), and the factor held by the solvers, LinearAlgebra.cpp 56 and 81. -/
def copyIn [Inhabited α] (h : Heap α) (v : View) : Res (View × Heap α) := do
  let s ← h.read v
  let (own, h) := h.alloc s.length
  let h ← h.deepCopy own v
  return (own, h)

/-- `storeTrain(...)`, `deep_copy(storeTrain, trainView)`, `trainView = storeTrain`, a member made from `trainView`, and the end of the scope of
both: python/src/MapObjective.cpp 33–38, julia/src/MapObjective.cpp 29–34. -/
def store [Inhabited α] (h : Heap α) (v : View) : Res (View × Heap α) := do
  let s ← h.read v
  let (st, h) := h.alloc s.length
  let h ← h.deepCopy st v
  let h ← h.share st
  let h ← h.share st
  let h ← h.release st
  let h ← h.release st
  return (st, h)

/-- A member made from a view: MapObjective.h 41 and 49, GaussianSamplerDensity.cpp 6 and 16, FixedMultiIndexSet.cpp 78 and 148–150. -/
def keep (h : Heap α) (v : View) : Res (View × Heap α) := do
  let h ← h.share v
  return (v, h)

/-- A function parameter of type `Eigen::Matrix`, to which pybind11 converts the array; a member made from a view of it; and the end of its
life when the call returns. python/src/MultiIndex.cpp 160–164. -/
def keepTemporary (h : Heap α) (v : View) : Res (View × Heap α) := do
  let s ← h.read v
  let tmp := h.length
  let h := h ++ [⟨s, none, true⟩]
  let (m, h) ← keep h ⟨tmp, false⟩
  let h ← h.free tmp
  return (m, h)

/-- The same for a parameter whose entries are copied to a new view. python/src/MultiIndex.cpp 166–184. -/
def copyTemporary [Inhabited α] (h : Heap α) (v : View) : Res (View × Heap α) := do
  let s ← h.read v
  let tmp := h.length
  let h := h ++ [⟨s, none, true⟩]
  let (m, h) ← copyIn h ⟨tmp, false⟩
  let h ← h.free tmp
  return (m, h)

/-- The members of an object, one after the other. Order of members, e.g. AffineMap.cpp 31–36. -/
def members (how : Heap α → View → Res (View × Heap α)) : List View → Heap α → Res (List View × Heap α)
  | [], h => return ([], h)
  | v :: vs, h => do
    let (m, h) ← how h v
    let (ms, h) ← members how vs h
    return (m :: ms, h)

/-- The objects that are made from arrays.
* `objective`: `CreateGaussianKLObjective(train)` and `(train, test)` in C++ (MapObjective.cpp 39–50) and in MATLAB (MapObjective_mex.cpp 19–41);
* `pyObjective`: the same in Python (python/src/MapObjective.cpp 32–49) and Julia (julia/src/MapObjective.cpp 28–45);
* `affine`: `AffineMap` and `AffineFunction` in all languages (AffineMap.cpp 10–39, AffineFunction.cpp 12–38);
* `gaussianMean`: `GaussianSamplerDensity(mean)`; `gaussianCov`: `GaussianSamplerDensity(covar)` (GaussianSamplerDensity.cpp 11–16);
* `fixedSet`: `FixedMultiIndexSet(dim, orders)` and `(dim, starts, dims, orders)` in C++ (FixedMultiIndexSet.cpp 73–82 and 142–153);
* `pyFixedDense`, `pyFixedCompressed`: the same in Python (python/src/MultiIndex.cpp 160–184). -/
inductive Ctor where
  | objective
  | pyObjective
  | affine
  | gaussianMean
  | gaussianCov
  | fixedSet
  | pyFixedDense
  | pyFixedCompressed

/-- How the constructor makes its members; lines as in `Ctor` (MapObjective.cpp 39–50, AffineMap.cpp 10–39, ...). -/
def Ctor.how [Inhabited α] : Ctor → Heap α → View → Res (View × Heap α)
  | .objective | .gaussianMean | .fixedSet => keep
  | .pyObjective => store
  | .affine | .gaussianCov => copyIn
  | .pyFixedDense => keepTemporary
  | .pyFixedCompressed => copyTemporary

/-- A variable of the program: an array, a managed view, or a map onto memory of somebody else. ParameterizedFunctionBase.cpp 261–266 for the last. -/
inductive Var where
  | array (addr : Nat)
  | view (addr : Nat)
  | alias (addr : Nat)

/-- The view of a variable that is passed: of an array it is unmanaged. ArrayConversions.h 47, 385 and 473, MexArrayConversions.cpp 33 and 56,
JlArrayConversions.cpp 15 and 30. -/
def Var.as : Var → View
  | .array a => ⟨a, false⟩
  | .view a => ⟨a, true⟩
  | .alias a => ⟨a, false⟩

/-- The end of the life of a variable: an array is freed, a view destructed, and a map onto other memory does nothing. (Kokkos library, and the
languages; e.g. the variables of MapObjective.cpp 34–37.) -/
def Heap.endOf (h : Heap α) : Var → Res (Heap α)
  | .array a => h.free a
  | .view a => h.release ⟨a, true⟩
  | .alias _ => .ok h

/-- An object: the members made from arguments, or a map with its `savedCoeffs`. MapObjective.h 29–35, ParameterizedFunctionBase.h 247. -/
inductive Object where
  | made (ms : List View)
  | map (numCoeffs : Nat) (saved : Option View)

/-- The views an object has. MapObjective.h 29–35, ParameterizedFunctionBase.h 247. -/
def Object.views : Object → List View
  | .made ms => ms
  | .map _ saved => saved.toList

/-- Memory, variables and objects; `none`: gone. (State of a program using e.g. python/src/MapObjective.cpp 32.) -/
structure State (α : Type) where
  heap : Heap α
  vars : List (Option Var)
  objs : List (Option Object)

/-- Statements of a program. Functions as in `Ctor`; ParameterizedFunctionBase.cpp 187–266. -/
inductive Op (α : Type) where
  /-- a new array of the program -/
  | newArray (data : List α)
  /-- a new `Kokkos::View` of the program -/
  | newView (data : List α)
  /-- assignment to the entries of a variable -/
  | write (x : Nat) (data : List α)
  /-- the end of the life of a variable -/
  | free (x : Nat)
  /-- a new object -/
  | make (c : Ctor) (args : List Nat)
  /-- a new map, without coefficients -/
  | newMap (numCoeffs : Nat)
  | setCoeffs (o x : Nat)
  | wrapCoeffs (o x : Nat)
  | coeffMap (o : Nat)
  /-- the object is used -/
  | look (o : Nat)
  /-- the end of the life of an object -/
  | drop (o : Nat)

/-- A variable of the program, or an error of the language. (E.g. the argument of python/src/MapObjective.cpp 32.) -/
def State.var (s : State α) (x : Nat) : Res Var :=
  match s.vars[x]? with
  | some (some v) => .ok v
  | _ => .throw

/-- An object of the program, or an error of the language. (E.g. the argument of MapObjective_mex.cpp 48.) -/
def State.obj (s : State α) (o : Nat) : Res Object :=
  match s.objs[o]? with
  | some (some b) => .ok b
  | _ => .throw

/-- The arguments of a constructor. (E.g. python/src/MapObjective.cpp 39.) -/
def State.args (s : State α) : List Nat → Res (List View)
  | [] => return []
  | x :: xs => do
    let v ← s.var x
    let vs ← s.args xs
    return v.as :: vs

/-- What an object computes from: the entries of its views. E.g. MapObjective.cpp 14–25, AffineFunction.cpp 44–60. -/
def readAll (h : Heap α) : List View → Res (List (List α))
  | [] => return []
  | v :: vs => do
    let d ← h.read v
    let ds ← readAll h vs
    return d :: ds

/-- The entries an object computes from. E.g. MapObjective.cpp 14–25, AffineFunction.cpp 44–60. -/
def State.look (s : State α) (o : Nat) : Res (List (List α)) := do
  let b ← s.obj o
  readAll s.heap b.views

/-- The destructors of the views of an object. E.g. MapObjective.h 51. -/
def releaseAll : List View → Heap α → Res (Heap α)
  | [], h => return h
  | v :: vs, h => do
    let h ← h.release v
    releaseAll vs h

/-- One statement. `SetCoeffs`: ParameterizedFunctionBase.cpp 187–206 and 244–248 (`Kokkos::resize` makes a new block, whose entries are then all assigned);
`WrapCoeffs`: 208–217 and 255–259; `CoeffMap`: 261–266. The size is read from the block, not from the view. -/
def step [Inhabited α] (s : State α) : Op α → Res (State α)
  | .newArray data => return { s with heap := s.heap ++ [⟨data, none, true⟩], vars := s.vars ++ [some (.array s.heap.length)] }
  | .newView data => do
    let (v, h) := s.heap.alloc data.length
    let h ← h.write v data
    return { s with heap := h, vars := s.vars ++ [some (.view v.addr)] }
  | .write x data => do
    let v ← s.var x
    let old ← s.heap.read v.as
    if old.length ≠ data.length then Res.throw
    else
      let h ← s.heap.write v.as data
      return { s with heap := h }
  | .free x => do
    let v ← s.var x
    let h ← s.heap.endOf v
    return { s with heap := h, vars := s.vars.set x none }
  | .make c args => do
    let vs ← s.args args
    let (ms, h) ← members c.how vs s.heap
    return { s with heap := h, objs := s.objs ++ [some (.made ms)] }
  | .newMap n => return { s with objs := s.objs ++ [some (.map n none)] }
  | .setCoeffs o x => do
    let b ← s.obj o
    let v ← s.var x
    match b with
    | .made _ => Res.throw
    | .map n (some saved) => do
      let d ← s.heap.read v.as
      let old ← s.heap.read saved
      if d.length ≠ n then Res.throw
      else if old.length ≠ n then
        let (m, h) ← copyIn s.heap v.as
        let h ← h.release saved
        return { s with heap := h, objs := s.objs.set o (some (.map n (some m))) }
      else
        let h ← s.heap.deepCopy saved v.as
        return { s with heap := h }
    | .map n none => do
      let (m, h) ← copyIn s.heap v.as
      return { s with heap := h, objs := s.objs.set o (some (.map n (some m))) }
  | .wrapCoeffs o x => do
    let b ← s.obj o
    let v ← s.var x
    match b with
    | .made _ => Res.throw
    | .map n saved => do
      let d ← s.heap.read v.as
      if d.length ≠ n then Res.throw
      else
        let h ← s.heap.share v.as
        let h ← releaseAll saved.toList h
        return { s with heap := h, objs := s.objs.set o (some (.map n (some v.as))) }
  | .coeffMap o => do
    let b ← s.obj o
    match b with
    | .map _ (some saved) => return { s with vars := s.vars ++ [some (.alias saved.addr)] }
    | _ => Res.throw
  | .look o => do
    let _ ← s.look o
    return s
  | .drop o => do
    let b ← s.obj o
    let h ← releaseAll b.views s.heap
    return { s with heap := h, objs := s.objs.set o none }

/-- A program. (Statements using e.g. python/src/MapObjective.cpp 32.) -/
def run [Inhabited α] (s : State α) : List (Op α) → Res (State α)
  | [] => return s
  | op :: ops => do
    let s ← step s op
    run s ops

/-- The state in which every program begins. (No objects: before e.g. python/src/MapObjective.cpp 32 is called.) -/
def start : State α := ⟨[], [], []⟩

end MParT.Life
