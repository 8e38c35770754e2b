import Mathlib.Data.Real.Basic
/-!
# Model of coefficient storage and sharing

Source: `src/ParameterizedFunctionBase.cpp`, `MParT/ParameterizedFunctionBase.h`, `src/TriangularMap.cpp`,
`src/ComposedMap.cpp`, `src/SummarizedMap.cpp`.

A `Kokkos::View` is a range of a buffer; copying a view shares the buffer. Objects are shared pointers: they are named by
their position in the list of all objects and may occur as components of several others.

Simplifications
* only what concerns coefficients is kept of an object: its number of coefficients, its components and `savedCoeffs`;
* the dimension checks of the constructors are in `Model/Maps.lean`;
* a source of coefficients that is copied is the list of its values;
* a failing `assert` ends the call like an exception; what was changed before stays changed;
* a buffer of length 0 counts as allocated; buffers are never freed (they are reference counted).
-/
namespace MParT.Coeffs

/-- A one-dimensional `Kokkos::View` with stride 1. `savedCoeffs`, ParameterizedFunctionBase.h 247. -/
structure View where
  buf : Nat
  off : Nat
  len : Nat
  deriving DecidableEq

/-- How an object hands its coefficients on: not at all, in consecutive slices (`TriangularMap`, `ComposedMap`) or as a
whole (`SummarizedMap`). TriangularMap.cpp 66–80, ComposedMap.cpp 181–195, SummarizedMap.cpp 30–35. -/
inductive Kind where
  | leaf
  | parent
  | summarised
  deriving DecidableEq

/-- The immutable part of an object. ParameterizedFunctionBase.h 191. -/
structure Obj where
  kind : Kind
  children : List Nat
  numCoeffs : Nat

/-- Buffers, objects and the `savedCoeffs` of every object (`none` is a view that is not allocated). ParameterizedFunctionBase.h 247. -/
structure State where
  bufs : List (List ℝ)
  objs : List Obj
  views : List (Option View)

/-- How a call ends. The exceptions of ParameterizedFunctionBase.cpp 195 and 214. -/
inductive Outcome where
  | ok
  | throw
  | ub
  deriving DecidableEq

/-- `numCoeffs` of an object. ParameterizedFunctionBase.h 191. -/
def nc (objs : List Obj) (id : Nat) : Nat := (objs[id]?.map Obj.numCoeffs).getD 0

/-- `children` of an object. `comps_`, `maps_`, `comp_`: ComposedMap.h 109, SummarizedMap.h 90. -/
def children (objs : List Obj) (id : Nat) : List Nat := (objs[id]?.map Obj.children).getD []

/-- `Kokkos::deep_copy(v, vals)` for a view with as many entries as `vals`. ParameterizedFunctionBase.cpp 205. -/
def State.put (st : State) (v : View) (vals : List ℝ) : State :=
  { st with bufs := st.bufs.set v.buf (let b := st.bufs.getD v.buf []
                                       b.take v.off ++ vals ++ b.drop (v.off + v.len)) }

/-- `this->savedCoeffs = v`. ParameterizedFunctionBase.cpp 216. -/
def State.assign (st : State) (id : Nat) (v : View) : State := { st with views := st.views.set id (some v) }

/-- The loop over the components, TriangularMap.cpp 88–97 (and 71–80), ComposedMap.cpp 186–195, 203–212; `w` is the
virtual `WrapCoeffs` of a component. -/
def wrapChildren (w : State → Nat → View → State × Outcome) (v : View) : List Nat → (cum : Nat) → State → State × Outcome
  | [], _, st => (st, .ok)
  | c :: cs, cum, st =>
    if v.len < cum + nc st.objs c then (st, .throw)
    else
      match w st c ⟨v.buf, v.off + cum, nc st.objs c⟩ with
      | (st, .ok) => wrapChildren w v cs (cum + nc st.objs c) st
      | r => r

/-- What happens after the base class has stored the view: nothing, the loop above, or SummarizedMap.cpp 34 and 43. -/
def passOn (w : State → Nat → View → State × Outcome) (v : View) (o : Obj) (st : State) : State × Outcome :=
  match o.kind, o.children with
  | .leaf, _ => (st, .ok)
  | .parent, cs => wrapChildren w v cs 0 st
  | .summarised, c :: _ => w st c v
  | .summarised, [] => (st, .ub)

/-- `WrapCoeffs(v)`, ParameterizedFunctionBase.cpp 208–217 followed by the loop; `fuel` bounds the nesting depth. -/
def wrap : (fuel : Nat) → State → Nat → View → State × Outcome
  | 0, st, _, _ => (st, .ub)
  | fuel + 1, st, id, v =>
    match st.objs[id]? with
    | none => (st, .ub)
    | some o =>
      if v.len ≠ o.numCoeffs then (st, .throw)
      else passOn (wrap fuel) v o (st.assign id v)

/-- `Kokkos::resize`: a new buffer with the old values as far as they fit, padded with zeros. ParameterizedFunctionBase.cpp 199. -/
def resized (vals : List ℝ) (n : Nat) : List ℝ := vals.take n ++ List.replicate (n - vals.length) 0

/-- The content of a view. `Coeffs()`, ParameterizedFunctionBase.h 47. -/
def State.get (st : State) (v : View) : List ℝ := ((st.bufs.getD v.buf []).drop v.off).take v.len

/-- `ParameterizedFunctionBase::SetCoeffs(vals)`, ParameterizedFunctionBase.cpp 187–206: the view afterwards, or `none` when
it throws. -/
def setBase (st : State) (id : Nat) (n : Nat) (vals : List ℝ) : State × Option View :=
  match st.views[id]? with
  | some (some v) =>
    if vals.length ≠ n then (st, none)
    else if v.len ≠ n then
      let v' : View := ⟨st.bufs.length, 0, n⟩
      ((({ st with bufs := st.bufs ++ [resized (st.get v) n] }).assign id v').put v' vals, some v')
    else (st.put v vals, some v)
  | _ =>
    let v' : View := ⟨st.bufs.length, 0, vals.length⟩
    ((({ st with bufs := st.bufs ++ [List.replicate vals.length 0] }).assign id v').put v' vals, some v')

/-- `SetCoeffs(vals)`: TriangularMap.cpp 66–80, ComposedMap.cpp 181–195, SummarizedMap.cpp 30–35. -/
def set (st : State) (id : Nat) (vals : List ℝ) : State × Outcome :=
  match st.objs[id]? with
  | none => (st, .ub)
  | some o =>
    match setBase st id o.numCoeffs vals with
    | (st, none) => (st, .throw)
    | (st, some v) => passOn (wrap st.objs.length) v o st

/-- `CheckCoefficients()`, ParameterizedFunctionBase.cpp 332–348. -/
def checkCoefficients (st : State) (id : Nat) : Bool :=
  if nc st.objs id = 0 then true
  else
    match st.views[id]? with
    | some (some v) => v.len == nc st.objs id
    | _ => false

/-- A public `Evaluate`, `Gradient`, `CoeffGrad`, `Inverse`, `LogDeterminant` or `LogDeterminant…Grad` starts with
`CheckCoefficients(name)`, ParameterizedFunctionBase.cpp 29, 39, 108, 118, 273, 283 and ConditionalMapBase.cpp 11, 20, 70, 86,
147, 156, 223, 233. -/
def call (st : State) (id : Nat) : Outcome := if checkCoefficients st id then .ok else .throw

/-- Whether a range lies in its buffer. Views given to ParameterizedFunctionBase.cpp 209. -/
def State.inBounds (st : State) (v : View) : Bool :=
  decide (v.buf < st.bufs.length) && decide (v.off + v.len ≤ (st.bufs.getD v.buf []).length)

/-- Adds an object whose `savedCoeffs` is not allocated. ParameterizedFunctionBase.h 33. -/
def State.add (st : State) (o : Obj) : State := { st with objs := st.objs ++ [o], views := st.views ++ [none] }

/-- The values in `Coeffs()`; an unallocated view has none. ParameterizedFunctionBase.h 82. -/
def State.own (st : State) (c : Nat) : List ℝ :=
  match st.views[c]? with
  | some (some v) => st.get v
  | _ => []

/-- `deep_copy(subCoeffs, comps_.at(i)->Coeffs())` in the constructor loop, TriangularMap.cpp 46–57, ComposedMap.cpp 163–174:
the values collected, or `none` if it throws. -/
def collect (st : State) : List Nat → Option (List ℝ)
  | [] => some []
  | c :: cs =>
    if checkCoefficients st c && decide ((st.own c).length = nc st.objs c) then (collect st cs).map (st.own c ++ ·) else none

/-- What users can do. ParameterizedFunctionBase.h 33–82. -/
inductive Op where
  /-- allocate a buffer -/
  | alloc (vals : List ℝ)
  /-- change an entry of a buffer, through whatever view (for instance `Coeffs()(i) = x`) -/
  | write (buf i : Nat) (x : ℝ)
  /-- a map without components, three-argument base constructor -/
  | newLeaf (n : Nat)
  /-- the same with coefficients, four-argument base constructor -/
  | newLeafWith (n : Nat) (vals : List ℝ)
  /-- `TriangularMap(components, moveCoeffs)` or `ComposedMap(maps, moveCoeffs)` -/
  | newParent (cs : List Nat) (moveCoeffs : Bool)
  /-- `SummarizedMap(summary, component)` -/
  | newSummarised (c : Nat)
  /-- `SetCoeffs` -/
  | set (id : Nat) (vals : List ℝ)
  /-- `WrapCoeffs` -/
  | wrap (id : Nat) (v : View)
  /-- `Coeffs() = v` -/
  | rebind (id : Nat) (v : View)

/-- Effect of one operation. Requests that mention objects or ranges that do not exist are undefined behaviour and change
nothing. ParameterizedFunctionBase.h 33–82. -/
def step (st : State) : Op → State × Outcome
  | .alloc vals => ({ st with bufs := st.bufs ++ [vals] }, .ok)
  | .write b i x =>
    if b < st.bufs.length ∧ i < (st.bufs.getD b []).length then
      ({ st with bufs := st.bufs.set b ((st.bufs.getD b []).set i x) }, .ok)
    else (st, .ub)
  -- ParameterizedFunctionBase.h 33
  | .newLeaf n => (st.add ⟨.leaf, [], n⟩, .ok)
  -- ParameterizedFunctionBase.h 35: `numCoeffs` is the size of the coefficient vector, the argument is ignored
  | .newLeafWith _ vals => ((setBase (st.add ⟨.leaf, [], vals.length⟩) st.objs.length vals.length vals).1, .ok)
  -- TriangularMap.cpp 10–61, ComposedMap.cpp 135–178
  | .newParent cs move =>
    if cs = [] ∨ cs.any (fun c => decide (st.objs.length ≤ c)) then (st, .ub)
    else
      let o : Obj := ⟨.parent, cs, (cs.map (nc st.objs)).sum⟩
      if move then
        match collect st cs with
        | none => (st, .throw)
        | some vals =>
          let st' := { st.add o with bufs := st.bufs ++ [vals] }
          wrap st'.objs.length st' st.objs.length ⟨st.bufs.length, 0, vals.length⟩
      else (st.add o, .ok)
  -- SummarizedMap.cpp 9–27
  | .newSummarised c => if c < st.objs.length then (st.add ⟨.summarised, [c], nc st.objs c⟩, .ok) else (st, .ub)
  | .set id vals => set st id vals
  | .wrap id v => if st.inBounds v then wrap st.objs.length st id v else (st, .ub)
  -- ParameterizedFunctionBase.h 47
  | .rebind id v => if st.inBounds v && decide (id < st.objs.length) then (st.assign id v, .ok) else (st, .ub)

/-- State after a history; exceptions are caught by the user. Calls of ParameterizedFunctionBase.h 33–82. -/
def run (st : State) (ops : List Op) : State := ops.foldl (fun st op => (step st op).1) st

/-- Nothing created yet. The program before any call of ParameterizedFunctionBase.h 33–82. -/
def initial : State := ⟨[], [], []⟩

end MParT.Coeffs
