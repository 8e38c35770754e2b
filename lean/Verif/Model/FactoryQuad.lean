import Verif.Model.QuadObjects
import Verif.Model.Factory
import Verif.Model.SharedComponent
/-!
# Model of the quadrature object inside a component that the factory has built

Source: `src/MapFactoryImpl1.cpp` to `src/MapFactoryImpl18.cpp`, `MParT/MonotoneComponent.h` and `MParT/Quadrature.h`. `Model/Factory.lean` has the
numbers the quadratures compute; here is the object itself, with `SetDim` and its assertions.

Simplifications
* assertions are on, as everywhere in the model; the project builds with `CMAKE_BUILD_TYPE=Release` by default, which turns them off
  (CMakeLists.txt 31–32);
* the scratch memory of a kernel is memory that is not reused;
* one point per call; the integrand has no side effects (`Model/QuadPrograms.lean`).
-/
namespace MParT.Quad
open Shared MapFactory

/-- The rule the options ask for. `level` and the arguments of the constructors in MapFactoryImpl1.cpp 21–22 (`AdaptiveClenshawCurtis`),
MapFactoryImpl11.cpp 20 (`ClenshawCurtisQuadrature`) and MapFactoryImpl12.cpp 19 (`AdaptiveSimpson`). -/
def factoryRule (opts : MapOptions) : Res RuleArgs :=
  let q : Recursive := ⟨1, opts.quadMaxSub, opts.quadMinSub, opts.quadAbsTol, opts.quadRelTol, .first⟩
  match opts.quadType with
  | .clenshawCurtis => .ok (.clenshawCurtis opts.quadPts)
  | .adaptiveSimpson => .ok (.simpson q)
  | .adaptiveClenshawCurtis => do
    let level ← quadLevel opts.quadPts
    return .adaptiveCC level q

/-- The member `quad_` of the new component (object 1), a copy of the local variable `quad` (object 0), which is destroyed:
`ClenshawCurtisQuadrature<MemorySpace> quad(opts.quadPts, 1)` has its own memory, the adaptive rules are given a null pointer.
MapFactoryImpl1.cpp 21–32, MapFactoryImpl11.cpp 20–29, MapFactoryImpl12.cpp 19–28; MonotoneComponent.h 60–84. -/
noncomputable def factoryQuad (opts : MapOptions) : Res Heap := do
  let a ← factoryRule opts
  let h ← match opts.quadType with
    | .clenshawCurtis => Heap.newInternal ⟨[], []⟩ a 1
    | _ => Heap.newExternal ⟨[], []⟩ a 1 none
  let h ← h.copy 0
  h.destroy 0

/-- A call of a function of the component for one point: `SetDim`, workspace of the size the object tells, a copy of the object in
the functor, `Integrate` on `[0,1]` into an array of the number of outputs. E.g. MonotoneComponent.h 697–724. The first result is
`none` if `Integrate` has not stopped within `fuel` iterations; the second is what `Integrate` has written, if the function
integrates at all. -/
noncomputable def call (fuel M d : Nat) (junk : Nat → ℝ) (h : Heap) (c : Fn × Integrand) : Res (Option (Heap × Option Mem)) :=
  match c.1.dim M d with
  | none => .ok (some (h, none))
  | some n => do
    let h ← h.setDim 1 n
    let o ← h.obj 1
    let b := h.bufs.length
    let h := h.alloc ⟨o.workspaceSize, junk⟩
    let i := h.objs.length
    let h ← h.copy 1
    let r ← h.integrateWith i b c.2 0 1 ⟨n, junk⟩ fuel
    match r with
    | none => .ok none
    | some (h, res) => do
      let h ← h.destroy i
      return some (h, some res)

/-- Calls one after the other. MonotoneComponent.h 256–980. -/
noncomputable def calls (fuel M d : Nat) (junk : Nat → ℝ) : Heap → List (Fn × Integrand) → Res (Option (Heap × List (Option Mem)))
  | h, [] => .ok (some (h, []))
  | h, c :: cs => do
    let r ← call fuel M d junk h c
    match r with
    | none => .ok none
    | some (h, m) => do
      let r ← calls fuel M d junk h cs
      match r with
      | none => .ok none
      | some (h, ms) => return some (h, m :: ms)

end MParT.Quad
