import Verif.Model.Quadrature
/-!
# Model of quadrature objects: construction, copies, `SetDim`, `SetWorkspace`, loading, `Integrate`

Source: `MParT/Quadrature.h`. The arithmetic of the three rules is that of `Model/Quadrature.lean`; here are the objects with
their workspace pointer, several of which may share memory.

Simplifications
* `unsigned int` sizes are natural numbers;
* a workspace allocated by Kokkos lives as long as some object holds a view of it; memory of the user lives for ever;
* saving an object and loading the archive into another object is one step (the archive itself: `Model/Serialization.lean`);
* a view of zero entries has no memory: its `data()` is null (Kokkos library).
-/
namespace MParT.Quad
open AdaptiveClenshawCurtis (view)

/-- The rule of an object: members that only construction, assignment and loading change, Quadrature.h 333–334, 481–486 and
1005. The member `fdim` of `Recursive` is not used; the current dimension is `QObj.fdim`. -/
inductive Rule where
  | clenshawCurtis (pts wts : Mem)
  | simpson (q : Recursive)
  | adaptiveCC (q : Recursive) (r : NestedRule)

/-- `GetWorkspaceSize`, Quadrature.h 170, 518, 784. -/
def Rule.workspaceSize : Rule → Nat → Nat
  | .clenshawCurtis _ _, fdim => fdim
  | .simpson q, fdim => AdaptiveSimpson.workspaceSize q.maxSub fdim
  | .adaptiveCC q _, fdim => AdaptiveClenshawCurtis.workspaceSize q.maxSub fdim

/-- `SetDim` of this rule ends with an assertion on the size, Quadrature.h 180, 529 (not 787–795). -/
def Rule.checksSize : Rule → Bool
  | .adaptiveCC _ _ => false
  | _ => true

/-- Arguments of a constructor that choose the rule, Quadrature.h 155, 502–507, 743–749. -/
inductive RuleArgs where
  | clenshawCurtis (numPts : Nat)
  | simpson (q : Recursive)
  | adaptiveCC (level : Nat) (q : Recursive)

/-- The rule the constructors set up, Quadrature.h 360–364, 374–378 (host space), 502–515, 1028–1044 and 1068–1085. -/
noncomputable def RuleArgs.build : RuleArgs → Res Rule
  | .clenshawCurtis n => do
    let r ← ClenshawCurtis.getRule n (view n) (view n)
    return .clenshawCurtis r.2 r.1
  | .simpson q => return .simpson q
  | .adaptiveCC l q => do
    let r ← AdaptiveClenshawCurtis.new l
    return .adaptiveCC q r

/-- Members of an object, Quadrature.h 91–96: `internal` is the memory of `internalWork_` (`none`: extent 0), `workspace` is
`workspace_` (`none`: null). Memory is named by its position in `Heap.bufs`. -/
structure QObj where
  rule : Rule
  fdim : Nat
  maxDim : Nat
  workspaceSize : Nat
  internal : Option Nat
  workspace : Option Nat

/-- The objects of a program (`none`: destroyed) and the memory; the flag of a piece of memory tells whether it was allocated
by Kokkos. Quadrature.h 95–96. -/
structure Heap where
  objs : List (Option QObj)
  bufs : List (Bool × Mem)

namespace Heap

/-- The memory `b` has not been freed: it is the user's, or an object holds a view of it. `internalWork_`, Quadrature.h 95. -/
def live (h : Heap) (b : Nat) : Bool :=
  match h.bufs[b]? with
  | some (kokkos, _) => !kokkos || h.objs.any fun o => match o with
    | some o => o.internal == some b
    | none => false
  | none => false

/-- Use of the object `i`, e.g. `this->fdim_`; a destroyed object cannot be used. Quadrature.h 178. -/
def obj (h : Heap) (i : Nat) : Res QObj :=
  match h.objs[i]? with
  | some (some o) => .ok o
  | _ => .ub

/-- Memory of the user, of the given content: the arrays of the examples, Quadrature.h 120 and 135. -/
def alloc (h : Heap) (m : Mem) : Heap := { h with bufs := h.bufs ++ [(false, m)] }

/-- Constructor with internally managed workspace, Quadrature.h 42–47, 361, 502–507, 1029–1040. -/
noncomputable def newInternal (h : Heap) (a : RuleArgs) (maxDim : Nat) : Res Heap := do
  let rule ← a.build
  let n := rule.workspaceSize maxDim
  let w := if n = 0 then none else some h.bufs.length
  return ⟨h.objs ++ [some ⟨rule, maxDim, maxDim, n, w, w⟩], h.bufs ++ [(true, view n)]⟩

/-- Constructor with externally managed workspace, possibly null, Quadrature.h 50–56, 375, 509–515, 1069–1080. -/
noncomputable def newExternal (h : Heap) (a : RuleArgs) (maxDim : Nat) (w : Option Nat) : Res Heap := do
  let rule ← a.build
  return { h with objs := h.objs ++ [some ⟨rule, maxDim, maxDim, rule.workspaceSize maxDim, none, w⟩] }

/-- Copy constructor (implicit): members are copied, so the view and the pointer are shared. Quadrature.h 34–97. -/
def copy (h : Heap) (i : Nat) : Res Heap := do
  let o ← h.obj i
  return { h with objs := h.objs ++ [some o] }

/-- Copy assignment `i = j` (implicit). Quadrature.h 34–97. -/
def assign (h : Heap) (i j : Nat) : Res Heap := do
  let _ ← h.obj i
  let o ← h.obj j
  return { h with objs := h.objs.set i (some o) }

/-- Destructor (implicit). Quadrature.h 34–97. -/
def destroy (h : Heap) (i : Nat) : Res Heap := do
  let _ ← h.obj i
  return { h with objs := h.objs.set i none }

/-- `SetWorkspace`, Quadrature.h 58. -/
def setWorkspace (h : Heap) (i : Nat) (w : Option Nat) : Res Heap := do
  let o ← h.obj i
  return { h with objs := h.objs.set i (some { o with workspace := w }) }

/-- Extent of `internalWork_`, e.g. Quadrature.h 175. -/
def extent (h : Heap) (o : QObj) : Nat :=
  match o.internal with
  | some b => match h.bufs[b]? with
    | some (_, m) => m.size
    | none => 0
  | none => 0

/-- `SetDim`, Quadrature.h 172–181, 521–530, 787–795: the last assertion is missing in `AdaptiveClenshawCurtis`. An object whose
last assertion fails is lost with the program. -/
def setDim (h : Heap) (i n : Nat) : Res Heap := do
  let o ← h.obj i
  if 0 < h.extent o ∧ ¬ n ≤ o.maxDim then Res.throw
  else
    let o' := { o with fdim := n, workspaceSize := o.rule.workspaceSize n }
    if o.rule.checksSize ∧ ¬ (h.extent o = 0 ∨ o'.workspaceSize ≤ h.extent o) then Res.throw
    else return { h with objs := h.objs.set i (some o') }

/-- The archive of object `j` is loaded into object `i`, Quadrature.h 66–85, 311–324, 420–433; Serialization.h 18–50: the views are
new memory with the old content, and `workspace_` is set only if the new view is large enough. -/
def load (h : Heap) (i j : Nat) : Res Heap := do
  let old ← h.obj i
  let o ← h.obj j
  let m := match o.internal with
    | some b => match h.bufs[b]? with
      | some (_, m) => m
      | none => view 0
    | none => view 0
  let w := if m.size = 0 then none else some h.bufs.length
  return ⟨h.objs.set i (some { o with
      internal := w
      workspace := if o.workspaceSize ≤ m.size then w else old.workspace }), h.bufs ++ [(true, m)]⟩

/-- The rule on the memory `ws`, with the dimension of the object: `Integrate(workspace, f, lb, ub, res)`, Quadrature.h 278–309,
551–674, 817–966, for at most `fuel` iterations of the adaptive rules. -/
noncomputable def runRule (o : QObj) (ws : Mem) (f : Integrand) (lb ub : ℝ) (res : Mem) (fuel : Nat) :
    Res (Option (Mem × Mem)) :=
  match o.rule with
  | .clenshawCurtis pts wts => do
    let r ← ClenshawCurtis.integrate pts wts o.fdim ws f lb ub res
    return some r
  | .simpson q => AdaptiveSimpson.integrate { q with fdim := o.fdim } ws f lb ub res fuel
  | .adaptiveCC q r => AdaptiveClenshawCurtis.integrate { q with fdim := o.fdim } r ws f lb ub res fuel

/-- `Integrate(workspace, f, lb, ub, res)` on the memory `b`: new memory and content of `res`; `none`: it has not stopped.
Quadrature.h 278–283, 551–556, 817–822. -/
noncomputable def integrateWith (h : Heap) (i b : Nat) (f : Integrand) (lb ub : ℝ) (res : Mem) (fuel : Nat) :
    Res (Option (Heap × Mem)) := do
  let o ← h.obj i
  if h.live b then
    let (kokkos, ws) ← Res.idx h.bufs b
    match ← runRule o ws f lb ub res fuel with
    | some (ws, res) => return some ({ h with bufs := h.bufs.set b (kokkos, ws) }, res)
    | none => return none
  else Res.ub

/-- `Integrate(f, lb, ub, res)`, Quadrature.h 267–275, 541–549, 806–814. -/
noncomputable def integrate (h : Heap) (i : Nat) (f : Integrand) (lb ub : ℝ) (res : Mem) (fuel : Nat) :
    Res (Option (Heap × Mem)) := do
  let o ← h.obj i
  match o.workspace with
  | some b => h.integrateWith i b f lb ub res fuel
  | none => Res.throw

end Heap
end MParT.Quad
