import Verif.Model.Quadrature
/-!
# Model of calls on one `MonotoneComponent` by several threads

Source: `MParT/MonotoneComponent.h` 88–232, 256–299, 333–444, 487–980 and `SetDim` of `MParT/Quadrature.h`. Every function that integrates
sets the dimension of the member `quad_`, reads its workspace size, and then makes a functor with a copy of the component. The
functor is what the parallel loop runs.

Simplifications
* memory is sequentially consistent: a step of one thread at a time. In C++ unordered accesses of which one writes are
  undefined; which calls have such accesses is stated with `Loc`;
* the assertions of `SetDim` are left out: they concern objects with internal workspace (`Model/FactoryQuad.lean`);
* only the members of `quad_` that a call changes are in the state.
-/
namespace MParT.Shared

/-- The functions that run a kernel, MonotoneComponent.h 256, 333, 487, 585, 684, 757, 824, 876, 928, and the loops over the output
after it (`scale`), 118, 160, 178, 202, 228. -/
inductive Fn where
  | evaluate
  | inverse
  | continuousDerivative
  | discreteDerivative
  | coeffJacobian
  | inputJacobian
  | continuousMixedJacobian
  | continuousMixedInputJacobian
  | discreteMixedJacobian
  | scale
deriving DecidableEq, Repr

/-- The argument of `SetDim` (`none`: not called), for a component with `M` coefficients and `d` inputs.
MonotoneComponent.h 270, 401, 599, 697, 770, 940. -/
def Fn.dim (M d : Nat) : Fn → Option Nat
  | .evaluate => some 1
  | .inverse => some 1
  | .discreteDerivative => some 2
  | .coeffJacobian => some (M + 1)
  | .inputJacobian => some (d + 1)
  | .discreteMixedJacobian => some (M + 1)
  | .continuousDerivative => none
  | .continuousMixedJacobian => none
  | .continuousMixedInputJacobian => none
  | .scale => none

/-- The virtual functions and the kernels they run, one after the other. MonotoneComponent.h 88–103, 105–125, 148–163, 166–181,
185–206, 208–232. -/
inductive Api where
  | evaluate
  | inverse
  | logDeterminant
  | gradient
  | coeffGrad
  | logDeterminantCoeffGrad
  | logDeterminantInputGrad

/-- The kernels; `cont` is `useContDeriv_`. `LogDeterminantInputGrad` without it throws before any kernel.
MonotoneComponent.h 88–103, 105–125, 148–163, 166–181, 185–206, 208–232. -/
def Api.kernels (cont : Bool) : Api → List Fn
  | .evaluate => [.evaluate]
  | .inverse => [.inverse]
  | .logDeterminant => if cont then [.continuousDerivative, .scale] else [.discreteDerivative, .scale]
  | .gradient => [.inputJacobian, .scale]
  | .coeffGrad => [.coeffJacobian, .scale]
  | .logDeterminantCoeffGrad =>
    if cont then [.continuousMixedJacobian, .continuousDerivative, .scale]
    else [.discreteMixedJacobian, .discreteDerivative, .scale]
  | .logDeterminantInputGrad => if cont then [.continuousMixedInputJacobian, .continuousDerivative, .scale] else []

/-- `fdim_` and `workspaceSize_` of `quad_`, Quadrature.h 91–93, MonotoneComponent.h 1060. -/
structure Quad where
  fdim : Nat
  size : Nat

/-- Accesses to `quad_`. Quadrature.h 60, 178–179, 527–528, 793–794; MonotoneComponent.h 271, 273. -/
inductive Step where
  | setFdim (n : Nat)
  | setSize (n : Nat)
  | readSize
  | copyQuad (used : Bool)

/-- The accesses before a kernel starts; `ws` is `GetWorkspaceSize`. E.g. MonotoneComponent.h 270–273, and 501 for the functions
without quadrature, whose functor has a copy of the component as well. -/
def Fn.steps (ws : Nat → Nat) (M d : Nat) (fn : Fn) : List Step :=
  match fn.dim M d with
  | some n => [.setFdim n, .setSize (ws n), .readSize, .copyQuad true]
  | none => [.copyQuad false]

/-- A thread: what it has still to do, its local `workspaceSize`, and the kernels it has started: dimension of the copied
`quad_` and size of the workspace (`none` if the kernel does not integrate). MonotoneComponent.h 271–283. -/
structure Thread where
  todo : List Step
  size : Nat
  launched : List (Option (Nat × Nat))

/-- The next access of a thread. MonotoneComponent.h 270–273, Quadrature.h 178–179. -/
def Thread.step (q : Quad) (t : Thread) : Quad × Thread :=
  match t.todo with
  | [] => (q, t)
  | .setFdim n :: r => ({ q with fdim := n }, { t with todo := r })
  | .setSize n :: r => ({ q with size := n }, { t with todo := r })
  | .readSize :: r => (q, { t with todo := r, size := q.size })
  | .copyQuad used :: r =>
    (q, { t with todo := r, launched := t.launched ++ [if used then some (q.fdim, t.size) else none] })

/-- The shared member and the threads. MonotoneComponent.h 1060. -/
structure State where
  quad : Quad
  threads : Nat → Thread

/-- Thread `i` goes on. MonotoneComponent.h 270–273. -/
def State.step (s : State) (i : Nat) : State :=
  ⟨((s.threads i).step s.quad).1, Function.update s.threads i ((s.threads i).step s.quad).2⟩

/-- The threads take steps in the order of the schedule. MonotoneComponent.h 270–273. -/
def State.run (s : State) (schedule : List Nat) : State := schedule.foldl State.step s

/-- Start: thread `i` is going to run the kernels `prog i`; `quad_` is as earlier calls have left it. MonotoneComponent.h 256–299. -/
def State.start (ws : Nat → Nat) (M d : Nat) (q : Quad) (prog : Nat → List Fn) : State :=
  ⟨q, fun i => ⟨(prog i).flatMap (Fn.steps ws M d), 0, []⟩⟩

/-- The members. Quadrature.h 91, 93. -/
inductive Loc where
  | fdim
  | size
deriving DecidableEq

/-- Members written, Quadrature.h 178–179. -/
def Step.writes : Step → List Loc
  | .setFdim _ => [.fdim]
  | .setSize _ => [.size]
  | _ => []

/-- Members read: `WorkspaceSize()`, Quadrature.h 60, and the copy of the component in the functor, MonotoneComponent.h 273. -/
def Step.reads : Step → List Loc
  | .readSize => [.size]
  | .copyQuad _ => [.fdim, .size]
  | _ => []

/-- `quad_.Integrate(workspace.data(), integrand, 0, 1, integral.data())` of a kernel with a `ClenshawCurtisQuadrature`,
MonotoneComponent.h 712–724 and Quadrature.h 278–309: `k` is what the thread has started the kernel with, `n` the number of outputs of
the integrand (MonotoneIntegrand.h 122–131) and of the entries of `integral`. Scratch memory has arbitrary content. -/
noncomputable def kernelCC (pts wts : Mem) (f : Integrand) (n : Nat) (k : Nat × Nat) (junkW junkR : Nat → ℝ) : Res (List ℝ) := do
  let res ← zeroFill k.1 ⟨n, junkR⟩
  let st ← forLoop (fun i (st : Mem × Mem) => do
      let p ← pts.read i
      let ws ← f.call n (0.5 * (1 + p)) st.1 0
      let res ← forLoop (fun j res => do
        let r ← res.read j
        let w ← wts.read i
        let v ← ws.read j
        res.write j (r + 0.5 * w * v)) 0 k.1 st.2
      return (ws, res)) 0 pts.size (⟨k.2, junkW⟩, res)
  return (List.range n).map st.2.val

end MParT.Shared
