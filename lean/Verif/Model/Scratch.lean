import Verif.Model.Res
import Mathlib.Logic.Function.Basic
/-!
# Model of the scratch memory of the kernels

Source: the kernels of `MParT/MonotoneComponent.h` and `MParT/MultivariateExpansion.h`, `MParT/Utilities/KokkosHelpers.h`, and
Kokkos' `ScratchMemorySpace` (`get_shmem_aligned`), `View::shmem_size` and the constructor of views on scratch memory.

A kernel computes how many bytes each thread needs and hands that to the policy; each thread then takes views from the memory
of its team.

Simplifications
* the memory of a team starts at address 0, which is aligned; addresses are in bytes, a `double` takes 8;
* `pad` is what `shmem_size` adds for alignment (0 or 8, depending on the version of Kokkos);
* `unsigned int` is arithmetic modulo 2^32, `size_t` is unbounded;
* a thread is a state machine over arbitrary registers `σ` (which hold its point and its column of the output as well); each step
  reads or writes one entry of one of its views. Steps of the threads of a team are interleaved arbitrarily.
-/
namespace MParT.Scratch

/-- The quadrature rule of a component with the argument of its workspace size. Quadrature.h 170, 518, 784. -/
inductive Rule where
  | clenshawCurtis
  | adaptiveSimpson (maxSub : Nat)
  | adaptiveClenshawCurtis (maxSub : Nat)

/-- `GetWorkspaceSize` as assigned by `SetDim`, Quadrature.h 170, 518, 784: `unsigned int`. -/
def Rule.workspaceSize : Rule → Nat → Nat
  | .clenshawCurtis, fdim => fdim % 2 ^ 32
  | .adaptiveSimpson maxSub, fdim => ((2 * maxSub + 5) * fdim + 2 * maxSub) % 2 ^ 32
  | .adaptiveClenshawCurtis maxSub, fdim => ((maxSub + 5) * fdim + 2 * maxSub) % 2 ^ 32

/-- The kernels. MonotoneComponent.h 273–289, 407–437, 501–525, 605–633, 703–736, 776–813, 841–869, 892–921, 946–974,
MultivariateExpansion.h 56–85, 108–143, 169–202. -/
inductive Kernel where
  | evaluate
  | inverse
  | continuousDerivative
  | discreteDerivative
  | coeffJacobian
  | inputJacobian
  | continuousMixedJacobian
  | continuousMixedInputJacobian
  | discreteMixedJacobian
  | expansionEvaluate
  | expansionGradient
  | expansionCoeffGrad

/-- What the sizes depend on: `expansion_.CacheSize()`, `coeffs.extent(0)` (`NumCoeffs()`), `dim_` (`pts.extent(0)`) and the
rule. MonotoneComponent.h 269, 691, 69; MultivariateExpansion.h 53, 103, 166. -/
structure Sizes where
  cacheSize : Nat
  numTerms : Nat
  dim : Nat
  rule : Rule

/-- The argument of `quad_.SetDim`. MonotoneComponent.h 270, 401, 599, 697, 770, 940 (`unsigned int`). -/
def Kernel.fdim (k : Kernel) (s : Sizes) : Nat :=
  match k with
  | .evaluate | .inverse => 1
  | .discreteDerivative => 2
  | .coeffJacobian | .discreteMixedJacobian => (s.numTerms + 1) % 2 ^ 32
  | .inputJacobian => (s.dim + 1) % 2 ^ 32
  | _ => 0

/-- `quad_.WorkspaceSize()`. MonotoneComponent.h 271, 402, 600, 698, 771, 941. -/
def Kernel.workspaceSize (k : Kernel) (s : Sizes) : Nat := s.rule.workspaceSize (k.fdim s)

/-- The lengths of the views a thread takes, in this order. MonotoneComponent.h 282–283, 429 and 433, 511, 614–616, 713–715,
786–788, 852, 903, 956–958 and 964, MultivariateExpansion.h 66, 118–119, 179–180. (The lengths `numTerms+1` and `dim_+1` are
`unsigned int`.) -/
def Kernel.views (k : Kernel) (s : Sizes) : List Nat :=
  match k with
  | .evaluate | .inverse => [s.cacheSize, k.workspaceSize s]
  | .continuousDerivative | .continuousMixedJacobian | .continuousMixedInputJacobian => [s.cacheSize]
  | .discreteDerivative => [s.cacheSize, k.workspaceSize s, 2]
  | .coeffJacobian => [s.cacheSize, k.workspaceSize s, (s.numTerms + 1) % 2 ^ 32]
  | .inputJacobian => [s.cacheSize, k.workspaceSize s, (s.dim + 1) % 2 ^ 32]
  | .discreteMixedJacobian => [s.cacheSize, k.workspaceSize s, (s.numTerms + 1) % 2 ^ 32, s.numTerms]
  | .expansionEvaluate => [s.cacheSize]
  | .expansionGradient => [s.cacheSize, s.dim]
  | .expansionCoeffGrad => [s.cacheSize, s.numTerms]

/-- The number of `double`s asked for. MonotoneComponent.h 293, 405, 499, 603, 701, 774, 839, 890, 944,
MultivariateExpansion.h 87, 146, 205: sums of `unsigned int`. -/
def Kernel.asked (k : Kernel) (s : Sizes) : Nat :=
  match k with
  | .evaluate | .inverse => (s.cacheSize + k.workspaceSize s) % 2 ^ 32
  | .continuousDerivative | .continuousMixedJacobian | .continuousMixedInputJacobian => s.cacheSize % 2 ^ 32
  | .discreteDerivative => (s.cacheSize + k.workspaceSize s + 2) % 2 ^ 32
  | .coeffJacobian => (s.cacheSize + k.workspaceSize s + s.numTerms + 1) % 2 ^ 32
  | .inputJacobian => (s.cacheSize + k.workspaceSize s + s.dim + 1) % 2 ^ 32
  | .discreteMixedJacobian => (s.cacheSize + k.workspaceSize s + 2 * s.numTerms + 1) % 2 ^ 32
  | .expansionEvaluate => s.cacheSize % 2 ^ 32
  | .expansionGradient => (s.cacheSize + s.dim) % 2 ^ 32
  | .expansionCoeffGrad => (s.cacheSize + s.numTerms) % 2 ^ 32

/-- `cacheBytes`: `View<double*>::shmem_size` as an `unsigned int`, which it is at the latest as an argument of
`GetCachedRangePolicy`. MonotoneComponent.h 293, KokkosHelpers.h 17. -/
def Kernel.cacheBytes (pad : Nat) (k : Kernel) (s : Sizes) : Nat := (8 * k.asked s + pad) % 2 ^ 32

/-- The bytes of scratch memory of a team: `PerTeam(0)` and `PerThread(cacheBytes)`. KokkosHelpers.h 25; Kokkos library. -/
def teamBytes (teamSize perThread : Nat) : Nat := teamSize * perThread

/-- `get_shmem_aligned(size, 8)` of thread scratch memory: the parts of the threads of the team for one view follow each other.
Gives the address, `none` if the memory is used up (a null pointer), and the place where the next view starts. Kokkos library;
used in MonotoneComponent.h 282. -/
def getShmem (teamSize rank last size iter : Nat) : Option Nat × Nat :=
  let start := if iter % 8 = 0 then iter else iter + 8 - iter % 8
  if last < start + size * teamSize then (none, iter) else (some (start + rank * size), start + size * teamSize)

/-- The views a thread takes one after the other. MonotoneComponent.h 282–283 and the others. -/
def takeViews (teamSize rank last : Nat) : List Nat → Nat → List (Option Nat)
  | [], _ => []
  | n :: ns, iter =>
    let p := getShmem teamSize rank last (8 * n) iter
    p.1 :: takeViews teamSize rank last ns p.2

/-- One step of a thread: an entry of a view is read into the registers or written from them. MonotoneComponent.h 285–287 and
the others. -/
inductive Step (σ α : Type) where
  | load (view entry : Nat) (f : σ → α → σ)
  | store (view entry : Nat) (f : σ → α × σ)

/-- The address of an entry of a view: undefined for null pointers and beyond the end. Kokkos library; MonotoneComponent.h 285. -/
def entryAddr (bases : List (Option Nat)) (lengths : List Nat) (view entry : Nat) : Res Nat :=
  match bases[view]?, lengths[view]? with
  | some (some b), some n => if entry < n then .ok (b + 8 * entry) else .ub
  | _, _ => .ub

/-- The memory of a team and the registers of its threads. Kokkos library; MonotoneComponent.h 273–289. -/
structure Team (σ α : Type) where
  mem : Nat → α
  regs : Nat → σ

/-- Thread `rank` takes its next step, if it has one. MonotoneComponent.h 273–289 and the others. -/
def Team.step {σ α : Type} (prog : Nat → σ → Option (Step σ α)) (lengths : List Nat) (bases : Nat → List (Option Nat))
    (t : Team σ α) (rank : Nat) : Res (Team σ α) :=
  match prog rank (t.regs rank) with
  | none => .ok t
  | some (.load v e f) => do
    let a ← entryAddr (bases rank) lengths v e
    return { t with regs := Function.update t.regs rank (f (t.regs rank) (t.mem a)) }
  | some (.store v e f) => do
    let a ← entryAddr (bases rank) lengths v e
    let (x, r) := f (t.regs rank)
    return { mem := Function.update t.mem a x, regs := Function.update t.regs rank r }

/-- The threads of a team take steps in the given order. Kokkos library; MonotoneComponent.h 297 and the others. -/
def Team.run {σ α : Type} (prog : Nat → σ → Option (Step σ α)) (lengths : List Nat) (bases : Nat → List (Option Nat)) :
    List Nat → Team σ α → Res (Team σ α)
  | [], t => .ok t
  | r :: rs, t => do
    let t ← t.step prog lengths bases r
    t.run prog lengths bases rs

/-- A team of `teamSize` threads runs a kernel. MonotoneComponent.h 273–297 and the others. -/
def runKernel {σ α : Type} (pad : Nat) (k : Kernel) (s : Sizes) (teamSize : Nat) (prog : Nat → σ → Option (Step σ α))
    (schedule : List Nat) (t : Team σ α) : Res (Team σ α) :=
  t.run prog (k.views s) (fun r => takeViews teamSize r (teamBytes teamSize (k.cacheBytes pad s)) (k.views s) 0) schedule

end MParT.Scratch
