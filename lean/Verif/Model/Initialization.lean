import Verif.Model.Res
import Mathlib.Data.List.Basic
/-!
# Model of `mpart::Initialize` and `mpart::Finalize`

Source: `MParT/Initialization.h`, `src/Initialization.cpp` (without GPU).

Simplifications
* Kokkos is a state that allows `initialize` once, and `finalize` only after it; everything else aborts the process;
* a string is the list of the codes of its characters;
* the arguments of `Kokkos::initialize` are an arbitrary type;
* a call is a sequence of steps, so that calls of several threads can be interleaved; the steps themselves are atomic.
-/
namespace MParT.Init

/-- State of Kokkos: `initialize` and `finalize` may each be called once, in this order. Kokkos library; Initialization.h 84. -/
inductive Kokkos (α : Type) where
  | fresh
  | running (args : α)
  | finalized
  | aborted
deriving DecidableEq

/-- `Kokkos::initialize(args)`. Initialization.h 84. -/
def Kokkos.initialize {α : Type} (k : Kokkos α) (args : α) : Kokkos α :=
  match k with
  | .fresh => .running args
  | _ => .aborted

/-- `Kokkos::finalize()`. Initialization.cpp 13. -/
def Kokkos.finalize {α : Type} : Kokkos α → Kokkos α
  | .running _ => .finalized
  | _ => .aborted

/-- The process: Kokkos, the static `InitializeStatus` (Initialization.h 41–57), how often `mpart::Finalize` is registered with
`atexit`, and the number of warnings printed. -/
structure Process (α : Type) where
  kokkos : Kokkos α
  isInitialized : Bool
  atexit : Nat
  warnings : Nat

/-- At program start, Initialization.h 51. -/
def start {α : Type} : Process α := ⟨.fresh, false, 0, 0⟩

/-- `std::tolower` in the default locale, on the codes of characters. Initialization.h 107. -/
def tolower (c : Nat) : Nat := if 'A'.toNat ≤ c ∧ c ≤ 'Z'.toNat then c + 32 else c

/-- `shouldPrint`, Initialization.h 100–111; `none` is a variable that is not set. -/
def shouldPrint (env : Option (List Nat)) : Bool :=
  match env with
  | none => true
  | some warningStr => if warningStr.map tolower = ['o', 'f', 'f'].map Char.toNat then false else true

/-- Where a call of `Initialize` stands, Initialization.h 78–116. -/
inductive Step where
  | enter
  | kokkos
  | atexit
  | set
  | warn
  | done
deriving DecidableEq

/-- One step of a call of `Initialize` with the given arguments and value of `MPART_WARNINGS`, Initialization.h 78–116. -/
def step {α : Type} (args : α) (env : Option (List Nat)) (p : Process α) : Step → Process α × Step
  | .enter => if !p.isInitialized then (p, .kokkos) else (p, .warn)
  | .kokkos => ({ p with kokkos := p.kokkos.initialize args }, .atexit)
  | .atexit => ({ p with atexit := p.atexit + 1 }, .set)
  | .set => ({ p with isInitialized := true }, .done)
  | .warn => ({ p with warnings := if shouldPrint env then p.warnings + 1 else p.warnings }, .done)
  | .done => (p, .done)

/-- `n` steps of one call. Initialization.h 78–116. -/
def steps {α : Type} (args : α) (env : Option (List Nat)) : Nat → Process α → Step → Process α × Step
  | 0, p, s => (p, s)
  | n + 1, p, s =>
    let r := step args env p s
    steps args env n r.1 r.2

/-- A whole call of `Initialize`: four steps are enough. Initialization.h 78–116. -/
def callInit {α : Type} (args : α) (env : Option (List Nat)) (p : Process α) : Process α := (steps args env 4 p .enter).1

/-- `mpart::Finalize`, Initialization.cpp 6–14. -/
def finalize {α : Type} (p : Process α) : Process α := { p with kokkos := p.kokkos.finalize }

/-- The calls at `exit`. Initialization.h 93, Initialization.cpp 6–14. -/
def atExit {α : Type} : Nat → Process α → Process α
  | 0, p => p
  | n + 1, p => atExit n (finalize p)

/-- `exit`: the registered functions are called. Initialization.h 93. -/
def exit {α : Type} (p : Process α) : Process α := atExit p.atexit p

/-- A sequence of calls of `Initialize`, one after the other. Initialization.h 78–116. -/
def initializeAll {α : Type} (calls : List (α × Option (List Nat))) (p : Process α) : Process α :=
  calls.foldl (fun p c => callInit c.1 c.2 p) p

/-- Two threads that call `Initialize` at the same time: at every step the schedule says which of them goes on. Initialization.h 78–116. -/
def race {α : Type} (a b : α) (env : Option (List Nat)) : List Bool → Process α → Step → Step → Process α
  | [], p, _, _ => p
  | true :: sched, p, s, t =>
    let r := step a env p s
    race a b env sched r.1 r.2 t
  | false :: sched, p, s, t =>
    let r := step b env p t
    race a b env sched r.1 s r.2

end MParT.Init
