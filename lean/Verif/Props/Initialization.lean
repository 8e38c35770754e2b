import Verif.Model.Initialization
/-!
# C72: initialisation and finalisation
-/
namespace MParT.Init

/-- The word `off` in any capitalisation. -/
def SaysOff (s : List Nat) : Prop :=
  ∃ a b c : Char, s = [a, b, c].map Char.toNat ∧ (a = 'o' ∨ a = 'O') ∧ (b = 'f' ∨ b = 'F') ∧ (c = 'f' ∨ c = 'F')

theorem tolower_o (c : Nat) : tolower c = 111 ↔ c = 111 ∨ c = 79 := by
  simp only [tolower, show 'A'.toNat = 65 from rfl, show 'Z'.toNat = 90 from rfl]
  split <;> omega

theorem tolower_f (c : Nat) : tolower c = 102 ↔ c = 102 ∨ c = 70 := by
  simp only [tolower, show 'A'.toNat = 65 from rfl, show 'Z'.toNat = 90 from rfl]
  split <;> omega

theorem saysOff_iff (s : List Nat) : s.map tolower = ['o', 'f', 'f'].map Char.toNat ↔ SaysOff s := by
  have e : (['o', 'f', 'f'].map Char.toNat) = [111, 102, 102] := rfl
  rw [e]
  constructor
  · intro h
    match s, h with
    | [a, b, c], h =>
      simp only [List.map_cons, List.map_nil, List.cons.injEq, and_true, tolower_o, tolower_f] at h
      obtain ⟨ha, hb, hc⟩ := h
      refine ⟨if a = 111 then 'o' else 'O', if b = 102 then 'f' else 'F', if c = 102 then 'f' else 'F', ?_, ?_, ?_, ?_⟩
      · rcases ha with rfl | rfl <;> rcases hb with rfl | rfl <;> rcases hc with rfl | rfl <;> rfl
      all_goals (split <;> simp)
    | [], h => simp at h
    | [_], h => simp at h
    | [_, _], h => simp at h
    | _ :: _ :: _ :: _ :: _, h => simp at h
  · rintro ⟨a, b, c, rfl, ha, hb, hc⟩
    rcases ha with rfl | rfl <;> rcases hb with rfl | rfl <;> rcases hc with rfl | rfl <;> rfl

/-- C72: the warning is printed unless `MPART_WARNINGS` is `off`, in any capitalisation. -/
theorem C72_shouldPrint (env : Option (List Nat)) : shouldPrint env = true ↔ ∀ s, env = some s → ¬ SaysOff s := by
  cases env with
  | none => simp [shouldPrint]
  | some s =>
    simp only [shouldPrint, Option.some.injEq, forall_eq', ← saysOff_iff]
    split <;> simp_all

theorem callInit_later {α : Type} (args : α) (env : Option (List Nat)) {p : Process α} (h : p.isInitialized = true) :
    callInit args env p = { p with warnings := if shouldPrint env then p.warnings + 1 else p.warnings } := by
  simp [callInit, steps, step, h]

theorem later {α : Type} (calls : List (α × Option (List Nat))) {p : Process α} (h : p.isInitialized = true) :
    initializeAll calls p
      = { p with warnings := p.warnings + (calls.filter fun c => shouldPrint c.2).length } := by
  induction calls generalizing p with
  | nil => rfl
  | cons c cs ih =>
    rw [initializeAll, List.foldl_cons, callInit_later _ _ h]
    have := ih (p := { p with warnings := if shouldPrint c.2 then p.warnings + 1 else p.warnings }) h
    rw [initializeAll] at this
    rw [this]
    rw [List.filter_cons]
    split <;> simp
    omega

theorem first {α : Type} (args : α) (env : Option (List Nat)) (calls : List (α × Option (List Nat))) :
    initializeAll ((args, env) :: calls) start
      = ⟨.running args, true, 1, (calls.filter fun c => shouldPrint c.2).length⟩ := by
  have h : initializeAll ((args, env) :: calls) start = initializeAll calls ⟨.running args, true, 1, 0⟩ := rfl
  rw [h, later calls rfl, Nat.zero_add]

/-- C72: for every history of calls of `Initialize`, Kokkos is initialised exactly once, with the arguments of the first call; it
is finalised exactly once, at exit, and nothing aborts; every later call prints one warning unless `MPART_WARNINGS` says off. -/
theorem C72_history_partial {α : Type} (args : α) (env : Option (List Nat)) (calls : List (α × Option (List Nat))) :
    let p := initializeAll ((args, env) :: calls) start
    p.kokkos = .running args ∧ p.atexit = 1 ∧
      p.warnings = (calls.filter fun c => shouldPrint c.2).length ∧ (exit p).kokkos = .finalized := by
  intro p
  have hp : p = _ := first args env calls
  rw [hp]
  exact ⟨rfl, rfl, rfl, rfl⟩

/-- C72: a program that never calls `Initialize` exits without touching Kokkos. -/
theorem C72_unused {α : Type} : (exit (start : Process α)).kokkos = .fresh := rfl

/-- C72 fails for programs that also use Kokkos themselves: after `Kokkos::initialize`, `mpart::Initialize` aborts (it looks only
at its own flag). -/
theorem C72_fails_kokkos_first {α : Type} (a b : α) (env : Option (List Nat)) :
    (callInit b env { (start : Process α) with kokkos := Kokkos.fresh.initialize a }).kokkos = .aborted := rfl

/-- C72 fails for programs that call the public `mpart::Finalize`: at exit it is called again, which aborts. -/
theorem C72_fails_finalize {α : Type} (args : α) (env : Option (List Nat)) (calls : List (α × Option (List Nat))) :
    (exit (finalize (initializeAll ((args, env) :: calls) start))).kokkos = .aborted := by
  rw [first]; rfl

/-- C72 fails after `mpart::Finalize`: `Initialize` does not initialise again. -/
theorem C72_fails_again {α : Type} (args : α) (env : Option (List Nat)) (calls more : List (α × Option (List Nat))) :
    (initializeAll more (finalize (initializeAll ((args, env) :: calls) start))).kokkos = .finalized := by
  rw [first, later]
  · rfl
  · rfl

/-- C72 fails when two threads call `Initialize` at the same time: some schedules initialise Kokkos twice. -/
theorem C72_fails_race {α : Type} (a b : α) (env : Option (List Nat)) :
    (race a b env [true, false, true, true, true, false, false, false] start .enter .enter).kokkos = .aborted := rfl

/-- A history with three calls, one of them with the warnings switched off. -/
example : (initializeAll [((1 : Nat), none), (2, some [111, 70, 102]), (3, none)] start).warnings = 1 := rfl

/-- Without overlap the calls of two threads are harmless. -/
theorem C72_no_overlap {α : Type} (a b : α) (env : Option (List Nat)) :
    (race a b env [true, true, true, true, false, false] start .enter .enter).kokkos = .running a := rfl

end MParT.Init
