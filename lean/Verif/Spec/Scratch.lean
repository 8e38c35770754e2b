import Verif.Model.Scratch
/-!
# Specification of private memory

What a thread does when it has memory of its own.
-/
namespace MParT.Scratch.Spec

/-- The registers of a thread and its own views: entry `e` of view `v` is `views v e`. -/
structure Alone (σ α : Type) where
  regs : σ
  views : Nat → Nat → α

/-- One step. Entries that do not exist may not be used. -/
def Alone.step {σ α : Type} (prog : σ → Option (Step σ α)) (lengths : List Nat) (t : Alone σ α) : Res (Alone σ α) :=
  match prog t.regs with
  | none => .ok t
  | some (.load v e f) => if e < lengths.getD v 0 then .ok { t with regs := f t.regs (t.views v e) } else .ub
  | some (.store v e f) =>
    if e < lengths.getD v 0 then
      .ok ⟨(f t.regs).2, fun v' e' => if v' = v ∧ e' = e then (f t.regs).1 else t.views v' e'⟩
    else .ub

/-- Several steps. -/
def Alone.steps {σ α : Type} (prog : σ → Option (Step σ α)) (lengths : List Nat) : Nat → Alone σ α → Res (Alone σ α)
  | 0, t => .ok t
  | n + 1, t => do
    let t ← t.step prog lengths
    t.steps prog lengths n

/-- The bytes from `a` to `b`, and those from `c` to `d`, do not overlap. -/
def Apart (a b c d : Nat) : Prop := b ≤ c ∨ d ≤ a

/-- The number of entries of all views of a thread. -/
def total (lengths : List Nat) : Nat := lengths.sum

end MParT.Scratch.Spec
