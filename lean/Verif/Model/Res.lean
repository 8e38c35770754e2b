/-!
# Outcomes of C++ calls

`Res α` is the outcome of a modelled C++ call.  `ok a` is a normal return, `throw` is a C++
exception (or a failing `assert`), and `ub` is undefined behaviour (an unchecked
out-of-range access, use of an invalidated reference, ...).  Undefined behaviour is never
replaced by a default value.
-/
namespace MParT

/-- Outcome of a C++ call: normal return, exception / failed assertion, or undefined behaviour. Exceptions as in MultiIndexSet.cpp 346, failed assertions as in LinearAlgebra.cpp 72, unchecked accesses as in FixedMultiIndexSet.cpp 222. -/
inductive Res (α : Type u) where
  | ok (a : α)
  | throw
  | ub
deriving Repr, DecidableEq

namespace Res

/-- Sequencing: exceptions and undefined behaviour propagate. C++ statements in sequence, e.g. FixedMultiIndexSet.cpp 335–344. -/
def bind {α : Type u} {β : Type v} (x : Res α) (f : α → Res β) : Res β :=
  match x with
  | ok a => f a
  | throw => throw
  | ub => ub

/-- Normal-return image of a function. C++ statements in sequence, e.g. FixedMultiIndexSet.cpp 335–344. -/
def map {α : Type u} {β : Type v} (f : α → β) (x : Res α) : Res β :=
  x.bind fun a => ok (f a)

instance : Monad Res where
  pure := ok
  bind := bind

@[simp] theorem pure_eq {α : Type u} (a : α) : (pure a : Res α) = ok a := rfl
@[simp] theorem bind_ok {α β : Type u} (a : α) (f : α → Res β) :
    ((ok a : Res α) >>= f) = f a := rfl
@[simp] theorem bind_throw {α β : Type u} (f : α → Res β) :
    ((throw : Res α) >>= f) = throw := rfl
@[simp] theorem bind_ub {α β : Type u} (f : α → Res β) :
    ((ub : Res α) >>= f) = ub := rfl

instance : LawfulMonad Res := LawfulMonad.mk' (m := Res)
  (id_map := by intro α x; cases x <;> rfl)
  (pure_bind := by intros; rfl)
  (bind_assoc := by intro α β γ x f g; cases x <;> rfl)

/-- Checked access `v.at(i)`: throws `std::out_of_range` outside the vector. E.g. MultiIndexSet.cpp 346. -/
def at' {α : Type u} (l : List α) (i : Nat) : Res α :=
  match l[i]? with
  | some a => ok a
  | none => throw

/-- Unchecked access `v[i]` / Kokkos view access: undefined behaviour outside the vector. E.g. FixedMultiIndexSet.cpp 222. -/
def idx {α : Type u} (l : List α) (i : Nat) : Res α :=
  match l[i]? with
  | some a => ok a
  | none => ub

/-- Checked write `v.at(i) = a`. E.g. MultiIndexSet.cpp 355. -/
def setAt {α : Type u} (l : List α) (i : Nat) (a : α) : Res (List α) :=
  if i < l.length then ok (l.set i a) else throw

/-- Unchecked write `v[i] = a`. E.g. FixedMultiIndexSet.cpp 335. -/
def setIdx {α : Type u} (l : List α) (i : Nat) (a : α) : Res (List α) :=
  if i < l.length then ok (l.set i a) else ub

theorem at'_some {α : Type u} {l : List α} {i : Nat} {a : α} (h : l[i]? = some a) :
    at' l i = ok a := by simp [at', h]

theorem idx_some {α : Type u} {l : List α} {i : Nat} {a : α} (h : l[i]? = some a) :
    idx l i = ok a := by simp [idx, h]

theorem at'_lt {α : Type u} {l : List α} {i : Nat} (h : i < l.length) :
    at' l i = ok l[i] := by simp [at', h]

theorem idx_lt {α : Type u} {l : List α} {i : Nat} (h : i < l.length) :
    idx l i = ok l[i] := by simp [idx, h]

theorem setAt_lt {α : Type u} {l : List α} {i : Nat} {a : α} (h : i < l.length) :
    setAt l i a = ok (l.set i a) := by simp [setAt, h]

theorem setIdx_lt {α : Type u} {l : List α} {i : Nat} {a : α} (h : i < l.length) :
    setIdx l i a = ok (l.set i a) := by simp [setIdx, h]

theorem bind_eq_ok {α β : Type u} {x : Res α} {f : α → Res β} {b : β} :
    (x >>= f) = ok b ↔ ∃ a, x = ok a ∧ f a = ok b := by
  cases x <;> simp

end Res
end MParT
