/-!
# Specification: dense integer vectors

Multi-indices are, mathematically, vectors of natural numbers.  This file contains the few
notions used to state the multi-index properties.  It does not mention the model.
-/
namespace MParT.Spec

/-- Largest entry (0 for the empty vector). -/
def vmax : List Nat → Nat
  | [] => 0
  | x :: xs => max x (vmax xs)

/-- Number of nonzero entries. -/
def nnz (v : List Nat) : Nat := v.countP (fun x => x ≠ 0)

/-- `v` with one unit added to entry `i`. -/
def inc (v : List Nat) (i : Nat) : List Nat := v.set i (v.getD i 0 + 1)

/-- `v` with one unit removed from entry `i`. -/
def dec (v : List Nat) (i : Nat) : List Nat := v.set i (v.getD i 0 - 1)

/-- `w` is a forward neighbour of `v`: `w = v + e_i` for some `i`. -/
def Fwd (v w : List Nat) : Prop := ∃ i, i < v.length ∧ w = inc v i

/-- Componentwise order on vectors of the same length. -/
def Le (v w : List Nat) : Prop := v.length = w.length ∧ ∀ i, v.getD i 0 ≤ w.getD i 0

end MParT.Spec
