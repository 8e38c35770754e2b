import Verif.Model.Rounding
import Verif.Spec.Expansion
import Mathlib.Data.Real.Basic
import Mathlib.Algebra.Order.Floor.Ring
import Mathlib.Algebra.Order.Round
import Mathlib.Data.Int.Log
import Mathlib.Data.Real.Archimedean
/-!
# Specification: rounding errors
-/
namespace MParT.Spec

/-- Rounding changes a number by at most the fraction `u` of it (for `double`, `u = 2⁻⁵³`). -/
structure RelError (u : ℝ) (fl : ℝ → ℝ) : Prop where
  nonneg : 0 ≤ u
  bound : ∀ x, |fl x - x| ≤ u * |x|

/-- `x` is the number `a` computed with an error as of `k` roundings, relative to `A`. -/
def Within (u : ℝ) (k : Nat) (x a A : ℝ) : Prop := |x - a| ≤ ((1 + u) ^ k - 1) * A

/-- The number of additions the first number in a reduction can go through. -/
def additions : Parallel.Split → Nat
  | .chunk l => l.length
  | .join a b => max (additions a) (additions b) + 1
  | .andThen a l => additions a + l.length

/-- Rounding to the nearest number with `p` binary digits, without limits on the exponent. -/
noncomputable def nearest (p : Nat) (x : ℝ) : ℝ :=
  round (x / 2 ^ (Int.log 2 |x| + 1 - p)) * 2 ^ (Int.log 2 |x| + 1 - p)

variable {fl : ℝ → ℝ}

/-- The number `ReduceDim` sums for entry `i` of the result: entry `(i, j)` or `(j, i)` of the matrix, or its square. -/
noncomputable def summand (m : Parallel.ReduceDimMap) (dim1 : Bool) (A : Nat → Nat → Fl fl) (i j : Nat) : ℝ :=
  match m with
  | .sum => (if dim1 then A i j else A j i).val
  | .norm => (if dim1 then A i j else A j i).val ^ 2

/-! Factors of the terms of an expansion, as the basis functions return them. -/

/-- The coordinates of the point. -/
noncomputable def coordinate (D : Nat) (pt : List (Fl fl)) (xd : Fl fl) (d : Nat) : Fl fl := if d = D - 1 then xd else pt.getD d 0

/-- The factor of coordinate `d` of a term whose degree in `d` is `n`. -/
noncomputable def factor (b : Basis (Fl fl)) (x : Nat → Fl fl) (d n : Nat) : ℝ := if n = 0 then 1 else (b.val n (x d)).val

/-- The same in the derivative with respect to coordinate `e`. -/
noncomputable def factorD1 (b : Basis (Fl fl)) (x : Nat → Fl fl) (e d n : Nat) : ℝ :=
  if d = e then (if n = 0 then 0 else (b.d1 n (x d)).val) else factor b x d n

/-- The same in the second derivative with respect to coordinate `e`. -/
noncomputable def factorD2 (b : Basis (Fl fl)) (x : Nat → Fl fl) (e d n : Nat) : ℝ :=
  if d = e then (if n = 0 then 0 else (b.d2 n (x d)).val) else factor b x d n

/-- `y` is the sum `Σ_k c_k Π_d φ_d(a_{k,d})` with an error as of `k` roundings, relative to the sum of the absolute values of the terms. -/
def SumWithin (u : ℝ) (k : Nat) (y : ℝ) (D : Nat) (ts : List (List Nat)) (c : List (Fl fl)) (φ : Nat → Nat → ℝ) : Prop :=
  Within u k y (expansion D ts (c.map Fl.val) φ) (expansion D ts (c.map fun v => |v.val|) fun d n => |φ d n|)

end MParT.Spec
