import Mathlib.Analysis.SpecialFunctions.Sqrt
import Mathlib.Algebra.BigOperators.Intervals
/-!
# What the quadrature rules are meant to compute

Nothing here refers to the model.
-/
namespace MParT.Spec

/-- The rule with points `p 0, …, p (n-1)` and weights `w 0, …, w (n-1)` on `[-1,1]`, moved to `[a,b]`. -/
noncomputable def applyRule (n : Nat) (p w : Nat → ℝ) (f : ℝ → ℝ) (a b : ℝ) : ℝ :=
  ∑ i ∈ Finset.range n, (b - a) / 2 * w i * f ((a + b) / 2 + (b - a) / 2 * p i)

/-- Simpson's rule on `[a,b]`. -/
noncomputable def simpson (f : ℝ → ℝ) (a b : ℝ) : ℝ := (b - a) / 6 * (f a + 4 * f ((a + b) / 2) + f b)

/-- Simpson's rule on the two halves of `[a,b]`. -/
noncomputable def simpson2 (f : ℝ → ℝ) (a b : ℝ) : ℝ :=
  simpson f a ((a + b) / 2) + simpson f ((a + b) / 2) b

/-- The four ways to measure a vector of length `n`. -/
inductive Norm where
  | firstEntry
  | sup
  | euclid
  | sum

/-- The measure of the vector `v 0, …, v (n-1)`. -/
noncomputable def Norm.of (n : Nat) (v : Nat → ℝ) : Norm → ℝ
  | firstEntry => |v 0|
  | sup => (Finset.range n).fold max 0 fun i => |v i|
  | euclid => √(∑ i ∈ Finset.range n, v i ^ 2)
  | sum => ∑ i ∈ Finset.range n, |v i|

open Classical in
/-- Recursive bisection: the leaves, from left to right, of the tree obtained by halving `[a,b]` until `stop` holds for the
interval at its level, at most `d` more times. -/
noncomputable def leaves (stop : Nat → ℝ → ℝ → Prop) : Nat → Nat → ℝ → ℝ → List (ℝ × ℝ)
  | 0, _, a, b => [(a, b)]
  | d + 1, level, a, b =>
    if stop level a b then [(a, b)]
    else leaves stop d (level + 1) a ((a + b) / 2) ++ leaves stop d (level + 1) ((a + b) / 2) b

/-- The stopping test of the adaptive rules: the two estimates agree to the tolerance and the minimum depth is reached, or
the whole domain is tiny. -/
def converged (coarse fine : (ℝ → ℝ) → ℝ → ℝ → ℝ) (N : Norm) (n : Nat) (absTol relTol : ℝ) (minSub : Nat) (lb ub : ℝ)
    (f : ℝ → Nat → ℝ) (level : Nat) (a b : ℝ) : Prop :=
  (N.of n (fun j => fine (f · j) a b - coarse (f · j) a b) <
      max (relTol * N.of n (fun j => coarse (f · j) a b)) absTol ∧ minSub ≤ level) ∨ |ub - lb| < 1e-14

/-- The intervals, in this order, tile `[a,b]`: each starts where the previous one ends. -/
def Tiles (a b : ℝ) : List (ℝ × ℝ) → Prop
  | [] => a = b
  | (x, y) :: t => x = a ∧ Tiles y b t

end MParT.Spec
