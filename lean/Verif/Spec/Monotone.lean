import Verif.Spec.Expansion
import Verif.Spec.FixedHist
import Verif.Props.Bijectors
import Verif.Model.MonotoneComponent
import Mathlib.MeasureTheory.Integral.IntervalIntegral.Basic
/-!
# Specification: monotone components

`f c` is the expansion with coefficients `c`, `D` the number of inputs; coordinates are numbered `0..D-1`, the last one
being the one in which the component is monotone.
-/
namespace MParT.Spec
open Finset

section
variable (b : Basis ℝ) (g : ℝ → ℝ) (nugget : ℝ) (D : Nat) (ts : List (List Nat)) (c : List ℝ) (x : Nat → ℝ)

/-- `∂f/∂x_D` at the point `x`. -/
noncomputable def diagD : ℝ := partialDeriv (expandAt b D ts c) (D - 1) x

/-- The integrand of the component on `[0, x_D]`: `g(∂_D f(x_{1:D-1}, s)) + nugget`. -/
noncomputable def density (s : ℝ) : ℝ := g (diagD b D ts c (Function.update x (D - 1) s)) + nugget

/-- `f(x_{1:D-1}, 0)`. -/
noncomputable def offset : ℝ := expandAt b D ts c (Function.update x (D - 1) 0)

/-- The component with exact integration: `T(x) = f(x_{1:D-1},0) + ∫_0^{x_D} (g(∂_D f(x_{1:D-1},s)) + nugget) ds`. -/
noncomputable def monotone : ℝ :=
  offset b D ts c x + ∫ s in (0 : ℝ)..x (D - 1), density b g nugget D ts c x s

/-- The integrand after the substitution `s = t x_D`, `t ∈ [0,1]`. -/
noncomputable def unitDensity (t : ℝ) : ℝ := x (D - 1) * density b g nugget D ts c x (t * x (D - 1))

/-- The component with the integral replaced by a rule with nodes and weights `(t, w)` on `[0,1]`. -/
noncomputable def discretised (rule : List (ℝ × ℝ)) : ℝ :=
  offset b D ts c x + (rule.map fun p => p.2 * unitDensity b g nugget D ts c x p.1).sum

end

/-- The coordinates of a point given as a list. -/
def coords (pt : List ℝ) (d : Nat) : ℝ := pt.getD d 0

/-- Every buffer the program hands to the integrand, and its result, have `n` entries. -/
def QuadShape (n : Nat) : QProg → Prop
  | .done r => r.length = n
  | .call _ buf k => buf.length = n ∧ ∀ o : List ℝ, o.length = n → QuadShape n (k o)
  | .bad => True

/-- A component of `D` inputs built from a compressed set with multi-indices `ts`, a continuously differentiable basis, a positive bijection and a
quadrature whose results have as many entries as the integrand. -/
structure ValidComponent (c : MonotoneComponent) (D : Nat) (ts : List (List Nat)) : Prop where
  fixed : ∃ f, FixedSet.Built f ∧ f.isCompressed = true ∧ f.dim = D ∧ FixedSet.Holds f ts ∧ Worker.ofFixed f = .ok c.w
  pos : 0 < D
  basis : C1Basis c.b.eff
  bij : IsPosBijector c.g
  quad : ∀ n, QuadShape n (c.quad n)

end MParT.Spec

namespace MParT.Spec

/-- The quadrature is a weighted sum over nodes and weights `(t, w)` which are chosen looking at the first component of
the integrand only: every fixed rule, and the adaptive rules with the error measured in the first component. -/
def UsesMesh (quad : Nat → QProg) (mesh : (ℝ → ℝ) → List (ℝ × ℝ)) : Prop :=
  ∀ (n : Nat) (F : ℝ → Nat → ℝ), 0 < n → (quad n).pureRun (fun t => (List.range n).map (F t))
    = .ok ((List.range n).map fun j => ((mesh (F · 0)).map fun p => p.2 * F p.1 j).sum)

end MParT.Spec
