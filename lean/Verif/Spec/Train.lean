import Verif.Model.Train
import Verif.Spec.Distributions
/-!
# Specification: an optimiser that minimises a function
-/
namespace MParT.Spec
open Train

/-- The optimiser with the function `F` and the gradients `G`: the point, the value and the code it ends with, `none` if it fails. -/
def play (F : List ℝ → ℝ) (G : List ℝ → List ℝ) : Opt → Option (List ℝ × Option ℝ × Nat)
  | .stop x f r => some (x, f, r)
  | .fail => none
  | .query x wantGrad next => play F G (next (some (F x)) (if wantGrad then G x else []))

/-- The points it asks for, with the values it is told. -/
def answers (F : List ℝ → ℝ) (G : List ℝ → List ℝ) : Opt → List (List ℝ × ℝ)
  | .stop _ _ _ => []
  | .fail => []
  | .query x wantGrad next => (x, F x) :: answers F G (next (some (F x)) (if wantGrad then G x else []))

/-- The last point it asks for, `start` if it asks for none. -/
def lastAsked (F : List ℝ → ℝ) (G : List ℝ → List ℝ) (start : List ℝ) (o : Opt) : List ℝ :=
  (((answers F G o).map Prod.fst).getLast?).getD start

/-- All its points have `n` entries, and its code is one of those of NLopt. -/
def HasDim (n : Nat) : Opt → Prop
  | .stop x _ r => x.length = n ∧ r ≤ 6
  | .fail => True
  | .query x wantGrad next => x.length = n ∧ ∀ v g, g.length = (if wantGrad then n else 0) → HasDim n (next v g)

/-- It always asks for the gradient. -/
def UsesGradient : Opt → Prop
  | .stop _ _ _ => True
  | .fail => True
  | .query _ wantGrad next => wantGrad = true ∧ ∀ v g, UsesGradient (next v g)

/-- If it ends with a point, then it has asked for this point and for the starting point, it reports the value it was told, and it was told no
smaller one. -/
def ReturnsBest (F : List ℝ → ℝ) (G : List ℝ → List ℝ) (start : List ℝ) (o : Opt) : Prop :=
  ∀ x f r, play F G o = some (x, f, r) → ∃ v, f = some v ∧ (x, v) ∈ answers F G o ∧ (∃ w, (start, w) ∈ answers F G o) ∧
    ∀ y w, (y, w) ∈ answers F G o → v ≤ w

end MParT.Spec
