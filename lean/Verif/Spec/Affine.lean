import Verif.Spec.Maps
import Verif.Model.AffineMap
/-!
# Specification of the affine maps and of summarised maps
-/
namespace MParT.Spec

/-- The matrix of an affine map: the identity when none was given. -/
def matrix (A : View2 ℝ) : Nat → Nat → ℝ := fun i j => if A.n0 = 0 then (if i = j then 1 else 0) else A.get i j

/-- `M x + b` for a matrix with `m` rows and `n` columns; missing entries of `b` are zero. -/
def affine (M : Nat → Nat → ℝ) (b : List ℝ) (m n : Nat) (x : List ℝ) : List ℝ :=
  (List.range m).map fun i => (∑ j ∈ Finset.range n, M i j * x.getD j 0) + b.getD i 0

/-- `Mᵀ s`. -/
def transposed (M : Nat → Nat → ℝ) (m n : Nat) (s : List ℝ) : List ℝ :=
  (List.range n).map fun j => ∑ i ∈ Finset.range m, M i j * s.getD i 0

/-- The last `m` columns of `M`. -/
def lastColumns (M : Nat → Nat → ℝ) (m n : Nat) : Matrix (Fin m) (Fin m) ℝ := Matrix.of fun i j => M i (n - m + j)

/-- A call of one of the three constructors that is within the documented use: at least one output. -/
inductive MakesAffine : View2 ℝ → List ℝ → (m n : Nat) → CMap → Prop
  | b {b : List ℝ} {t : CMap} {st : Bool} : b ≠ [] → AffineMap.newB b st = .ok t →
      MakesAffine View2.empty b b.length b.length t
  | A {A : View2 ℝ} {t : CMap} {st : Bool} : A.n0 ≠ 0 → AffineMap.newA A st = .ok t → MakesAffine A [] A.n0 A.n1 t
  | Ab {A : View2 ℝ} {b : List ℝ} {t : CMap} {st : Bool} : A.n0 ≠ 0 → AffineMap.newAB A b st = .ok t →
      MakesAffine A b A.n0 A.n1 t

end MParT.Spec

namespace MParT.Spec

/-- The summary statistics computed by `Evaluate` of a summary function. -/
def summarise (s : Summary) (x : List ℝ) : List ℝ := value [] (s.eval x (zeros s.outputDim))

/-- `Gradient` of a summary function. -/
def summaryGrad (s : Summary) (x v : List ℝ) : List ℝ := value [] (s.grad x v (zeros s.inputDim))

/-- `Evaluate` of the summary function returns normally whatever the output contained. -/
def Summarises (s : Summary) : Prop := ∀ x : List ℝ, x.length = s.inputDim → (summarise s x).length = s.outputDim ∧
  ∀ out : List ℝ, out.length = s.outputDim → s.eval x out = .ok (summarise s x)

/-- `Gradient` of the summary function is its gradient, whatever the output contained. -/
def DifferentiatesSummary (s : Summary) : Prop := ∀ x v : List ℝ, x.length = s.inputDim → v.length = s.outputDim →
  (∀ out : List ℝ, out.length = s.inputDim → s.grad x v out = .ok (summaryGrad s x v)) ∧
  (summaryGrad s x v).length = s.inputDim ∧
  ∀ δ u t₀, Path s.inputDim δ u t₀ → δ t₀ = x →
    HasDerivAt (fun t => dot v (summarise s (δ t))) (dot (summaryGrad s x v) u) t₀

/-- What a summarised map computes: the component at the summary of the leading inputs followed by the last input. -/
def summarised (s : Summary) (m : CMap) (c x : List ℝ) : List ℝ :=
  fn m c (summarise s (x.take s.inputDim) ++ x.drop s.inputDim)

end MParT.Spec
