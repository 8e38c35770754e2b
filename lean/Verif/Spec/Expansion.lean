import Mathlib.Algebra.BigOperators.Group.Finset.Basic
import Mathlib.Analysis.Calculus.Deriv.Basic
import Verif.Model.Expansion
/-!
# Specification: tensor-product expansions

`φ d n` is the factor contributed by dimension `d` when the degree in that dimension is `n`.
-/
namespace MParT.Spec
open Finset

section
variable {K : Type} [CommRing K]

/-- Product over the `D` dimensions of the factors of one multi-index. -/
def termProd (D : Nat) (φ : Nat → Nat → K) (t : List Nat) : K := ∏ d ∈ range D, φ d (t.getD d 0)

/-- `Σ_k c_k Π_d φ_d(a_{k,d})`. -/
def expansion (D : Nat) (ts : List (List Nat)) (c : List K) (φ : Nat → Nat → K) : K :=
  ∑ k ∈ range ts.length, c.getD k 0 * termProd D φ (ts.getD k [])

/-- The point whose last coordinate is `xd` and whose other coordinates are those of `pt`. -/
def pointOf (D : Nat) (pt : List K) (xd : K) (d : Nat) : K := if d = D - 1 then xd else pt.getD d 0

end

/-- The expansion as a function of the point: `f(x) = Σ_k c_k Π_d φ_{a_{k,d}}(x_d)`. -/
def expandAt {K : Type} [CommRing K] (b : Basis K) (D : Nat) (ts : List (List Nat)) (c : List K)
    (x : Nat → K) : K := expansion D ts c fun d n => b.val n (x d)

/-- The basis as an expansion with a compressed multi-index set uses it: factors of degree 0 are not stored with the terms,
so the function of degree 0 counts as the constant one, whatever it is. -/
def _root_.MParT.Basis.eff {K : Type} [CommRing K] (b : Basis K) : Basis K :=
  ⟨fun n x => if n = 0 then 1 else b.val n x, fun n x => if n = 0 then 0 else b.d1 n x,
    fun n x => if n = 0 then 0 else b.d2 n x⟩

/-- A one-dimensional basis over `ℝ` as the library assumes it: the function of degree 0 is the
constant 1, and the derivative evaluators return the derivatives of the functions. -/
structure SmoothBasis (b : Basis ℝ) : Prop where
  one : ∀ y, b.val 0 y = 1
  d1 : ∀ n y, HasDerivAt (b.val n) (b.d1 n y) y
  d2 : ∀ n y, HasDerivAt (b.d1 n) (b.d2 n y) y

/-- The same without second derivatives: the first derivatives are right and continuous. -/
structure C1Basis (b : Basis ℝ) : Prop where
  one : ∀ y, b.val 0 y = 1
  d1 : ∀ n y, HasDerivAt (b.val n) (b.d1 n y) y
  cont : ∀ n, Continuous (b.d1 n)

/-- The second derivatives are right at the point `y`. -/
def TwiceAt (b : Basis ℝ) (y : ℝ) : Prop := ∀ n, HasDerivAt (b.d1 n) (b.d2 n y) y

theorem SmoothBasis.twice {b : Basis ℝ} (h : SmoothBasis b) (y : ℝ) : TwiceAt b y := fun n => h.d2 n y

theorem SmoothBasis.c1 {b : Basis ℝ} (h : SmoothBasis b) : C1Basis b :=
  ⟨h.one, h.d1, fun n => continuous_iff_continuousAt.2 fun y => (h.d2 n y).continuousAt⟩

/-- The partial derivative of `g` in direction `e` as a function of the point. -/
noncomputable def partialDeriv (g : (Nat → ℝ) → ℝ) (e : Nat) (x : Nat → ℝ) : ℝ :=
  deriv (fun y => g (Function.update x e y)) (x e)

end MParT.Spec

namespace MParT.Worker
/-- The calls made on one cache: `FillCache1` once, then `FillCache2` any number of times. -/
def fillSeq {K : Type} (w : Worker) (b : Basis K) (cache : Cache K) (pt : List K) (flag1 : DFlag)
    (calls : List (K × DFlag)) : Res (Cache K) := do
  let c ← fillCache1 w b cache pt flag1
  calls.foldlM (fun c h => fillCache2 w b c h.1 h.2) c
end MParT.Worker
