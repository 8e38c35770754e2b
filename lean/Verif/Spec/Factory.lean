import Verif.Model.Factory
import Verif.Spec.Maps
import Verif.Spec.Monotone
import Verif.Spec.OrthoPoly
/-!
# Specification: what the map factory is asked to build

`GoodBasis` and `GoodQuad` list the options for which the factory is proved to build what they describe; `IsComponent` says what that is.
-/
namespace MParT.Spec
open Finset Polynomial Filter Topology

/-- The function of order `n` of the family named by the option. -/
noncomputable def rawFamily : BasisType → Nat → ℝ → ℝ
  | .probabilistHermite => He
  | .physicistHermite => Hp
  | .hermiteFunctions => hermiteFn

/-- What the functions of the family are to be divided by to be orthonormal (Hermite functions are so already). -/
noncomputable def trueNorm : BasisType → Nat → ℝ
  | .probabilistHermite, n => √(√(2 * Real.pi) * n.factorial)
  | .physicistHermite, n => √(√Real.pi * 2 ^ n * n.factorial)
  | .hermiteFunctions, _ => 1

/-- One of the bounds is finite. -/
def Bounded (o : MapOptions) : Prop := o.basisLB ≠ none ∨ o.basisUB ≠ none

/-- The members of `b` of the given orders are the functions of the chosen family, extended beyond the bounds; with normalisation they
are divided by positive numbers, which for orders up to 12 are the right ones, and without they are not. -/
def IsBasisOf (o : MapOptions) (orders : Nat → Prop) (b : Basis ℝ) : Prop :=
  ∃ a : Nat → ℝ, (∀ n, orders n → 0 < a n) ∧ (o.basisNorm = true → ∀ n, n ≤ 12 → a n = trueNorm o.basisType n) ∧
    (o.basisNorm = false ∨ o.basisType = .hermiteFunctions → ∀ n, a n = 1) ∧
    ∀ n, orders n → b.val n = extend o.basisLB o.basisUB fun x => rawFamily o.basisType n x / a n

/-- The weights picked for any integrand sum polynomials of degree up to `d` to their integral over `[0,1]`. -/
def ExactTo (d : Nat) (mesh : (ℝ → ℝ) → List (ℝ × ℝ)) : Prop :=
  ∀ (h : ℝ → ℝ) (P : ℝ[X]), P.natDegree ≤ d → ((mesh h).map fun p => p.2 * P.eval p.1).sum = ∫ t in (0 : ℝ)..1, P.eval t

/-- The nodes picked for any integrand lie in `[0,1]` and no weight is negative; some node other than 0 counts. -/
def Interior (mesh : (ℝ → ℝ) → List (ℝ × ℝ)) : Prop :=
  ∀ h : ℝ → ℝ, (∀ p ∈ mesh h, 0 ≤ p.1 ∧ p.1 ≤ 1 ∧ 0 ≤ p.2) ∧ ∃ p ∈ mesh h, 0 < p.1 ∧ 0 < p.2

/-- For the integrands `t ↦ y u(t y)` with `u` positive and continuous at 0, the nodes and weights are, for small `y`, those of one rule. -/
def Settles (mesh : (ℝ → ℝ) → List (ℝ × ℝ)) : Prop :=
  ∃ R : List (ℝ × ℝ), ∀ u : ℝ → ℝ, ContinuousAt u 0 → 0 < u 0 → ∀ᶠ y in 𝓝[≠] (0 : ℝ), mesh (fun t => y * u (t * y)) = R

/-- The nodes and weights belong to the chosen quadrature: a fixed rule, exact for polynomials of degree below the number of points, or
adaptive ones, exact for cubics and for polynomials of degree up to twice the power of 2 below `quadPts - 1`. -/
def IsMeshOf (o : MapOptions) (mesh : (ℝ → ℝ) → List (ℝ × ℝ)) : Prop := (Interior mesh ∧ Settles mesh) ∧ match o.quadType with
  | .clenshawCurtis => (∃ R : List (ℝ × ℝ), mesh = (fun _ => R) ∧ R.length = o.quadPts) ∧ ExactTo (o.quadPts - 1) mesh
  | .adaptiveSimpson => ExactTo 3 mesh
  | .adaptiveClenshawCurtis => ExactTo (2 * 2 ^ Nat.log 2 (o.quadPts - 2)) mesh

/-- The chosen positive function. -/
noncomputable def positive : PosFuncType → ℝ → ℝ
  | .exp => fun x => Real.exp x
  | .softPlus => fun x => Real.log (1 + Real.exp x)

/-- Options for which expansions of orders up to `N` are what they should be: bounds in order; polynomials with finite bounds not
normalised, Hermite functions with finite bounds up to order 14, normalised polynomials up to order 33. -/
structure GoodBasis (o : MapOptions) (N : Nat) : Prop where
  bounds : Ordered o.basisLB o.basisUB
  linearized : Bounded o → o.basisType ≠ .hermiteFunctions → o.basisNorm = false
  functions : Bounded o → o.basisType = .hermiteFunctions → N ≤ 14
  normalized : o.basisType ≠ .hermiteFunctions → o.basisNorm = true → N ≤ 33

/-- Options of the quadrature for which it works: 1 to 65537 points for the fixed rule and 4 to 65537 for the nested ones; at most 32
subdivisions, and more than the least number. -/
structure GoodQuad (o : MapOptions) : Prop where
  fixed : o.quadType = .clenshawCurtis → 1 ≤ o.quadPts ∧ o.quadPts ≤ 65537
  nested : o.quadType = .adaptiveClenshawCurtis → 4 ≤ o.quadPts ∧ o.quadPts ≤ 65537
  adaptive : o.quadType ≠ .clenshawCurtis → o.quadMinSub < o.quadMaxSub ∧ o.quadMaxSub ≤ 32

/-- The map object `T` is the component of the options for the given basis `b` and nodes and weights: with `f` the expansion in `b` over the
multi-indices `ts` in `D` variables and `g` the chosen positive function, it computes `f(x_{1:D-1},0)` plus the weighted sum of
`x_D g(∂_D f(x_{1:D-1},t x_D))` over the nodes `t ∈ [0,1]`, and with the continuous derivative `log g(∂_D f(x))`. -/
structure IsComponent (o : MapOptions) (b : Basis ℝ) (mesh : (ℝ → ℝ) → List (ℝ × ℝ)) (D : Nat) (ts : List (List Nat)) (T : CMap) :
    Prop where
  inputs : T.inputDim = D
  outputs : T.outputDim = 1
  coeffs : T.numCoeffs = ts.length
  evaluates : Evaluates T
  value : ∀ c x, Fits T c x → fn T c x = [discretised b.eff (positive o.posFuncType) 0 D ts c (coords x)
    (mesh (unitDensity b.eff (positive o.posFuncType) 0 D ts c (coords x)))]
  logDets : o.contDeriv = true → HasLogDet T
  logDet : o.contDeriv = true → ∀ c x, Fits T c x →
    logdet T c x = Real.log (positive o.posFuncType (diagD b.eff D ts c (coords x)))

/-- What is promised about the derivatives of a map built from the options with orders up to `p`, of order up to `q` in the variables with respect to
which it is monotone. The second derivatives of a basis extended beyond finite bounds do not exist at the bounds, unless the order
is at most 1. -/
structure Contracts (o : MapOptions) (p q : Nat) (T : CMap) : Prop where
  logDetGradients : o.contDeriv = true → (Bounded o → p ≤ 1) → DifferentiatesLogDet T
  gradients : o.quadType = .clenshawCurtis ∨ q ≤ 1 → o.nugget = 0 → (Bounded o → p ≤ 1) → Differentiates T
  jacobian : q ≤ 1 → o.contDeriv = true → o.nugget = 0 → (Bounded o → p ≤ 1) → LogDetIsJacobian T

/-- `ts` lists the multi-indices of `n` variables of total order at most `p`, in lexicographical order. -/
def IsTotalOrder (n p : Nat) (ts : List (List Nat)) : Prop :=
  ts.Pairwise (· < ·) ∧ ∀ v : List Nat, v ∈ ts ↔ v.length = n ∧ v.sum ≤ p

/-- The function object `T` is the expansion with `m` outputs in the basis `b` over the multi-indices `ts` in `D` variables: output `o` is
`Σ_k c_{o,k} Π_d b_{ts_k(d)}(x_d)`, the coefficients of output `o` being the entries `o n, …, o n + n - 1` of `c`, `n` the number of terms. -/
structure IsExpansion (b : Basis ℝ) (m D : Nat) (ts : List (List Nat)) (T : CMap) : Prop where
  inputs : T.inputDim = D
  outputs : T.outputDim = m
  coeffs : T.numCoeffs = ts.length * m
  evaluates : Evaluates T
  value : ∀ c x, Fits T c x → fn T c x = (List.range m).map fun o =>
    expandAt b.eff D ts ((c.drop (o * ts.length)).take ts.length) (coords x)
  gradients : Differentiates T

end MParT.Spec
