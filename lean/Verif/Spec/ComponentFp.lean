import Verif.Model.ComponentFp
import Verif.Spec.FixedHist
/-!
# Specification: components over an arbitrary arithmetic

Nothing is assumed about the numbers, so that the order of the operations matters: products and sums are computed from left to right.
-/
namespace MParT.Spec.Fp
open MParT.Fp

variable {K : Type}

section
variable [Mul K] [One K] [Add K] [Zero K]

/-- The product of the factors of a multi-index in the coordinates in which its degree is not zero, from the first to the last. -/
def product (φ : Nat → Nat → K) (t : List Nat) : K :=
  ((List.range t.length).filter fun d => t.getD d 0 != 0).foldl (fun a d => a * φ d (t.getD d 0)) 1

/-- The sum of terms times coefficients, from the first to the last. -/
def sum (φ : Nat → Nat → K) (l : List (List Nat × K)) : K := l.foldl (fun a p => a + product φ p.1 * p.2) 0

/-- `f(x_1, …, x_{D-1}, y)`. -/
def value (b : Basis K) (D : Nat) (ts : List (List Nat)) (coeffs pt : List K) (y : K) : K :=
  sum (fun d n => b.val n (if d = D - 1 then y else pt.getD d 0)) (ts.zip coeffs)

/-- `∂_D f(x_1, …, x_{D-1}, y)`: only the terms that depend on the last coordinate contribute. -/
def slope (b : Basis K) (D : Nat) (ts : List (List Nat)) (coeffs pt : List K) (y : K) : K :=
  sum (fun d n => if d = D - 1 then b.d1 n y else b.val n (pt.getD d 0))
    ((ts.zip coeffs).filter fun p => p.1.getD (D - 1) 0 != 0)

end

/-- The result of a quadrature of a function without side effects. -/
def integral (F : K → List K) : Prog K → Res (List K)
  | .done r => .ok r
  | .call t _ k => integral F (k (F t))
  | .bad => .ub

/-- The points at which a quadrature asks for a function without side effects. -/
def nodes (F : K → List K) : Prog K → List K
  | .done _ => []
  | .call t _ k => t :: nodes F (k (F t))
  | .bad => []

/-- The points at which a quadrature calls an integrand in the course of a run, up to the first call that does not return. -/
def visited {σ : Type} (f : σ → K → List K → Res (σ × List K)) : Prog K → σ → List K
  | .done _, _ => []
  | .call t buf k, s =>
    t :: match f s t buf with
      | .ok r => visited f (k r.2) r.1
      | _ => []
  | .bad, _ => []

/-- Every buffer the program hands to the integrand, and its result, have `n` entries. -/
def Shape (n : Nat) : Prog K → Prop
  | .done r => r.length = n
  | .call _ buf k => buf.length = n ∧ ∀ o : List K, o.length = n → Shape n (k o)
  | .bad => True

/-- A component of `D` inputs built from a compressed set with multi-indices `ts` and a quadrature whose results have as many entries as
the integrand. -/
structure Valid (c : Component K) (D : Nat) (ts : List (List Nat)) : Prop where
  fixed : ∃ f, FixedSet.Built f ∧ f.isCompressed = true ∧ f.dim = D ∧ FixedSet.Holds f ts ∧ Worker.ofFixed f = .ok c.w
  pos : 0 < D
  quad : ∀ n, Shape n (c.quad n)

/-- The positive function is infinite at the slope `∂_D f(x_1, …, x_{D-1}, y)`. -/
def Overflows [Add K] [Mul K] [Zero K] [One K] (c : Component K) (D : Nat) (ts : List (List Nat)) (coeffs pt : List K) (y : K) : Prop :=
  c.isInf (c.g.eval (slope c.b D ts coeffs pt y)) = true

/-- The integrand of the component on `[0,1]`: `t ↦ x_D (g(∂_D f(x_1, …, x_{D-1}, t x_D)) + nugget)`. -/
def integrandAt [Add K] [Mul K] [Zero K] [One K] (c : Component K) (D : Nat) (ts : List (List Nat)) (coeffs pt : List K) (xd nugget : K)
    (t : K) : List K := [xd * (c.g.eval (slope c.b D ts coeffs pt (t * xd)) + nugget)]

/-- A quadrature of `Model/MonotoneComponent.lean`. -/
def ofQ : MParT.QProg → Prog ℝ
  | .done r => .done r
  | .call t buf k => .call t buf fun o => ofQ (k o)
  | .bad => .bad

/-- A component of `Model/MonotoneComponent.lean` as one over an arithmetic, the real numbers, in which nothing is infinite. -/
noncomputable def ofM (c : MonotoneComponent) : Component ℝ :=
  ⟨c.w, c.b, ⟨c.g.eval, c.g.deriv, c.g.deriv2⟩, fun n => ofQ (c.quad n), c.useContDeriv, c.nugget, fun _ => false,
    fun x => by classical exact decide (x ≤ 0), Real.log, 0⟩

/-- Numbers that overflow: real numbers of absolute value less than `2^1024`, two infinities and NaN. Rounding is left out. -/
inductive Dbl
  | num (x : ℝ)
  | inf (negative : Bool)
  | nan

namespace Dbl

/-- A real number as a result: an infinity if it is too large. -/
noncomputable def res (x : ℝ) : Dbl := by
  classical exact if 2 ^ 1024 ≤ |x| then inf (decide (x < 0)) else num x

/-- Sum as in IEEE 754. -/
noncomputable def add : Dbl → Dbl → Dbl
  | num x, num y => res (x + y)
  | nan, _ => nan
  | _, nan => nan
  | inf a, inf b => if a = b then inf a else nan
  | inf a, num _ => inf a
  | num _, inf b => inf b

/-- Product as in IEEE 754. -/
noncomputable def mul : Dbl → Dbl → Dbl
  | num x, num y => res (x * y)
  | nan, _ => nan
  | _, nan => nan
  | inf a, inf b => inf (a != b)
  | inf a, num y => by classical exact if y = 0 then nan else inf (a != decide (y < 0))
  | num x, inf b => by classical exact if x = 0 then nan else inf (decide (x < 0) != b)

noncomputable instance : Add Dbl := ⟨add⟩
noncomputable instance : Mul Dbl := ⟨mul⟩
noncomputable instance : Zero Dbl := ⟨num 0⟩
noncomputable instance : One Dbl := ⟨num 1⟩

/-- `std::isinf`. -/
def isInf : Dbl → Bool
  | inf _ => true
  | _ => false

/-- `x <= 0`. -/
noncomputable def nonpos : Dbl → Bool
  | num x => by classical exact decide (x ≤ 0)
  | inf a => a
  | nan => false

/-- `std::exp`. -/
noncomputable def exp : Dbl → Dbl
  | num x => res (Real.exp x)
  | inf a => if a then num 0 else inf false
  | nan => nan

/-- `std::log`. -/
noncomputable def log : Dbl → Dbl
  | num x => by classical exact if x = 0 then inf true else if x < 0 then nan else num (Real.log x)
  | inf a => if a then nan else inf false
  | nan => nan

end Dbl

end MParT.Spec.Fp
