import Verif.Model.Hermite
import Mathlib.RingTheory.Polynomial.Hermite.Basic
import Mathlib.Algebra.Polynomial.AlgebraMap
import Mathlib.Analysis.Calculus.Deriv.Mul
import Mathlib.Analysis.Calculus.Deriv.Add
/-!
# Specification of one-dimensional bases
-/
namespace MParT.Spec

section
variable {K : Type} [Field K]

/-- `p_0 = φ0`, `p_1 = φ1`, `p_k = (a_k x + b_k) p_{k-1} - c_k p_{k-2}`. -/
def recurrence (m : Mixer K) (x : K) : Nat → K
  | 0 => m.phi0 x
  | 1 => m.phi1 x
  | n + 2 => (m.ak (n + 2) * x + m.bk (n + 2)) * recurrence m x (n + 1) - m.ck (n + 2) * recurrence m x n

/-- The polynomial of order `n`, divided by its normalisation if requested. -/
def polyVal (p : OrthoPoly K) (n : Nat) (x : K) : K :=
  recurrence p.toMixer x n / (if p.normalize then p.normalization n else 1)

/-- The buffer holds `f 0, …, f n` and is otherwise as `old`. -/
def Filled (new old : List K) (n : Nat) (f : Nat → K) : Prop :=
  new.length = old.length ∧ (∀ k, k ≤ n → new[k]? = some (f k)) ∧ ∀ k, n < k → new[k]? = old[k]?
end

/-- What a mixer must provide for the derivative routines: `φ0` is constant, `phi1_deriv` is the
derivative of `φ1`, and `φ1` is affine. -/
structure SmoothMixer (m : Mixer ℝ) : Prop where
  phi0 : ∀ x, HasDerivAt m.phi0 0 x
  phi1 : ∀ x, HasDerivAt m.phi1 (m.phi1Deriv x) x
  phi1Deriv : ∀ x, HasDerivAt m.phi1Deriv 0 x

/-- The routine fills exactly the entries `0..n` of every sufficiently long buffer with `F k x`. -/
def FillsVal (b : Basis1d) (F : Nat → ℝ → ℝ) : Prop :=
  ∀ (out : List ℝ) (n : Nat) (x : ℝ), n < out.length →
    ∃ o, b.evaluateAll out n x = .ok o ∧ Filled o out n (F · x)

/-- Likewise for the routine returning values and derivatives. -/
def FillsDeriv (b : Basis1d) (F F1 : Nat → ℝ → ℝ) : Prop :=
  ∀ (vals derivs : List ℝ) (n : Nat) (x : ℝ), n < vals.length → n < derivs.length →
    ∃ v d, b.evaluateDerivatives vals derivs n x = .ok (v, d) ∧
      Filled v vals n (F · x) ∧ Filled d derivs n (F1 · x)

/-- Likewise for the routine returning values, first and second derivatives. -/
def FillsSecond (b : Basis1d) (F F1 F2 : Nat → ℝ → ℝ) : Prop :=
  ∀ (vals derivs second : List ℝ) (n : Nat) (x : ℝ),
    n < vals.length → n < derivs.length → n < second.length →
    ∃ v d s, b.evaluateSecondDerivatives vals derivs second n x = .ok (v, d, s) ∧
      Filled v vals n (F · x) ∧ Filled d derivs n (F1 · x) ∧ Filled s second n (F2 · x)

/-- The probabilists' Hermite polynomial, from Mathlib. -/
noncomputable def He (n : Nat) (x : ℝ) : ℝ := Polynomial.aeval x (Polynomial.hermite n)

/-- The physicists' Hermite polynomial `H_n(x) = 2^{n/2} He_n(√2 x)`. -/
noncomputable def Hp (n : Nat) (x : ℝ) : ℝ := √2 ^ n * He n (√2 * x)

/-- The basis of Hermite functions used by the library: `1`, `x`, then the orthonormal Hermite functions
`ψ_n(x) = (2^n n! √π)^{-1/2} e^{-x²/2} H_n(x)`. -/
noncomputable def hermiteFn : Nat → ℝ → ℝ
  | 0, _ => 1
  | 1, x => x
  | n + 2, x => Real.exp (-x ^ 2 / 2) * Hp n x / √(2 ^ n * n.factorial * √Real.pi)

/-- Linear extension of `f` outside `[lb, ub]` along its tangents at the two ends. -/
noncomputable def linearize (lb ub : ℝ) (f : ℝ → ℝ) (x : ℝ) : ℝ :=
  if x < lb then f lb + deriv f lb * (x - lb)
  else if ub < x then f ub + deriv f ub * (x - ub)
  else f x

/-- The function which is `f` between the bounds, of which none, one or both may be infinite (`none`), and affine with a continuous
derivative beyond them. -/
noncomputable def extend (lb ub : Option ℝ) (f : ℝ → ℝ) (x : ℝ) : ℝ := linearize (lb.getD x) (ub.getD x) f x

/-- The bounds are in order. -/
def Ordered (lb ub : Option ℝ) : Prop := ∀ l ∈ lb, ∀ u ∈ ub, l < u

end MParT.Spec
