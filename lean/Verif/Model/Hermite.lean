import Verif.Model.OrthoPoly
import Mathlib.Analysis.SpecialFunctions.Pow.Real
import Mathlib.Analysis.SpecialFunctions.Sqrt
import Mathlib.Analysis.Real.Pi.Bounds
/-!
# Model of the Hermite mixers, `HermiteFunction` and `LinearizedBasis`

Source: `MParT/OrthogonalPolynomial.h` 294–325, `MParT/Utilities/MathFunctions.h`,
`MParT/HermiteFunction.h`, `MParT/LinearizedBasis.h`.
-/
namespace MParT
open Real

/-- Loop of `Factorial` in 32-bit unsigned arithmetic, MathFunctions.h 12–14. -/
def factorialLoop (out : Nat) (i : Nat) : Nat → Nat
  | 0 => out
  | n + 1 => factorialLoop (out * i % 2 ^ 32) (i + 1) n

/-- `unsigned int Factorial(unsigned int d)`, MathFunctions.h 10–16 (`d + 1 < 2^32`). -/
def factorial32 (d : Nat) : Nat := factorialLoop 1 2 (d - 1)

/-- `ProbabilistHermiteMixer`, OrthogonalPolynomial.h 294–307. -/
noncomputable def probabilistMixer : Mixer ℝ where
  ak := fun _ => 1
  bk := fun _ => 0
  ck := fun k => (k : ℝ) - 1
  phi0 := fun _ => 1
  phi1 := fun x => x
  phi1Deriv := fun _ => 1
  normalization := fun n => √(√(2 * π) * factorial32 n)

/-- `PhysicistHermiteMixer`, OrthogonalPolynomial.h 312–325. -/
noncomputable def physicistMixer : Mixer ℝ where
  ak := fun _ => 2
  bk := fun _ => 0
  ck := fun k => 2 * ((k : ℝ) - 1)
  phi0 := fun _ => 1
  phi1 := fun x => 2 * x
  phi1Deriv := fun _ => 2
  normalization := fun n => √(√π * (2 : ℝ) ^ (n : ℝ) * factorial32 n)

/-- `ProbabilistHermite(normalize)`, OrthogonalPolynomial.h 22, 309. -/
noncomputable def probabilistHermite (normalize : Bool) : OrthoPoly ℝ := ⟨probabilistMixer, normalize⟩

/-- `PhysicistHermite(normalize)`, OrthogonalPolynomial.h 22, 327. -/
noncomputable def physicistHermite (normalize : Bool) : OrthoPoly ℝ := ⟨physicistMixer, normalize⟩

/-- The members every one-dimensional basis offers to the rest of the library. OrthogonalPolynomial.h 25–278. -/
structure Basis1d where
  evaluateAll : List ℝ → Nat → ℝ → Res (List ℝ)
  evaluateDerivatives : List ℝ → List ℝ → Nat → ℝ → Res (List ℝ × List ℝ)
  evaluateSecondDerivatives : List ℝ → List ℝ → List ℝ → Nat → ℝ → Res (List ℝ × List ℝ × List ℝ)
  evaluate : Nat → ℝ → ℝ
  derivative : Nat → ℝ → ℝ
  secondDerivative : Nat → ℝ → ℝ

/-- `OrthogonalPolynomial<Mixer>` as a basis. OrthogonalPolynomial.h 25–278. -/
noncomputable def OrthoPoly.toBasis (p : OrthoPoly ℝ) : Basis1d where
  evaluateAll := p.evaluateAll
  evaluateDerivatives := p.evaluateDerivatives
  evaluateSecondDerivatives := p.evaluateSecondDerivatives
  evaluate := p.evaluate
  derivative := p.derivative
  secondDerivative := p.secondDerivative

namespace HermiteFunction

/-- Loop of `EvaluateAll` over `i..i+n-1`, HermiteFunction.h 38–39. -/
noncomputable def allLoop (x : ℝ) (out : List ℝ) (i : Nat) : Nat → Res (List ℝ)
  | 0 => .ok out
  | n + 1 => do
    let v1 ← Res.idx out (i + 1)
    let v0 ← Res.idx out i
    let out' ← Res.setIdx out (i + 2)
      ((x * v1 - √(0.5 * ((i - 1 : Nat) : ℝ)) * v0) / √(0.5 * (i : ℝ)))
    allLoop x out' (i + 1) n

/-- `HermiteFunction::EvaluateAll`, HermiteFunction.h 22–43. -/
noncomputable def evaluateAll (output : List ℝ) (maxOrder : Nat) (x : ℝ) : Res (List ℝ) := do
  let o ← Res.setIdx output 0 1
  if maxOrder > 0 then
    let o ← Res.setIdx o 1 x
    if maxOrder > 1 then
      let o ← Res.setIdx o 2 (π ^ (-0.25 : ℝ) * exp (-0.5 * x * x))
      if maxOrder > 2 then
        let v2 ← Res.idx o 2
        let o ← Res.setIdx o 3 (√2 * x * v2)
        allLoop x o 2 (maxOrder - 3)
      else .ok o
    else .ok o
  else .ok o

/-- `derivs[i+2] -= x*vals[i+2]; derivs[i+2] *= scale; vals[i+2] *= scale;`,
HermiteFunction.h 66–69 and 73–76. -/
noncomputable def rescale (x scale : ℝ) (vals derivs : List ℝ) (k : Nat) : Res (List ℝ × List ℝ) := do
  let d ← Res.idx derivs k
  let v ← Res.idx vals k
  let derivs ← Res.setIdx derivs k (d - x * v)
  let d ← Res.idx derivs k
  let derivs ← Res.setIdx derivs k (d * scale)
  let v ← Res.idx vals k
  let vals ← Res.setIdx vals k (v * scale)
  return (vals, derivs)

/-- Loop of `EvaluateDerivatives` over `i..i+n-1`, HermiteFunction.h 71–77. -/
noncomputable def scaleLoop (x baseScaling : ℝ) (currFactorial : ℝ) (vals derivs : List ℝ) (i : Nat) :
    Nat → Res (List ℝ × List ℝ)
  | 0 => .ok (vals, derivs)
  | n + 1 => do
    let currFactorial := currFactorial * i
    let scale := baseScaling * (((2 : ℝ) ^ (i : ℝ) * currFactorial) ^ (-0.5 : ℝ))
    let r ← rescale x scale vals derivs (i + 2)
    scaleLoop x baseScaling currFactorial r.1 r.2 (i + 1) n

/-- `HermiteFunction::EvaluateDerivatives`, HermiteFunction.h 45–80; `&vals[2]` is the list from entry 2
on. -/
noncomputable def evaluateDerivatives (vals derivs : List ℝ) (maxOrder : Nat) (x : ℝ) :
    Res (List ℝ × List ℝ) := do
  let vals ← Res.setIdx vals 0 1
  let derivs ← Res.setIdx derivs 0 0
  if maxOrder > 0 then
    let vals ← Res.setIdx vals 1 x
    let derivs ← Res.setIdx derivs 1 1
    if maxOrder > 1 then
      let r ← (physicistHermite false).evaluateDerivatives (vals.drop 2) (derivs.drop 2) (maxOrder - 2) x
      let vals := vals.take 2 ++ r.1
      let derivs := derivs.take 2 ++ r.2
      let baseScaling := π ^ (-0.25 : ℝ) * exp (-0.5 * x * x)
      let r ← rescale x baseScaling vals derivs 2
      scaleLoop x baseScaling 1 r.1 r.2 1 (maxOrder - 2)
    else .ok (vals, derivs)
  else .ok (vals, derivs)

/-- Loop of `EvaluateSecondDerivatives`, HermiteFunction.h 100–101. -/
noncomputable def secondLoop (x : ℝ) (vals derivs2 : List ℝ) (i : Nat) : Nat → Res (List ℝ)
  | 0 => .ok derivs2
  | n + 1 => do
    let v ← Res.idx vals (i + 2)
    let derivs2 ← Res.setIdx derivs2 (i + 2) (-(2 * (i : ℝ) + 1 - x * x) * v)
    secondLoop x vals derivs2 (i + 1) n

/-- `HermiteFunction::EvaluateSecondDerivatives`, HermiteFunction.h 83–104. -/
noncomputable def evaluateSecondDerivatives (vals derivs derivs2 : List ℝ) (maxOrder : Nat) (x : ℝ) :
    Res (List ℝ × List ℝ × List ℝ) := do
  let r ← evaluateDerivatives vals derivs maxOrder x
  let derivs2 ← Res.setIdx derivs2 0 0
  if maxOrder > 0 then
    let derivs2 ← Res.setIdx derivs2 1 0
    if maxOrder > 1 then
      let derivs2 ← secondLoop x r.1 derivs2 0 (maxOrder - 1)
      return (r.1, r.2, derivs2)
    else return (r.1, r.2, derivs2)
  else return (r.1, r.2, derivs2)

/-- `scaling`, HermiteFunction.h 115 and 128. -/
noncomputable def scaling (n : Nat) : ℝ :=
  ((2 : ℝ) ^ (n : ℝ) * factorial32 n * √π) ^ (-0.5 : ℝ)

/-- `HermiteFunction::Evaluate`, HermiteFunction.h 107–118. -/
noncomputable def evaluate (order : Nat) (x : ℝ) : ℝ :=
  if order = 0 then 1
  else if order = 1 then x
  else scaling (order - 2) * exp (-0.5 * x * x) * (physicistHermite false).evaluate (order - 2) x

/-- `HermiteFunction::Derivative`, HermiteFunction.h 120–132. -/
noncomputable def derivative (order : Nat) (x : ℝ) : ℝ :=
  if order = 0 then 0
  else if order = 1 then 1
  else
    let expPart := exp (-0.5 * x * x)
    scaling (order - 2) * (-x * expPart * (physicistHermite false).evaluate (order - 2) x
      + expPart * (physicistHermite false).derivative (order - 2) x)

/-- `HermiteFunction::SecondDerivative`, HermiteFunction.h 134–142. -/
noncomputable def secondDerivative (order : Nat) (x : ℝ) : ℝ :=
  if order < 2 then 0
  else -(2 * (order : ℝ) + 1 - x * x) * evaluate (order - 2) x

/-- `HermiteFunction` as a basis. HermiteFunction.h 22–142. -/
noncomputable def toBasis : Basis1d where
  evaluateAll := evaluateAll
  evaluateDerivatives := evaluateDerivatives
  evaluateSecondDerivatives := evaluateSecondDerivatives
  evaluate := evaluate
  derivative := derivative
  secondDerivative := secondDerivative

end HermiteFunction

namespace LinearizedBasis
open Classical

/-- `output[i] += polyBasis_.Derivative(i,c)*(x-c)` over `i..i+n-1`, LinearizedBasis.h 46–47, 53–54. -/
noncomputable def allLoop (b : Basis1d) (c x : ℝ) (out : List ℝ) (i : Nat) : Nat → Res (List ℝ)
  | 0 => .ok out
  | n + 1 => do
    let v ← Res.idx out i
    let out ← Res.setIdx out i (v + b.derivative i c * (x - c))
    allLoop b c x out (i + 1) n

/-- `LinearizedBasis::EvaluateAll`, LinearizedBasis.h 37–59. -/
noncomputable def evaluateAll (b : Basis1d) (lb ub : ℝ) (output : List ℝ) (maxOrder : Nat) (x : ℝ) :
    Res (List ℝ) := do
  if x < lb then
    let o ← b.evaluateAll output maxOrder lb
    allLoop b lb x o 0 (maxOrder + 1)
  else if x > ub then
    let o ← b.evaluateAll output maxOrder ub
    allLoop b ub x o 0 (maxOrder + 1)
  else b.evaluateAll output maxOrder x

/-- `vals[i] += derivs[i]*(x-c)` over `i..i+n-1`, LinearizedBasis.h 72–73, 81–82. -/
noncomputable def valLoop (c x : ℝ) (vals derivs : List ℝ) (i : Nat) : Nat → Res (List ℝ)
  | 0 => .ok vals
  | n + 1 => do
    let v ← Res.idx vals i
    let d ← Res.idx derivs i
    let vals ← Res.setIdx vals i (v + d * (x - c))
    valLoop c x vals derivs (i + 1) n

/-- `LinearizedBasis::EvaluateDerivatives`, LinearizedBasis.h 61–87. -/
noncomputable def evaluateDerivatives (b : Basis1d) (lb ub : ℝ) (vals derivs : List ℝ) (maxOrder : Nat)
    (x : ℝ) : Res (List ℝ × List ℝ) := do
  if x < lb then
    let r ← b.evaluateDerivatives vals derivs maxOrder lb
    let v ← valLoop lb x r.1 r.2 0 (maxOrder + 1)
    return (v, r.2)
  else if x > ub then
    let r ← b.evaluateDerivatives vals derivs maxOrder ub
    let v ← valLoop ub x r.1 r.2 0 (maxOrder + 1)
    return (v, r.2)
  else b.evaluateDerivatives vals derivs maxOrder x

/-- `derivs2[i] = 0.0` over `i..i+n-1`, LinearizedBasis.h 98–99, 103–104. -/
noncomputable def zeroLoop (a : List ℝ) (i : Nat) : Nat → Res (List ℝ)
  | 0 => .ok a
  | n + 1 => do
    let a ← Res.setIdx a i 0
    zeroLoop a (i + 1) n

/-- `LinearizedBasis::EvaluateSecondDerivatives`, LinearizedBasis.h 90–109. -/
noncomputable def evaluateSecondDerivatives (b : Basis1d) (lb ub : ℝ) (vals derivs derivs2 : List ℝ)
    (maxOrder : Nat) (x : ℝ) : Res (List ℝ × List ℝ × List ℝ) := do
  if x < lb then
    let r ← evaluateDerivatives b lb ub vals derivs maxOrder x
    let s ← zeroLoop derivs2 0 (maxOrder + 1)
    return (r.1, r.2, s)
  else if x > ub then
    let r ← evaluateDerivatives b lb ub vals derivs maxOrder x
    let s ← zeroLoop derivs2 0 (maxOrder + 1)
    return (r.1, r.2, s)
  else b.evaluateSecondDerivatives vals derivs derivs2 maxOrder x

/-- `LinearizedBasis::Evaluate`, LinearizedBasis.h 112–122. -/
noncomputable def evaluate (b : Basis1d) (lb ub : ℝ) (order : Nat) (x : ℝ) : ℝ :=
  if x < lb then b.evaluate order lb + b.derivative order lb * (x - lb)
  else if x > ub then b.evaluate order ub + b.derivative order ub * (x - ub)
  else b.evaluate order x

/-- `LinearizedBasis::Derivative`, LinearizedBasis.h 124–134. -/
noncomputable def derivative (b : Basis1d) (lb ub : ℝ) (order : Nat) (x : ℝ) : ℝ :=
  if x < lb then b.derivative order lb
  else if x > ub then b.derivative order ub
  else b.derivative order x

/-- `LinearizedBasis::SecondDerivative`, LinearizedBasis.h 136–146. -/
noncomputable def secondDerivative (b : Basis1d) (lb ub : ℝ) (order : Nat) (x : ℝ) : ℝ :=
  if x < lb then 0
  else if x > ub then 0
  else b.secondDerivative order x

/-- `LinearizedBasis<OtherBasis>(b, lb, ub)` as a basis. LinearizedBasis.h 37–146. -/
noncomputable def toBasis (b : Basis1d) (lb ub : ℝ) : Basis1d where
  evaluateAll := evaluateAll b lb ub
  evaluateDerivatives := evaluateDerivatives b lb ub
  evaluateSecondDerivatives := evaluateSecondDerivatives b lb ub
  evaluate := evaluate b lb ub
  derivative := derivative b lb ub
  secondDerivative := secondDerivative b lb ub

/-- `LinearizedBasis<OtherBasis>(b, lb, ub)` with `lb = -infinity` or `ub = +infinity` (`none`) allowed: no `x` is beyond an infinite
bound, just as no `x` is beyond `x`, so that a call at `x` does what it does with the bound `x` instead. LinearizedBasis.h 37–146, MapOptions.h 53–54. -/
noncomputable def ofBounds (b : Basis1d) (lb ub : Option ℝ) : Basis1d where
  evaluateAll output maxOrder x := evaluateAll b (lb.getD x) (ub.getD x) output maxOrder x
  evaluateDerivatives vals derivs maxOrder x := evaluateDerivatives b (lb.getD x) (ub.getD x) vals derivs maxOrder x
  evaluateSecondDerivatives vals derivs derivs2 maxOrder x :=
    evaluateSecondDerivatives b (lb.getD x) (ub.getD x) vals derivs derivs2 maxOrder x
  evaluate order x := evaluate b (lb.getD x) (ub.getD x) order x
  derivative order x := derivative b (lb.getD x) (ub.getD x) order x
  secondDerivative order x := secondDerivative b (lb.getD x) (ub.getD x) order x

end LinearizedBasis
end MParT
