import Mathlib.Analysis.SpecialFunctions.Log.Base
import Mathlib.Analysis.SpecialFunctions.Pow.Real
/-!
# Model of the one-dimensional root finder

Source: `MParT/Utilities/RootFinding.h`. `double` arithmetic is exact real arithmetic; the functor is a pure function. A NaN
result is `none`. Division by zero (`ylb = yub` in the regula-falsi point) has the value 0 here; no theorem relies on it.
-/
namespace MParT.RootFinding
open Classical

/-- The reference arguments of `FindBracket` on return. RootFinding.h 21–25. -/
structure Bracket where
  xlb : ℝ
  ylb : ℝ
  xub : ℝ
  yub : ℝ
  info : Int

/-- The flatness test, RootFinding.h 46 and 72. -/
def flat (xlb ylb xub yub : ℝ) : Prop := |(yub - ylb) / (xub - xlb)| < 1e-12 ∧ xub - xlb > 10

/-- Search for a lower bound, RootFinding.h 41–61, with the remaining number of iterations. -/
noncomputable def downLoop (f : ℝ → ℝ) (yd xlb ylb xub yub stepSize : ℝ) : Nat → Bracket
  | 0 => ⟨xlb, ylb, xub, yub, -2⟩
  | n + 1 =>
    let xlb := xub - stepSize
    let ylb := f xlb
    if flat xlb ylb xub yub then ⟨xlb, ylb, xub, yub, -1⟩
    else if ylb > yd then downLoop f yd xlb ylb xlb ylb (stepSize * 2) n
    else ⟨xlb, ylb, xub, yub, 0⟩

/-- Search for an upper bound, RootFinding.h 66–88, with the remaining number of iterations. -/
noncomputable def upLoop (f : ℝ → ℝ) (yd xlb ylb xub yub stepSize : ℝ) : Nat → Bracket
  | 0 => ⟨xlb, ylb, xub, yub, -2⟩
  | n + 1 =>
    let xub := xlb + stepSize
    let yub := f xub
    if flat xlb ylb xub yub then ⟨xlb, ylb, xub, yub, -1⟩
    else if yub < yd then upLoop f yd xub yub xub yub (stepSize * 2) n
    else ⟨xlb, ylb, xub, yub, 0⟩

/-- `FindBracket(f, xlb, ylb, xub, yub, yd, info)`, RootFinding.h 20–90. -/
noncomputable def findBracket (f : ℝ → ℝ) (xlb xub yd : ℝ) : Bracket :=
  let ylb := f xlb
  let yub := f xub
  if ylb > yd then downLoop f yd xub yub xlb ylb 1 128
  else upLoop f yd xlb ylb xub yub 1 128

/-- `Find_x_ITP`, RootFinding.h 92–106. The regula-falsi point ignores `yd`. -/
noncomputable def findXItp (xlb xub _yd ylb yub k1 k2 nhalf n0 : ℝ) (it : Nat) (xtol : ℝ) : ℝ :=
  let xb := 0.5 * (xub + xlb)
  let xf := (xub * ylb - xlb * yub) / (ylb - yub)
  let sigma : ℝ := if xb - xf > 0 then 1 else -1
  let delta := min (k1 * (xub - xlb) ^ k2) |xb - xf|
  let xf := xf + delta * sigma
  let rho := min (xtol * (2 : ℝ) ^ (nhalf + n0 - it) - 0.5 * (xub - xlb)) |xf - xb|
  xb - sigma * rho

/-- How the bracketed search ends: `return xc`, or leaving the loop with the final bracket and value of `it`. RootFinding.h 151, 163–166. -/
inductive Search where
  | early (xc : ℝ)
  | done (xlb xub : ℝ) (it : Nat)

/-- The `for` loop of `InverseSingleBracket`, RootFinding.h 143–160, from iteration `it` with the remaining number of
iterations. -/
noncomputable def search (f : ℝ → ℝ) (yd xtol ftol nhalf : ℝ) (xlb ylb xub yub : ℝ) (it : Nat) : Nat → Search
  | 0 => .done xlb xub it
  | n + 1 =>
    let xc := findXItp xlb xub yd ylb yub 0.1 2 nhalf 1 it xtol
    let yc := f xc
    if |yc - yd| < ftol then .early xc
    else if yc > yd then
      if xc - xlb < xtol ∨ yc - ylb < ftol then .done xlb xc it
      else search f yd xtol ftol nhalf xlb ylb xc yc (it + 1) n
    else
      if xub - xc < xtol ∨ yub - yc < ftol then .done xc xub it
      else search f yd xtol ftol nhalf xc yc xub yub (it + 1) n

/-- `nhalf`, RootFinding.h 140. -/
noncomputable def nhalf (xlb xub xtol : ℝ) : ℤ := ⌈Real.logb 2 (0.5 * (xub - xlb) / xtol)⌉

/-- What follows the loop, RootFinding.h 150–151 and 163–166. -/
noncomputable def finish : Search → Option ℝ × Int
  | .early xc => (some xc, 0)
  | .done xlb xub it => (some (0.5 * (xub + xlb)), if it > 10000 then -1 else 0)

/-- `InverseSingleBracket(yd, f, x0, xtol, ftol, info)`, RootFinding.h 113–167: returned value (`none`: NaN) and `info`. -/
noncomputable def inverseSingleBracket (yd : ℝ) (f : ℝ → ℝ) (x0 xtol ftol : ℝ) : Option ℝ × Int :=
  let b := findBracket f x0 x0 yd
  if b.info < 0 ∨ (b.ylb > yd ∨ b.yub < yd) then (none, -2)
  else finish (search f yd xtol ftol (nhalf b.xlb b.xub xtol) b.xlb b.ylb b.xub b.yub 0 10000)

end MParT.RootFinding
