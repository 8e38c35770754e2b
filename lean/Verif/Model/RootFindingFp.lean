import Verif.Model.InverseBatch
/-!
# Model of the root finder over an arbitrary arithmetic

Source: `MParT/Utilities/RootFinding.h`, `MParT/MonotoneComponent.h` 407–437.

`Model/RootFinding.lean` computes with exact real numbers. Here the arithmetic is an argument, about which nothing is assumed: it may round
in any way, overflow, and have values such as NaN that are neither smaller nor larger than any other. The points at which the function is
called are recorded, in order. `numArith` is one such arithmetic: the real numbers and NaN.

Simplifications
* the functor is a pure function;
* `numArith` is exact and has NaN where `double` has an infinity (division by zero, logarithm of zero).
-/
namespace MParT.RootFinding.Fp

/-- The operations on `double` that RootFinding.h uses. `lt a b` is the outcome of `a < b`, and of `b > a`; `num` are the literals in the
program and the conversion of integers; `nan` is `std::numeric_limits<double>::quiet_NaN()` (RootFinding.h 134). -/
structure Arith (F : Type) where
  add : F → F → F
  sub : F → F → F
  mul : F → F → F
  div : F → F → F
  fmin : F → F → F
  pow : F → F → F
  abs : F → F
  log2 : F → F
  ceil : F → F
  lt : F → F → Bool
  num : ℚ → F
  nan : F

/-- The reference arguments of `FindBracket` on return. RootFinding.h 21–25. -/
structure Bracket (F : Type) where
  xlb : F
  ylb : F
  xub : F
  yub : F
  info : Int

variable {F : Type}

/-- The flatness test, RootFinding.h 46 and 72. -/
def flat (A : Arith F) (xlb ylb xub yub : F) : Bool :=
  A.lt (A.abs (A.div (A.sub yub ylb) (A.sub xub xlb))) (A.num 1e-12) && A.lt (A.num 10) (A.sub xub xlb)

/-- Search for a lower bound, RootFinding.h 41–61, with the remaining number of iterations; and the points of the calls. -/
def downLoop (A : Arith F) (f : F → F) (yd xlb ylb xub yub stepSize : F) : Nat → Bracket F × List F
  | 0 => (⟨xlb, ylb, xub, yub, -2⟩, [])
  | n + 1 =>
    let xlb := A.sub xub stepSize
    let ylb := f xlb
    if flat A xlb ylb xub yub then (⟨xlb, ylb, xub, yub, -1⟩, [xlb])
    else if A.lt yd ylb then
      let r := downLoop A f yd xlb ylb xlb ylb (A.mul stepSize (A.num 2)) n
      (r.1, xlb :: r.2)
    else (⟨xlb, ylb, xub, yub, 0⟩, [xlb])

/-- Search for an upper bound, RootFinding.h 66–88, with the remaining number of iterations; and the points of the calls. -/
def upLoop (A : Arith F) (f : F → F) (yd xlb ylb xub yub stepSize : F) : Nat → Bracket F × List F
  | 0 => (⟨xlb, ylb, xub, yub, -2⟩, [])
  | n + 1 =>
    let xub := A.add xlb stepSize
    let yub := f xub
    if flat A xlb ylb xub yub then (⟨xlb, ylb, xub, yub, -1⟩, [xub])
    else if A.lt yub yd then
      let r := upLoop A f yd xub yub xub yub (A.mul stepSize (A.num 2)) n
      (r.1, xub :: r.2)
    else (⟨xlb, ylb, xub, yub, 0⟩, [xub])

/-- `FindBracket(f, xlb, ylb, xub, yub, yd, info)`, RootFinding.h 20–90; and the points of the calls. -/
def findBracket (A : Arith F) (f : F → F) (xlb xub yd : F) : Bracket F × List F :=
  let ylb := f xlb
  let yub := f xub
  let r := if A.lt yd ylb then downLoop A f yd xub yub xlb ylb (A.num 1) 128 else upLoop A f yd xlb ylb xub yub (A.num 1) 128
  (r.1, xlb :: xub :: r.2)

/-- `Find_x_ITP`, RootFinding.h 92–106. -/
def findXItp (A : Arith F) (xlb xub _yd ylb yub k1 k2 nhalf n0 : F) (it : Nat) (xtol : F) : F :=
  let xb := A.mul (A.num 0.5) (A.add xub xlb)
  let xf := A.div (A.sub (A.mul xub ylb) (A.mul xlb yub)) (A.sub ylb yub)
  let sigma := if A.lt (A.num 0) (A.sub xb xf) then A.num 1 else A.num (-1)
  let delta := A.fmin (A.mul k1 (A.pow (A.sub xub xlb) k2)) (A.abs (A.sub xb xf))
  let xf := A.add xf (A.mul delta sigma)
  let rho := A.fmin (A.sub (A.mul xtol (A.pow (A.num 2) (A.sub (A.add nhalf n0) (A.num it)))) (A.mul (A.num 0.5) (A.sub xub xlb)))
    (A.abs (A.sub xf xb))
  A.sub xb (A.mul sigma rho)

/-- How the bracketed search ends: `return xc`, or leaving the loop with the final bracket and value of `it`. RootFinding.h 151, 163–166. -/
inductive Search (F : Type) where
  | early (xc : F)
  | done (xlb xub : F) (it : Nat)

/-- The `for` loop of `InverseSingleBracket`, RootFinding.h 143–160, from iteration `it` with the remaining number of iterations; and the
points of the calls. -/
def search (A : Arith F) (f : F → F) (yd xtol ftol nhalf : F) (xlb ylb xub yub : F) (it : Nat) : Nat → Search F × List F
  | 0 => (.done xlb xub it, [])
  | n + 1 =>
    let xc := findXItp A xlb xub yd ylb yub (A.num 0.1) (A.num 2) nhalf (A.num 1) it xtol
    let yc := f xc
    if A.lt (A.abs (A.sub yc yd)) ftol then (.early xc, [xc])
    else if A.lt yd yc then
      if A.lt (A.sub xc xlb) xtol || A.lt (A.sub yc ylb) ftol then (.done xlb xc it, [xc])
      else
        let r := search A f yd xtol ftol nhalf xlb ylb xc yc (it + 1) n
        (r.1, xc :: r.2)
    else
      if A.lt (A.sub xub xc) xtol || A.lt (A.sub yub yc) ftol then (.done xc xub it, [xc])
      else
        let r := search A f yd xtol ftol nhalf xc yc xub yub (it + 1) n
        (r.1, xc :: r.2)

/-- `nhalf`, RootFinding.h 140. -/
def nhalf (A : Arith F) (xlb xub xtol : F) : F := A.ceil (A.log2 (A.div (A.mul (A.num 0.5) (A.sub xub xlb)) xtol))

/-- What follows the loop, RootFinding.h 150–151 and 163–166. -/
def finish (A : Arith F) : Search F → F × Int
  | .early xc => (xc, 0)
  | .done xlb xub it => (A.mul (A.num 0.5) (A.add xub xlb), if it > 10000 then -1 else 0)

/-- What a call leaves behind: the returned value, `info`, and the points at which the function was called. RootFinding.h 113–167. -/
structure Outcome (F : Type) where
  value : F
  info : Int
  calls : List F

/-- `InverseSingleBracket(yd, f, x0, xtol, ftol, info)`, RootFinding.h 113–167. -/
def inverseSingleBracket (A : Arith F) (yd : F) (f : F → F) (x0 xtol ftol : F) : Outcome F :=
  let r := findBracket A f x0 x0 yd
  let b := r.1
  if b.info < 0 || (A.lt yd b.ylb || A.lt b.yub yd) then ⟨A.nan, -2, x0 :: r.2⟩
  else
    let s := search A f yd xtol ftol (nhalf A b.xlb b.xub xtol) b.xlb b.ylb b.xub b.yub 0 10000
    ⟨(finish A s.1).1, (finish A s.1).2, x0 :: r.2 ++ s.2⟩

/-- An operation on numbers extended to NaN (`none`): NaN if one of the arguments is NaN. (RootFinding.h 20–166, every use of `double`.) -/
def lift2 (op : ℝ → ℝ → Option ℝ) (a b : Option ℝ) : Option ℝ := a.bind fun x => b.bind fun y => op x y

open Classical in
/-- The real numbers and NaN (`none`), as in IEEE 754: an operation on NaN gives NaN, except that `fmin` returns the other argument;
comparisons with NaN are false. Used for `double` in RootFinding.h 20–166. -/
noncomputable def numArith : Arith (Option ℝ) where
  add := lift2 fun x y => some (x + y)
  sub := lift2 fun x y => some (x - y)
  mul := lift2 fun x y => some (x * y)
  div := lift2 fun x y => if y = 0 then none else some (x / y)
  fmin
    | none, b => b
    | a, none => a
    | some x, some y => some (min x y)
  pow := lift2 fun x y => if 0 < x then some (x ^ y) else none
  abs := Option.map abs
  log2 := fun a => a.bind fun x => if 0 < x then some (Real.logb 2 x) else none
  ceil := Option.map fun x => ((⌈x⌉ : ℤ) : ℝ)
  lt
    | some x, some y => decide (x < y)
    | _, _ => false
  num := fun q => some (q : ℝ)
  nan := none

end MParT.RootFinding.Fp

namespace MParT.MonotoneComponent
open Worker

/-- The work of `InverseImpl` for one point, MonotoneComponent.h 409–436, with a target that may be NaN (`none`). Simplification: the
coefficients and tolerances are numbers; every call of the evaluator starts from the cache left by `FillCache1` (as in `inversePt`). -/
noncomputable def inverseColumnNaN (c : MonotoneComponent) (scratch : Cache ℝ) (coeffs : List ℝ) (xtol ytol : ℝ)
    (xs : List (List (Option ℝ))) (ptInd : Nat) (y : Option ℝ) : Res (Option ℝ) := do
  let xInd := if xs.length = 1 then 0 else ptInd
  let pt ← Res.idx xs xInd
  if pt.any Option.isNone then return none
  else
    let pt := pt.map fun v => v.getD 0
    let cache ← fillCache1 c.w c.b scratch pt .none
    let x0 ← Res.idx pt (pt.length - 1)
    return (RootFinding.Fp.inverseSingleBracket RootFinding.Fp.numArith y (Option.map (c.singleEvaluator cache pt coeffs)) (some x0)
      (some xtol) (some ytol)).value

end MParT.MonotoneComponent
