import Verif.Model.Quadrature
/-!
# Control flow of the adaptive quadrature rules, whatever the comparisons say

Source: `MParT/Quadrature.h` 551–674 (`AdaptiveSimpson`) and 817–966 (`AdaptiveClenshawCurtis`), which have the same loop.

`Model/Quadrature.lean` computes with exact real numbers. Here no arithmetic is left: the outcome of each test `error<errorTol` is an
argument, and so is that of `std::abs(ub-lb)<1e-14`. Every rounding, overflow and NaN is one such choice of outcomes. What remains are
the variables that decide which segment is worked on next. The segments are recorded.
-/
namespace MParT.Recursive

/-- A segment the loop has worked on: `currLevel` and `currSegment` during the iteration, and whether it was accepted. Quadrature.h 562–563, 627. -/
structure Visit where
  level : Nat
  seg : BitVec 32
  accepted : Bool

/-- The test of Quadrature.h 627 and 917, from the outcomes of its two comparisons of numbers; `maxSub_-1` wraps around at 0. -/
def acceptAny (maxSub minSub : Nat) (tiny small : Bool) (level : Nat) : Bool :=
  ((small || level == (maxSub + (2 ^ 32 - 1)) % 2 ^ 32) && minSub ≤ level) || tiny

/-- The `while(true)` loop, Quadrature.h 596–673 and 859–964, run for at most the given number of iterations; `none`: it has not stopped by then.
`small k` is the outcome of `error<errorTol` in iteration `k` from now. -/
def control (maxSub minSub : Nat) (tiny : Bool) : Nat → (Nat → Bool) → Nat → BitVec 32 → Res (Option (List Visit))
  | 0, _, _, _ => .ok none
  | fuel + 1, small, level, seg =>
    if acceptAny maxSub minSub tiny (small 0) level then do
      let (seg', level') ← backtrack seg level
      if level' = 0 then return some [⟨level, seg, true⟩]
      else if 32 ≤ level' then Res.ub
      else
        let r ← control maxSub minSub tiny fuel (fun k => small (k + 1)) level' (seg' ||| (1#32 <<< level'))
        return r.map (⟨level, seg, true⟩ :: ·)
    else do
      let r ← control maxSub minSub tiny fuel (fun k => small (k + 1)) (level + 1) seg
      return r.map (⟨level, seg, false⟩ :: ·)

/-- The number of calls of the integrand by `AdaptiveSimpson`, Quadrature.h 569–575 and 611–614: three before the loop, two in each iteration. -/
def simpsonCalls (vs : List Visit) : Nat := 3 + 2 * vs.length

end MParT.Recursive
