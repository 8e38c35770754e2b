import Verif.Model.MultiIndex
import Mathlib.Algebra.Order.Ring.Rat
/-!
# Model of `mpart::MultiIndexLimiter`

Source: `MParT/MultiIndices/MultiIndexLimiter.h`, `src/MultiIndices/MultiIndexLimiter.cpp`.
A limiter may throw (through `MultiIndex::Get`), so it returns `Res Bool`.
-/
namespace MParT
namespace Limiter

/-- `std::function<bool(MultiIndex const&)>`. `LimiterType`, MultiIndexSet.h 35. -/
abbrev Lim := MultiIndex → Res Bool

/-- `TotalOrder(p)`, MultiIndexLimiter.h 17–28. -/
def totalOrder (p : Nat) : Lim := fun m => .ok (decide (m.sum ≤ p))

/-- A loop `for(i = start; i < start+n; ++i) if(multi.Get(i) != 0) return false;`,
MultiIndexLimiter.cpp 12–16 and 17–20. -/
def zeroLoop (m : MultiIndex) (i : Nat) : Nat → Res Bool
  | 0 => .ok true
  | n + 1 => do
    let x ← m.get i
    if x ≠ 0 then return false else zeroLoop m (i + 1) n

/-- `Dimension(lowerDim, length)`, MultiIndexLimiter.cpp 10–22. -/
def dimension (lowerDim len : Nat) : Lim := fun m => do
  let a ← zeroLoop m 0 lowerDim
  if !a then return false
  zeroLoop m (lowerDim + len) (m.length - (lowerDim + len))

/-- Constructor checks of `Anisotropic`, MultiIndexLimiter.cpp 26–39. Doubles are modelled as
exact rationals. -/
def anisotropicValid (weights : List Rat) (eps : Rat) : Bool :=
  weights.all (fun w => !(decide (w > 1) || decide (w < 0))) && !(decide (eps ≥ 1) || decide (eps ≤ 0))

/-- Product loop of `Anisotropic::operator()`, MultiIndexLimiter.cpp 48–50. -/
def anisoLoop (weights : List Rat) (m : MultiIndex) (prod : Rat) (i : Nat) : Nat → Res Rat
  | 0 => .ok prod
  | n + 1 => do
    let w ← Res.at' weights i
    let x ← m.get i
    anisoLoop weights m (prod * w ^ x) (i + 1) n

/-- `Anisotropic::operator()`, MultiIndexLimiter.cpp 42–53. -/
def anisotropic (weights : List Rat) (eps : Rat) : Lim := fun m =>
  if m.length ≠ weights.length then .ok false
  else do
    let prod ← anisoLoop weights m 1 0 m.length
    return decide (prod ≥ eps)

/-- Loop of `MaxDegree::operator()`, MultiIndexLimiter.cpp 61–64. -/
def maxDegreeLoop (maxDegrees : List Nat) (m : MultiIndex) (i : Nat) : Nat → Res Bool
  | 0 => .ok true
  | n + 1 => do
    let x ← m.get i
    let p ← Res.at' maxDegrees i
    if x > p then return false else maxDegreeLoop maxDegrees m (i + 1) n

/-- `MaxDegree::operator()`, MultiIndexLimiter.cpp 56–66. -/
def maxDegree (maxDegrees : List Nat) : Lim := fun m =>
  if m.length ≠ maxDegrees.length then .ok false
  else maxDegreeLoop maxDegrees m 0 m.length

/-- `None`, MultiIndexLimiter.h 99–102. -/
def none : Lim := fun _ => .ok true

/-- `And`, MultiIndexLimiter.h 109–120 (short-circuit `&&`). -/
def and (a b : Lim) : Lim := fun m => do
  let x ← a m
  if x then b m else return false

/-- `Or`, MultiIndexLimiter.h 128–139 (short-circuit `||`). -/
def or (a b : Lim) : Lim := fun m => do
  let x ← a m
  if x then return true else b m

/-- `Xor`, MultiIndexLimiter.h 147–159 (bitwise `^`, both sides evaluated). -/
def xor (a b : Lim) : Lim := fun m => do
  let x ← a m
  let y ← b m
  return (x ^^ y)

end Limiter
end MParT
