import Verif.Model.Serialization
import Verif.Model.MultiIndex
/-!
# Model of the comparison of option objects

A `double` is its 64-bit pattern (IEEE binary64).
-/
namespace MParT
namespace Ser

/-- Exponent all ones and a nonzero fraction. Doubles of MapOptions.h 53–100. -/
def isNaN (x : Dbl) : Bool := x.toNat % 2 ^ 63 > 0x7FF0000000000000

/-- All bits but the sign are zero. Doubles of MapOptions.h 53–100. -/
def isZero (x : Dbl) : Bool := x.toNat % 2 ^ 63 == 0

/-- `==` of two doubles. MapOptions.h 110–126. -/
def dblEq (x y : Dbl) : Bool := !isNaN x && !isNaN y && (x == y || (isZero x && isZero y))

/-- `bool MapOptions::operator==(MapOptions) const`, MapOptions.h 110–126. -/
def Options.eq (a b : Options) : Bool := Id.run do
  let mut ret := true
  ret := ret && a.basisType == b.basisType
  ret := ret && dblEq a.basisLB b.basisLB
  ret := ret && dblEq a.basisUB b.basisUB
  ret := ret && a.posFuncType == b.posFuncType
  ret := ret && a.quadType == b.quadType
  ret := ret && dblEq a.quadAbsTol b.quadAbsTol
  ret := ret && dblEq a.quadRelTol b.quadRelTol
  ret := ret && a.quadMaxSub == b.quadMaxSub
  ret := ret && a.quadMinSub == b.quadMinSub
  ret := ret && a.quadPts == b.quadPts
  ret := ret && a.contDeriv == b.contDeriv
  ret := ret && a.basisNorm == b.basisNorm
  ret := ret && dblEq a.nugget b.nugget
  return ret

/-- `struct ATMOptions : MapOptions, TrainOptions`, TrainMapAdaptive.h 19–25, without the options of the optimiser. -/
structure ATMOptions extends Options where
  maxPatience : UInt32
  maxSize : UInt32
  maxDegrees : MultiIndex

/-- `a == b` for adaptive options: the only comparison is that of the base class, which takes its argument by value, so that it is
converted to `MapOptions`. TrainMapAdaptive.h 19, MapOptions.h 110. -/
def ATMOptions.eq (a b : ATMOptions) : Bool := a.toOptions.eq b.toOptions

end Ser
end MParT
