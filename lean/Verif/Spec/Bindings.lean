import Verif.Model.Bindings
/-!
# Specification: what a user of a language binding relies on

The numbers of the kinds are the positions of the enumerators in MapOptions.h 10–28.
-/
namespace MParT.Spec
open Ser Bind

/-- The kinds of basis functions, MapOptions.h 10–15. -/
def basisKinds : List (String × UInt32) := [("ProbabilistHermite", 0), ("PhysicistHermite", 1), ("HermiteFunctions", 2)]

/-- The positive functions, MapOptions.h 17–21. -/
def posKinds : List (String × UInt32) := [("Exp", 0), ("SoftPlus", 1)]

/-- The quadrature rules, MapOptions.h 23–28. -/
def quadKinds : List (String × UInt32) := [("ClenshawCurtis", 0), ("AdaptiveSimpson", 1), ("AdaptiveClenshawCurtis", 2)]

/-- The names in a MATLAB options object are names of kinds. -/
def Named (o : MatOptions) : Prop :=
  o.basisType ∈ basisKinds.map Prod.fst ∧ o.posFuncType ∈ posKinds.map Prod.fst ∧ o.quadType ∈ quadKinds.map Prod.fst

/-- Every option except `nugget` has the same value in MATLAB and in C++. -/
def SameButNugget (o : MatOptions) (p : Options) : Prop :=
  (o.basisType, p.basisType) ∈ basisKinds ∧ (o.posFuncType, p.posFuncType) ∈ posKinds ∧
  (o.quadType, p.quadType) ∈ quadKinds ∧ p.quadAbsTol = o.quadAbsTol ∧ p.quadRelTol = o.quadRelTol ∧
  p.quadMaxSub = o.quadMaxSub ∧ p.quadMinSub = o.quadMinSub ∧ p.quadPts = o.quadPts ∧ p.contDeriv = o.contDeriv ∧
  p.basisLB = o.basisLB ∧ p.basisUB = o.basisUB ∧ p.basisNorm = o.basisNorm

/-- Every option has the same value in MATLAB and in C++. -/
def Same (o : MatOptions) (p : Options) : Prop := SameButNugget o p ∧ p.nugget = o.nugget

/-- The options of the optimiser and of the adaptive algorithm have the same values in MATLAB and in C++. -/
def SameTraining (o : MatATM) (p : ATMFull) : Prop :=
  p.opt_alg = o.opt_alg ∧ p.opt_stopval = o.opt_stopval ∧ p.opt_ftol_rel = o.opt_ftol_rel ∧ p.opt_ftol_abs = o.opt_ftol_abs ∧
  p.opt_xtol_rel = o.opt_xtol_rel ∧ p.opt_xtol_abs = o.opt_xtol_abs ∧ p.opt_maxeval = o.opt_maxeval ∧
  p.opt_maxtime = o.opt_maxtime ∧ p.verbose = o.verbose ∧ p.maxPatience = o.maxPatience ∧ p.maxSize = o.maxSize ∧
  p.maxDegrees = o.maxDegrees

/-- Python's iteration over an object that has `__getitem__` but no `__iter__`: the items at `i`, `i + 1`, ... until one raises
`IndexError`, which is what pybind11 makes of `std::out_of_range`. -/
inductive PyIter {α : Type} (get : Nat → Res α) : Nat → List α → Prop
  | stop {i : Nat} : get i = .throw → PyIter get i []
  | next {i : Nat} {a : α} {l : List α} : get i = .ok a → PyIter get (i + 1) l → PyIter get i (a :: l)

end MParT.Spec
