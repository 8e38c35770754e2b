import Verif.Model.Res
import Mathlib.Algebra.Order.Floor.Ring
import Mathlib.Algebra.Order.Floor.Semiring
import Mathlib.Data.Rat.Floor
/-!
# Model of the parallel kernels

Source: `MParT/Utilities/KokkosHelpers.h` and the kernels of `MParT/MonotoneComponent.h`, `MParT/MultivariateExpansion.h`,
`ReduceDim` of `MParT/Utilities/LinearAlgebra.h`.

Simplifications
* `fl` stands for the rounding of the floating-point division in `GetCachedRangePolicy`;
* `rec` stands for the team size Kokkos recommends;
* a kernel is a list of atomic steps. A step of the thread for a point reads and writes only what belongs to the point: its
  column of the output and the scratch memory of the thread (inputs and coefficients are not written). This is what the kernels
  do: they use `subview(·, ALL, ptInd)`, `output(ptInd)` and `thread_scratch`;
* steps of different threads are interleaved arbitrarily;
* the reductions are written for any numbers with `+` and `*`; sums are exact, except in C103 (`Model/Rounding.lean`).
-/
namespace MParT.Parallel

/-- `GetCachedRangePolicy(numPts, …)`, KokkosHelpers.h 17–28: number of teams and threads per team. The conversion of
`ceil(0/0)` to an integer is undefined. -/
def cachedRangePolicy (fl : ℚ → ℚ) (numPts rec : Nat) : Res (Nat × Nat) :=
  let threadsPerTeam := min numPts rec
  if threadsPerTeam = 0 then .ub
  else .ok (⌈fl ((numPts : ℚ) / threadsPerTeam)⌉₊, threadsPerTeam)

/-- `league_rank() * team_size() + team_rank()`, MonotoneComponent.h 275, 409, 504, 607, 705, 778, 844, 895, 948,
MultivariateExpansion.h 58, 110, 171. The ranks and the size are `int`: overflow is undefined. -/
def ptInd (teamSize : Nat) (t : Nat × Nat) : Res Nat :=
  if t.1 * teamSize + t.2 < 2 ^ 31 then .ok (t.1 * teamSize + t.2) else .ub

/-- State of a run: what belongs to each point, and the steps every thread still has to do. The kernels of MonotoneComponent.h 273–289 and the others. -/
structure Run (σ : Type*) where
  cols : Nat → σ
  todo : Nat × Nat → List (σ → σ)

/-- The work of a thread, MonotoneComponent.h 277–289 and the others: nothing unless `ptInd < numPts`. -/
def work {σ : Type*} (numPts : Nat) (kernel : Nat → List (σ → σ)) (teamSize : Nat) (t : Nat × Nat) : List (σ → σ) :=
  match ptInd teamSize t with
  | .ok p => if p < numPts then kernel p else []
  | _ => []

/-- Thread `t` does its next step. MonotoneComponent.h 273–289 and the others. -/
def Run.step {σ : Type*} (teamSize : Nat) (r : Run σ) (t : Nat × Nat) : Run σ :=
  match ptInd teamSize t, r.todo t with
  | .ok p, s :: rest =>
    { cols := Function.update r.cols p (s (r.cols p)), todo := Function.update r.todo t rest }
  | _, _ => r

/-- `parallel_for(policy, functor)`: the threads that exist take steps in the order of `schedule`. Kokkos library; MonotoneComponent.h 294–297 and the others. -/
def parallelFor {σ : Type*} (teams teamSize numPts : Nat) (kernel : Nat → List (σ → σ)) (cols : Nat → σ)
    (schedule : List (Nat × Nat)) : Run σ :=
  (schedule.filter (fun t => decide (t.1 < teams) && decide (t.2 < teamSize))).foldl (Run.step teamSize)
    ⟨cols, work numPts kernel teamSize⟩

/-! ## Reductions -/

/-- `ReduceDimMap`, LinearAlgebra.h 233. -/
inductive ReduceDimMap where
  | sum
  | norm

/-- `ReduceDimMapKernel`, LinearAlgebra.h 238–242. -/
def ReduceDimMap.kernel {R : Type*} [Mul R] : ReduceDimMap → R → R
  | .sum, x => x
  | .norm, x => x * x

/-- `ReduceDim::init`, LinearAlgebra.h 275–279. -/
def reduceInit {R : Type*} [Zero R] (valueCount : Nat) : List R := List.replicate valueCount 0

/-- `ReduceDim::join`, LinearAlgebra.h 269–273. -/
def reduceJoin {R : Type*} [Add R] (dst src : List R) : List R := List.zipWith (· + ·) dst src

/-- `ReduceDim::operator()`, LinearAlgebra.h 260–267; `dim1` is `Dim == 1`. -/
def reduceOp {R : Type*} [Add R] [Mul R] (m : ReduceDimMap) (dim1 : Bool) (A : Nat → Nat → R) (alpha : R) (j : Nat) (sum : List R) :
    List R :=
  sum.mapIdx (fun i s => s + m.kernel (if dim1 then A i j else A j i) * alpha)

/-- How `parallel_reduce` may split the range: a chunk is worked on in some order, the results of two parts are joined, or a
part goes on with the accumulator another part has left. Kokkos library; MapObjective.cpp 63. -/
inductive Split where
  | chunk (idxs : List Nat)
  | join (dst src : Split)
  | andThen (first : Split) (idxs : List Nat)

/-- The indices a split works on. MapObjective.cpp 63. -/
def Split.indices : Split → List Nat
  | .chunk l => l
  | .join a b => a.indices ++ b.indices
  | .andThen a l => a.indices ++ l

/-- `parallel_reduce(n, ReduceDim(A, alpha), result)` with a given split. MapObjective.cpp 63 and 85, GaussianSamplerDensity.cpp 48. -/
def reduce {R : Type*} [Add R] [Mul R] [Zero R] (m : ReduceDimMap) (dim1 : Bool) (valueCount : Nat) (A : Nat → Nat → R) (alpha : R) : Split → List R
  | .chunk l => l.foldl (fun s j => reduceOp m dim1 A alpha j s) (reduceInit valueCount)
  | .join a b => reduceJoin (reduce m dim1 valueCount A alpha a) (reduce m dim1 valueCount A alpha b)
  | .andThen a l => l.foldl (fun s j => reduceOp m dim1 A alpha j s) (reduce m dim1 valueCount A alpha a)

end MParT.Parallel
