import Verif.Model.Expansion
import Verif.Model.Parallel
import Mathlib.Data.Real.Basic
/-!
# Model of rounded arithmetic, and of the sum in the training objective

The programs of `Model/Expansion.lean` and the reductions of `Model/Parallel.lean` use only `+`, `*`, `0` and `1`. Run with numbers of the type
`Fl fl` they are the programs computed in floating point: every operation is followed by the rounding `fl`.

Simplifications
* `fl` is one function for all operations; nothing overflows, and there are no infinities and no NaN;
* `a*b + c` is rounded twice (no contraction to a fused operation).
-/
namespace MParT

/-- A number of type `double` (e.g. MultivariateExpansionWorker.h 198); `fl` is the rounding of the processor. -/
def Fl (_fl : ℝ → ℝ) : Type := ℝ

namespace Fl
variable {fl : ℝ → ℝ}

/-- The number as a real number. (E.g. `output`, MultivariateExpansionWorker.h 198.) -/
def val (x : Fl fl) : ℝ := x

/-- A real number that is stored as it is. (E.g. `coeffs(termInd)`, MultivariateExpansionWorker.h 207.) -/
def of (x : ℝ) : Fl fl := x

/-- `+` on `double`, e.g. MultivariateExpansionWorker.h 207. -/
noncomputable instance : Add (Fl fl) := ⟨fun x y => of (fl (x.val + y.val))⟩

/-- `-` on `double`, e.g. MapObjective.cpp 60. -/
noncomputable instance : Sub (Fl fl) := ⟨fun x y => of (fl (x.val - y.val))⟩

/-- `*` on `double`, e.g. MultivariateExpansionWorker.h 205. -/
noncomputable instance : Mul (Fl fl) := ⟨fun x y => of (fl (x.val * y.val))⟩

/-- `/` on `double`, e.g. MapObjective.cpp 64. -/
noncomputable instance : Div (Fl fl) := ⟨fun x y => of (fl (x.val / y.val))⟩

/-- `0.0`, MultivariateExpansionWorker.h 198. -/
noncomputable instance : Zero (Fl fl) := ⟨of 0⟩

/-- `1.0`, MultivariateExpansionWorker.h 203. -/
noncomputable instance : One (Fl fl) := ⟨of 1⟩

end Fl

namespace Parallel

/-- `parallel_reduce("Sum Negative Log Likelihood", N_samps, …, sumDensity)` with a given split: `sum -= densityX(i)`, and parts are joined with `+=`.
MapObjective.cpp 58–61 and 72–75. -/
def negSum {R : Type*} [Add R] [Sub R] [Zero R] (densityX : Nat → R) : Split → R
  | .chunk l => l.foldl (fun sum i => sum - densityX i) 0
  | .join a b => negSum densityX a + negSum densityX b
  | .andThen a l => l.foldl (fun sum i => sum - densityX i) (negSum densityX a)

/-- `sumDensity/N_samps`, MapObjective.cpp 64 and 76; `n` is `N_samps` as a `double`. -/
def objectiveValue {R : Type*} [Add R] [Sub R] [Div R] [Zero R] (densityX : Nat → R) (n : R) (s : Split) : R := negSum densityX s / n

end Parallel
end MParT
