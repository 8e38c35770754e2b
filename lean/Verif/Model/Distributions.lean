import Verif.Model.Maps
import Verif.Model.Parallel
import Mathlib.Analysis.SpecialFunctions.Log.Basic
import Mathlib.Analysis.SpecialFunctions.Trigonometric.Basic
import Mathlib.LinearAlgebra.Matrix.NonsingularInverse
/-!
# Model of densities, samplers and the training objective

Source: `src/Distributions/PullbackDensity.cpp`, `MParT/Distributions/PushforwardDensity.h`, `PullbackSampler.h`,
`PushforwardSampler.h`, `src/Distributions/GaussianSamplerDensity.cpp`, `DensityBase.cpp`, `src/MapObjective.cpp`.

Simplifications
* densities and samplers built from maps are modelled on one column, like the maps. The Gaussian and the objective, whose
  code mixes columns, are modelled on whole data sets;
* a value that is not finite is `none`;
* the Cholesky factorisation and the triangular solves of Eigen are exact; `L` is the factor it returns;
* random numbers are an argument;
* `Kokkos::abort` is a `throw`: the call does not return.
-/
namespace MParT

/-- The virtual functions of a `DensityBase` object, DensityBase.h 21–81: `Dim()`, `LogDensityImpl(pts, output)` and
`LogDensityInputGradImpl(pts, output)`. -/
structure Density where
  dim : Nat
  logDensity : (pts : List ℝ) → (output : Option ℝ) → Res (Option ℝ)
  inputGrad : (pts output : List ℝ) → Res (List ℝ)

/-- The public `LogDensityInputGrad`, DensityBase.cpp 40–49: allocates `X.extent(0)` zeros. -/
def Density.logDensityInputGrad (d : Density) (pts : List ℝ) : Res (List ℝ) :=
  d.inputGrad pts (List.replicate pts.length 0)

/-- `output -= logJacobian`. PushforwardDensity.h 49–51. -/
def subLD (a b : Option ℝ) : Option ℝ :=
  match a, b with
  | some x, some y => some (x - y)
  | _, _ => none

namespace Pullback

/-- `PullbackDensity::LogDensityImpl`, PullbackDensity.cpp 14–19. -/
def logDensity (m : CMap) (d : Density) (c pts : List ℝ) (output : Option ℝ) : Res (Option ℝ) := do
  let mapped ← m.eval c pts (List.replicate m.outputDim 0)
  let output ← d.logDensity mapped output
  let logJacobian ← m.logDet c pts (some 0)
  .ok (addLD output logJacobian)

/-- `PullbackDensity::LogDensityInputGradImpl`, PullbackDensity.cpp 22–28. -/
def inputGrad (m : CMap) (d : Density) (c pts output : List ℝ) : Res (List ℝ) := do
  let mapped ← m.eval c pts (List.replicate m.outputDim 0)
  let sens ← d.logDensityInputGrad mapped
  let output ← m.grad c pts sens output
  let g ← m.ldInputGrad c pts (List.replicate m.inputDim 0)
  addInPlace output g

/-- `PullbackDensity::LogDensityCoeffGradImpl`, PullbackDensity.cpp 31–37. -/
def coeffGrad (m : CMap) (d : Density) (c pts output : List ℝ) : Res (List ℝ) := do
  let mapped ← m.eval c pts (List.replicate m.outputDim 0)
  let sens ← d.logDensityInputGrad mapped
  let output ← m.coeffGrad c pts sens output
  let g ← m.ldCoeffGrad c pts (List.replicate m.numCoeffs 0)
  addInPlace output g

/-- `LogDensityCoeffGrad` on Kokkos views, PullbackDensity.cpp 40–44. -/
def logDensityCoeffGrad (m : CMap) (d : Density) (c pts : List ℝ) : Res (List ℝ) :=
  coeffGrad m d c pts (List.replicate m.numCoeffs 0)

/-- `LogDensityCoeffGrad` on Eigen matrices, PullbackDensity.cpp 47–55. The allocated matrix is not initialised. -/
def logDensityCoeffGradEigen (m : CMap) (d : Density) (c pts garbage : List ℝ) : Res (List ℝ) :=
  inputGrad m d c pts garbage

/-- `PullbackDensity(map, density)`, PullbackDensity.cpp 6–11, as a density; `c` are the coefficients of the map. -/
def new (m : CMap) (d : Density) (c : List ℝ) : Res Density :=
  if m.outputDim = d.dim then
    .ok { dim := d.dim, logDensity := logDensity m d c, inputGrad := inputGrad m d c }
  else .throw

/-- `PullbackSampler(map, sampler)` and its `SampleImpl`, PullbackSampler.h 27–47, `z` being the draw of the sampler. -/
def sample (m : CMap) (samplerDim : Nat) (c z output : List ℝ) : Res (List ℝ) :=
  if m.outputDim ≠ samplerDim then .throw
  else if m.inputDim ≠ m.outputDim then .throw
  else m.inv c [] z output

end Pullback

namespace Pushforward

/-- `PushforwardDensity::LogDensityImpl`, PushforwardDensity.h 44–52. -/
def logDensity (m : CMap) (d : Density) (c pts : List ℝ) (output : Option ℝ) : Res (Option ℝ) := do
  let mapped ← m.inv c [] pts (List.replicate m.outputDim 0)
  let output ← d.logDensity mapped output
  let logJacobian ← m.logDet c mapped (some 0)
  .ok (subLD output logJacobian)

/-- `PushforwardDensity(map, density)`, PushforwardDensity.h 28–36; `LogDensityInputGradImpl` 55–57 throws. -/
def new (m : CMap) (d : Density) (c : List ℝ) : Res Density :=
  if m.inputDim ≠ d.dim then .throw
  else if m.outputDim ≠ m.inputDim then .throw
  else .ok { dim := d.dim, logDensity := logDensity m d c, inputGrad := fun _ _ => .throw }

/-- `PushforwardSampler(map, sampler)` and its `SampleImpl`, PushforwardSampler.h 28–47. -/
def sample (m : CMap) (samplerDim : Nat) (c z output : List ℝ) : Res (List ℝ) :=
  if m.outputDim ≠ samplerDim then .throw
  else if m.inputDim ≠ m.outputDim then .throw
  else m.eval c z output

end Pushforward

/-! ## The objective -/

namespace KL

/-- `sum -= densityX(i)` over all samples, MapObjective.cpp 58–61 and 72–75. -/
def sumNegative (l : List (Option ℝ)) : Option ℝ := l.foldl subLD (some 0)

/-- The call of a function on every column of `data`. MapObjective.cpp 56–57, 71, 83. -/
def columns {α : Type} (f : List ℝ → Res α) : List (List ℝ) → Res (List α)
  | [] => .ok []
  | x :: xs => do
    let y ← f x
    let ys ← columns f xs
    .ok (y :: ys)

/-- `sumDensity / N_samps`: not a number when there are no samples. MapObjective.cpp 64 and 76. -/
noncomputable def average (s : Option ℝ) (n : Nat) : Option ℝ := if n = 0 then none else s.map (· / n)

/-- `KLObjective::ObjectiveImpl`, MapObjective.cpp 68–77. -/
noncomputable def objective (m : CMap) (d : Density) (c : List ℝ) (data : List (List ℝ)) : Res (Option ℝ) := do
  let pullback ← Pullback.new m d c
  let densityX ← columns (fun x => pullback.logDensity x (some 0)) data
  .ok (average (sumNegative densityX) data.length)

/-- Writing `n` consecutive entries of `mem`, starting at `off`: what `parallel_reduce(..., &grad(0))` does with its result. MapObjective.cpp 63 and 85. -/
def writeFrom {R : Type} (mem : List R) : Nat → List R → Res (List R)
  | _, [] => .ok mem
  | off, r :: rs => do
    let mem ← Res.setIdx mem off r
    writeFrom mem (off + 1) rs

/-- `KLObjective::CoeffGradImpl`, MapObjective.cpp 80–86: the reduction writes to consecutive entries from `&grad(0)`, which is
entry `off` of `mem`; `split` is the way the reduction is scheduled. -/
noncomputable def coeffGrad (m : CMap) (d : Density) (c : List ℝ) (data : List (List ℝ)) (split : Parallel.Split)
    (mem : List ℝ) (off : Nat) : Res (List ℝ) := do
  let _ ← Pullback.new m d c
  let g ← columns (Pullback.logDensityCoeffGrad m d c) data
  let rc := Parallel.reduce .sum true m.numCoeffs (fun i j => (g.getD j []).getD i 0) (-1 / data.length) split
  writeFrom mem off rc

/-- `KLObjective::ObjectivePlusCoeffGradImpl`, MapObjective.cpp 53–65. -/
noncomputable def objectivePlusCoeffGrad (m : CMap) (d : Density) (c : List ℝ) (data : List (List ℝ))
    (split : Parallel.Split) (mem : List ℝ) (off : Nat) : Res (Option ℝ × List ℝ) := do
  let pullback ← Pullback.new m d c
  let densityX ← columns (fun x => pullback.logDensity x (some 0)) data
  let g ← columns (Pullback.logDensityCoeffGrad m d c) data
  let rc := Parallel.reduce .sum true m.numCoeffs (fun i j => (g.getD j []).getD i 0) (-1 / data.length) split
  let mem ← writeFrom mem off rc
  .ok (average (sumNegative densityX) data.length, mem)

/-- `MapObjective::TrainCoeffGrad`, MapObjective.cpp 32–36: a new, contiguous gradient. -/
noncomputable def trainCoeffGrad (m : CMap) (d : Density) (c : List ℝ) (train : List (List ℝ)) (split : Parallel.Split) :
    Res (List ℝ) :=
  coeffGrad m d c train split (List.replicate m.numCoeffs 0) 0

/-- `MapObjective::TestError`, MapObjective.cpp 14–19; a default constructed view has no rows. -/
noncomputable def testError (m : CMap) (d : Density) (c : List ℝ) (test : Option (List (List ℝ))) : Res (Option ℝ) :=
  match test with
  | none => .throw
  | some test => objective m d c test

/-- `MapObjective::operator()`, MapObjective.cpp 5–11: the map gets the coefficients `x` (C49: this throws unless their number
is right), `grad` is a contiguous array of `n` entries. -/
noncomputable def call (m : CMap) (d : Density) (x grad : List ℝ) (train : List (List ℝ)) (split : Parallel.Split) :
    Res (Option ℝ × List ℝ) :=
  if x.length = m.numCoeffs then objectivePlusCoeffGrad m d x train split grad 0 else .throw

end KL

/-! ## The Gaussian -/

/-- Entries of a column. GaussianSamplerDensity.cpp 34. -/
def colVec (n : Nat) (l : List ℝ) : Fin n → ℝ := fun i => l.getD i 0

/-- State of a `GaussianSamplerDensity`, GaussianSamplerDensity.h 82–85: `mean_` (`none`: extent 0), the factor in `covChol_`
(`none`: `idCov_`), `logDetCov_`. -/
structure Gaussian where
  dim : Nat
  mean : Option (Fin dim → ℝ)
  chol : Option (Matrix (Fin dim) (Fin dim) ℝ)
  logDetCov : ℝ

/-- Strides and extents of a matrix view. GaussianSamplerDensity.cpp 30. -/
structure Layout where
  ext0 : Nat
  ext1 : Nat
  str0 : Nat
  str1 : Nat

/-- `Kokkos::View<double**, Kokkos::HostSpace>`, row-major. DensityBase.cpp 44. -/
def Layout.right (m n : Nat) : Layout := ⟨m, n, n, 1⟩
/-- `Kokkos::View<double**, Kokkos::LayoutLeft, Kokkos::HostSpace>`, column-major. GaussianSamplerDensity.cpp 30. -/
def Layout.left (m n : Nat) : Layout := ⟨m, n, 1, m⟩

/-- Assigning a strided view to a `LayoutLeft` view: Kokkos checks the strides and aborts when they differ from those of a
contiguous column-major array (`ViewMapping` assignment, Kokkos library). GaussianSamplerDensity.cpp 76 and 114. -/
def Layout.toLeft (l : Layout) : Res Unit := if l.str0 = 1 ∧ l.str1 = l.ext0 then .ok () else .throw

namespace Gaussian

/-- `Factorize`, GaussianSamplerDensity.h 76–79, with `determinant` of LinearAlgebra.cpp 119–125: the square of the
determinant of the factor. -/
noncomputable def logDet {n : Nat} (L : Matrix (Fin n) (Fin n) ℝ) : ℝ := Real.log (L.det * L.det)

/-- Constructor from mean and covariance, GaussianSamplerDensity.cpp 6–8; `L` is the factor of the covariance and `lay` the
layout of the covariance argument. -/
noncomputable def ofMeanCov {n : Nat} (mean : Fin n → ℝ) (L : Matrix (Fin n) (Fin n) ℝ) (lay : Layout) : Res Gaussian := do
  lay.toLeft
  .ok ⟨n, some mean, some L, logDet L⟩

/-- Constructor from covariance, GaussianSamplerDensity.cpp 11–13. -/
noncomputable def ofCov {n : Nat} (L : Matrix (Fin n) (Fin n) ℝ) (lay : Layout) : Res Gaussian := do
  lay.toLeft
  .ok ⟨n, none, some L, logDet L⟩

/-- Constructor from mean, GaussianSamplerDensity.cpp 16. -/
def ofMean {n : Nat} (mean : Fin n → ℝ) : Gaussian := ⟨n, some mean, none, 0⟩

/-- Constructor from dimension, GaussianSamplerDensity.cpp 19. -/
def ofDim (n : Nat) : Gaussian := ⟨n, none, none, 0⟩

/-- `diff(i,j) = pts(i,j) [- mean_(i)]`, GaussianSamplerDensity.cpp 32–41. -/
def diff (g : Gaussian) (x : Fin g.dim → ℝ) : Fin g.dim → ℝ :=
  match g.mean with
  | none => x
  | some m => fun i => x i - m i

/-- `solveInPlaceL`, LinearAlgebra.cpp 94–98, unless `idCov_`. -/
noncomputable def whiten (g : Gaussian) (x : Fin g.dim → ℝ) : Fin g.dim → ℝ :=
  match g.chol with
  | none => x
  | some L => L⁻¹.mulVec x

/-- `output(j) -= v` for `j < n`, GaussianSamplerDensity.cpp 49–51; `output(j)` is entry `off + j * stride` of `mem`. -/
noncomputable def subtractAll (mem : List ℝ) (off stride : Nat) (v : ℝ) : Nat → Nat → Res (List ℝ)
  | _, 0 => .ok mem
  | j, n + 1 => do
    let o ← Res.idx mem (off + j * stride)
    let mem ← Res.setIdx mem (off + j * stride) (o - v)
    subtractAll mem off stride v (j + 1) n

/-- `LogDensityImpl`, GaussianSamplerDensity.cpp 22–52. `output` has its first entry at `off` in `mem` and the given stride. The
reduction writes its results to consecutive entries from `&output(0)`, line 48. -/
noncomputable def logDensityImpl (g : Gaussian) (pts : List (List ℝ)) (split : Parallel.Split) (mem : List ℝ)
    (off stride : Nat) : Res (List ℝ) :=
  if pts.any (fun x => x.length ≠ g.dim) then .throw
  else do
    let diff : List (Fin g.dim → ℝ) := pts.map fun x => g.whiten (g.diff (colVec g.dim x))
    let rr := Parallel.reduce .norm false pts.length
      (fun i j => if h : i < g.dim then diff.getD j 0 ⟨i, h⟩ else 0) (-0.5) split
    let mem ← KL.writeFrom mem off rr
    subtractAll mem off stride (0.5 * (g.dim * Real.log (2 * Real.pi) + g.logDetCov)) 0 pts.length

/-- `solveInPlace`, LinearAlgebra.cpp 86–91, unless `idCov_`: solve with `L`, then with its transpose. -/
noncomputable def solve (g : Gaussian) (x : Fin g.dim → ℝ) : Fin g.dim → ℝ :=
  match g.chol with
  | none => x
  | some L => L.transpose⁻¹.mulVec (L⁻¹.mulVec x)

/-- `output(i,j) = -pts(i,j) [+ mean_(i)]`, GaussianSamplerDensity.cpp 64–73. -/
def negDiff (g : Gaussian) (x : Fin g.dim → ℝ) : Fin g.dim → ℝ :=
  match g.mean with
  | none => fun i => -x i
  | some m => fun i => -x i + m i

/-- `LogDensityInputGradImpl`, GaussianSamplerDensity.cpp 55–78: the columns of the output, whose layout is `lay`. -/
noncomputable def inputGradImpl (g : Gaussian) (pts : List (List ℝ)) (lay : Layout) : Res (List (List ℝ)) :=
  if pts.any (fun x => x.length ≠ g.dim) then .throw
  else do
    if g.chol.isSome then lay.toLeft
    .ok (pts.map fun x => List.ofFn (g.solve (g.negDiff (colVec g.dim x))))

/-- The public `LogDensityInputGrad`, DensityBase.cpp 17–27 and 40–49: both allocate a row-major output. -/
noncomputable def logDensityInputGrad (g : Gaussian) (pts : List (List ℝ)) : Res (List (List ℝ)) :=
  g.inputGradImpl pts (Layout.right g.dim pts.length)

/-- `SampleImpl`, GaussianSamplerDensity.cpp 83–133: `z` are the normal draws, one list for each column. -/
noncomputable def sampleImpl (g : Gaussian) (z : List (List ℝ)) (lay : Layout) : Res (List (List ℝ)) :=
  if z.any (fun x => x.length ≠ g.dim) then .throw
  else
    match g.chol with
    | none => .ok (z.map fun x => List.ofFn fun i => match g.mean with
      | none => colVec g.dim x i
      | some m => colVec g.dim x i + m i)
    | some L => do
      lay.toLeft
      .ok (z.map fun x => List.ofFn fun i => match g.mean with
        | none => L.mulVec (colVec g.dim x) i
        | some m => L.mulVec (colVec g.dim x) i + m i)

/-- The public `Sample(N)`, SampleGenerator.h 44–48: allocates a row-major output. -/
noncomputable def sample (g : Gaussian) (z : List (List ℝ)) : Res (List (List ℝ)) :=
  g.sampleImpl z (Layout.right g.dim z.length)

/-- The Gaussian as a density, on one column and with outputs that suit it (contiguous, column-major). GaussianSamplerDensity.cpp 22–78. -/
noncomputable def density (g : Gaussian) : Density where
  dim := g.dim
  logDensity pts _ := do
    let mem ← g.logDensityImpl [pts] (.chunk (List.range g.dim)) [0] 0 1
    .ok mem[0]?
  inputGrad pts _ := do
    let o ← g.inputGradImpl [pts] (Layout.left g.dim 1)
    .ok (o.getD 0 [])

end Gaussian
end MParT
