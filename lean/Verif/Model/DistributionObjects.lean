import Verif.Model.Distributions
/-!
# Model of samplers, distributions and the transport factory

Source: `MParT/Distributions/SampleGenerator.h`, `PullbackSampler.h`, `PushforwardSampler.h`, `Distribution.h`, `TransportDistributionFactory.h`.

Samplers are modelled on whole arrays of samples, because the layout of the array decides whether a Gaussian can fill it.

Simplifications
* the random numbers are an argument `z`, one list for each column, which reaches the sampler at the bottom;
* maps work column by column (C50, C66), for any layout of their arguments;
* densities are modelled on one column, as in `Model/Distributions.lean`;
* `CreatePullback` and `CreatePushforward` return `Distribution<PullbackDensity<M>, PullbackSampler<M>>` and the like, which names no type, since
  `Distribution` has one parameter: no program with a call of them compiles. The model is of their bodies with `Distribution<MemorySpace>` instead,
  that is of the three lines that a user has to write.
-/
namespace MParT

/-- The virtual functions of a `SampleGenerator`, SampleGenerator.h 20–77: `Dim()` and `SampleImpl(output)`. `lay` is the layout of the output and `output`
its columns before the call. -/
structure Sampler where
  dim : Nat
  sampleImpl : (z : List (List ℝ)) → (lay : Layout) → (output : List (List ℝ)) → Res (List (List ℝ))

/-- The Gaussian as one column of a data set of `N` columns, when its gradient is computed by the public `LogDensityInputGrad`, which allocates a row-major
array. DensityBase.cpp 40–49, PullbackDensity.cpp 24 and 33, GaussianSamplerDensity.cpp 22–78. -/
noncomputable def Gaussian.densityIn (g : Gaussian) (N : Nat) : Density where
  dim := g.dim
  logDensity := g.density.logDensity
  inputGrad pts _ := do
    let o ← g.inputGradImpl [pts] (Layout.right g.dim N)
    .ok (o.getD 0 [])

namespace Sampler

/-- `Sample(N)`, SampleGenerator.h 44–48: a row-major array of zeros is filled. -/
def sample (s : Sampler) (z : List (List ℝ)) : Res (List (List ℝ)) :=
  s.sampleImpl z (Layout.right s.dim z.length) (List.replicate z.length (List.replicate s.dim 0))

/-- The columns of the output, one after the other. PullbackSampler.h 46 and PushforwardSampler.h 46. -/
def columns (f : List ℝ → List ℝ → Res (List ℝ)) : List (List ℝ) → List (List ℝ) → Res (List (List ℝ))
  | x :: xs, o :: os => do
    let y ← f x o
    let ys ← columns f xs os
    .ok (y :: ys)
  | _, os => .ok os

/-- A `GaussianSamplerDensity` as sampler, GaussianSamplerDensity.cpp 83–133. -/
noncomputable def ofGaussian (g : Gaussian) : Sampler where
  dim := g.dim
  sampleImpl z lay _ := g.sampleImpl z lay

/-- `PullbackSampler(map, sampler)` with its `SampleImpl`, PullbackSampler.h 27–47. -/
def pullback (m : CMap) (c : List ℝ) (s : Sampler) : Res Sampler :=
  if m.outputDim ≠ s.dim then .throw
  else if m.inputDim ≠ m.outputDim then .throw
  else .ok { dim := s.dim, sampleImpl := fun z _ output => do
    let pts ← s.sample z
    columns (m.inv c []) pts output }

/-- `PushforwardSampler(map, sampler)` with its `SampleImpl`, PushforwardSampler.h 28–47. -/
def pushforward (m : CMap) (c : List ℝ) (s : Sampler) : Res Sampler :=
  if m.outputDim ≠ s.dim then .throw
  else if m.inputDim ≠ m.outputDim then .throw
  else .ok { dim := s.dim, sampleImpl := fun z _ output => do
    let pts ← s.sample z
    columns (m.eval c) pts output }

end Sampler

/-- The members of a `Distribution`, Distribution.h 124–125. -/
structure Distrib where
  sampler : Sampler
  density : Density

namespace Distrib

/-- `Distribution(sampler, density)`, Distribution.h 25–30. -/
def new (s : Sampler) (d : Density) : Res Distrib := if s.dim ≠ d.dim then .throw else .ok ⟨s, d⟩

/-- `Dim()`, Distribution.h 39. -/
def dim (D : Distrib) : Nat := D.sampler.dim

/-- `Sample(N)`, Distribution.h 56–58. -/
def sample (D : Distrib) (z : List (List ℝ)) : Res (List (List ℝ)) := D.sampler.sample z

/-- `SampleImpl(output)`, Distribution.h 65–67. -/
def sampleImpl (D : Distrib) (z : List (List ℝ)) (lay : Layout) (output : List (List ℝ)) : Res (List (List ℝ)) := D.sampler.sampleImpl z lay output

/-- `LogDensity(pts)` on one column, Distribution.h 75–77; a new output has the value 0. -/
def logDensity (D : Distrib) (x : List ℝ) : Res (Option ℝ) := D.density.logDensity x (some 0)

/-- `LogDensityInputGrad(pts)` on one column, Distribution.h 95–97. -/
def logDensityInputGrad (D : Distrib) (x : List ℝ) : Res (List ℝ) := D.density.logDensityInputGrad x

/-- `CreateDistribution<M, GaussianSamplerDensity<M>>(args)`, Distribution.h 138–142: one object is the sampler and the density. -/
noncomputable def gaussian (g : Gaussian) : Res Distrib := new (Sampler.ofGaussian g) g.density

/-- `CreatePullback(map, reference)`, TransportDistributionFactory.h 18–22. -/
def pullback (m : CMap) (c : List ℝ) (D : Distrib) : Res Distrib := do
  let sampler ← Sampler.pullback m c D.sampler
  let density ← Pullback.new m D.density c
  new sampler density

/-- `CreatePushforward(map, reference)`, TransportDistributionFactory.h 25–29. -/
def pushforward (m : CMap) (c : List ℝ) (D : Distrib) : Res Distrib := do
  let sampler ← Sampler.pushforward m c D.sampler
  let density ← Pushforward.new m D.density c
  new sampler density

/-- One step of a program that builds distributions: a map, its coefficients, and whether it is pulled back by it or pushed forward.
TransportDistributionFactory.h 17–29. -/
structure Step where
  back : Bool
  map : CMap
  coeffs : List ℝ

/-- The call for one step, TransportDistributionFactory.h 17–29. -/
def apply (D : Distrib) (s : Step) : Res Distrib :=
  if s.back then pullback s.map s.coeffs D else pushforward s.map s.coeffs D

/-- A program that starts from a distribution and transports it again and again. TransportDistributionFactory.h 17–29. -/
def chain (D : Distrib) : List Step → Res Distrib
  | [] => .ok D
  | s :: ss => do
    let D ← apply D s
    chain D ss

end Distrib
end MParT
