import Verif.Model.Distributions
/-!
# Model of the samplers as objects with random number generators: `SetSeed`, `Sample` and `Distribution`

A sampler is a tree: a Gaussian, or a map with the sampler it refers to.  Every object has a location, where its pool of generators
lives; samplers that share the object they refer to (`std::shared_ptr`) contain the same tree with the same locations.  A pool has one
generator for each thread; which thread fills which entry, and in which order, is a schedule.  The coefficients of the maps stay the
same between the calls.
-/
namespace MParT
namespace Samplers

/-- A random number generator: the state of each thread's generator for a seed (`Random_XorShift64_Pool(seed)`), and `normal()`. Kokkos library; SampleGenerator.h 81, GaussianSamplerDensity.cpp 97–99. -/
structure Rng (P : Type) where
  init : Nat → Nat → P
  normal : P → ℝ × P

/-- The pools of all objects: location, thread. `rand_pool`, SampleGenerator.h 81. -/
abbrev Store (P : Type) := Nat → Nat → P

/-- Samplers, with the locations of their pools: GaussianSamplerDensity, PullbackSampler.h and PushforwardSampler.h. GaussianSamplerDensity.cpp 83, PullbackSampler.h 17–69, PushforwardSampler.h 17–69. -/
inductive Sampler where
  | gaussian (g : Gaussian) (loc : Nat)
  | pullback (m : CMap) (c : List ℝ) (ref : Sampler) (loc : Nat)
  | pushforward (m : CMap) (c : List ℝ) (ref : Sampler) (loc : Nat)

/-- `Dim()`, SampleGenerator.h 68: `dim_` is that of the Gaussian, and `sampler->Dim()` for the others (PullbackSampler.h 28,
PushforwardSampler.h 29). -/
def Sampler.dim : Sampler → Nat
  | .gaussian g _ => g.dim
  | .pullback _ _ ref _ => ref.dim
  | .pushforward _ _ ref _ => ref.dim

/-- Who fills the entry `(i, j)`: row, column, thread. GaussianSamplerDensity.cpp 96, 104, 116. -/
abbrev Sched := List (Nat × Nat × Nat)

/-- One assignment `store[loc][t] = p`. `free_state`, GaussianSamplerDensity.cpp 99, 107, 119. -/
def setState {P : Type} (σ : Store P) (loc t : Nat) (p : P) : Store P :=
  fun l u => if l = loc ∧ u = t then p else σ l u

/-- `rand_pool = PoolType(seed)`, SampleGenerator.h 55–57. -/
def reseed {P : Type} (rng : Rng P) (loc seed : Nat) (σ : Store P) : Store P :=
  fun l u => if l = loc then rng.init seed u else σ l u

/-- `SetSeed(seed)`: SampleGenerator.h 55–57 for a Gaussian, PullbackSampler.h 54–57, PushforwardSampler.h 54–57. -/
def setSeed {P : Type} (rng : Rng P) (seed : Nat) : Sampler → Store P → Store P
  | .gaussian _ loc, σ => reseed rng loc seed σ
  | .pullback _ _ ref loc, σ => setSeed rng seed ref (reseed rng loc seed σ)
  | .pushforward _ _ ref loc, σ => setSeed rng seed ref (reseed rng loc seed σ)

/-- The parallel loop `rgen = rand_pool.get_state(); output(i,j) = rgen.normal(); rand_pool.free_state(rgen)`,
GaussianSamplerDensity.cpp 97–99, 105–107, 117–119. -/
def draw {P : Type} (rng : Rng P) (loc : Nat) : Sched → Store P → (Nat → Nat → ℝ) → Store P × (Nat → Nat → ℝ)
  | [], σ, out => (σ, out)
  | (i, j, t) :: rest, σ, out =>
    draw rng loc rest (setState σ loc t (rng.normal (σ loc t)).2)
      (fun i' j' => if i' = i ∧ j' = j then (rng.normal (σ loc t)).1 else out i' j')

/-- The columns of a new `m` by `n` view filled by the loop. SampleGenerator.h 45. -/
def drawn (m n : Nat) (out : Nat → Nat → ℝ) : List (List ℝ) := (List.range n).map fun j => (List.range m).map fun i => out i j

/-- `Sample(N)`, SampleGenerator.h 44–48, with the `SampleImpl` of the class: a Gaussian draws and transforms (with a covariance matrix
it throws at the assignment of the layouts, before it draws), a transport sampler calls `Sample` of its reference and then the map on
every column of a new, zero view. -/
noncomputable def sample {P : Type} (rng : Rng P) (n : Nat) (sched : Sched) : Sampler → Store P → Store P × Res (List (List ℝ))
  | .gaussian g loc, σ =>
    if g.chol.isSome ∧ (Layout.right g.dim n).toLeft = .throw then (σ, .throw)
    else
      let d := draw rng loc sched σ fun _ _ => 0
      (d.1, g.sample (drawn g.dim n d.2))
  | .pullback m c ref _, σ =>
    let r := sample rng n sched ref σ
    (r.1, r.2 >>= KL.columns fun z => Pullback.sample m ref.dim c z (List.replicate ref.dim 0))
  | .pushforward m c ref _, σ =>
    let r := sample rng n sched ref σ
    (r.1, r.2 >>= KL.columns fun z => Pushforward.sample m ref.dim c z (List.replicate ref.dim 0))

/-- Calls on samplers. SampleGenerator.h 44 and 55. -/
inductive Call where
  | setSeed (s : Sampler) (seed : Nat)
  | sample (s : Sampler) (n : Nat) (sched : Sched)

/-- The sampler a call is made on. SampleGenerator.h 44 and 55. -/
def Call.on : Call → Sampler
  | .setSeed s _ => s
  | .sample s _ _ => s

/-- The effect of a call on the generators. SampleGenerator.h 44–57. -/
noncomputable def Call.run {P : Type} (rng : Rng P) : Call → Store P → Store P
  | .setSeed s seed, σ => Samplers.setSeed rng seed s σ
  | .sample s n sched, σ => (Samplers.sample rng n sched s σ).1

/-- `Distribution(sampler, density)`, Distribution.h 25–30: the members are forwarded to the two parts. -/
def distribution (s : Sampler) (d : Density) : Res (Sampler × Density) :=
  if s.dim ≠ d.dim then .throw else .ok (s, d)

/-- A new Gaussian: the default seed is `time(NULL)`, in seconds, SampleGenerator.h 28. -/
def newGaussian {P : Type} (rng : Rng P) (g : Gaussian) (loc time : Nat) (σ : Store P) : Sampler × Store P :=
  (.gaussian g loc, reseed rng loc time σ)

end Samplers
end MParT
