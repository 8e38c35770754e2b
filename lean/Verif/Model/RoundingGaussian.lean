import Verif.Model.Rounding
/-!
# Model of the Gaussian log-density in rounded arithmetic

Source: `src/Distributions/GaussianSamplerDensity.cpp`. Only Gaussians without covariance matrix: the triangular solve is not modelled with rounding.
-/
namespace MParT.Gaussian
variable {R : Type*} [Add R] [Sub R] [Mul R] [Zero R]

/-- `diff`, GaussianSamplerDensity.cpp 32–41: entry `i` of point `j`; `mean_` without entries is not subtracted. -/
def diffEntry (mean : List R) (pts : Nat → Nat → R) (i j : Nat) : R :=
  if mean.length = 0 then pts i j else pts i j - mean.getD i 0

/-- `LogDensityImpl`, GaussianSamplerDensity.cpp 47–51, on `N` points with a given split of the `M` rows. `m` is `M` as a `double`; `minusHalf`, `half`,
`logtau` and `logDet` are the constants `-0.5`, `0.5`, `logtau_` and `logDetCov_`. -/
def logDensity (minusHalf half m logtau logDet : R) (N : Nat) (mean : List R) (pts : Nat → Nat → R) (s : Parallel.Split) : List R :=
  (Parallel.reduce .norm false N (diffEntry mean pts) minusHalf s).map fun v => v - half * (m * logtau + logDet)

end MParT.Gaussian
