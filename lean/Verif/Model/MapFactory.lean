import Verif.Model.Maps
/-!
# Model of `MapFactory::CreateSingleEntryMap`

Source: `src/MapFactory.cpp`. The result is the map together with the coefficients it is given.
-/
namespace MParT.MapFactory

/-- `output->SetCoeffs(Kokkos::View<double*>("Component Coefficients", output->numCoeffs))`, MapFactory.cpp 95: zeros. -/
def withZeros (t : CMap) : CMap × List ℝ := (t, List.replicate t.numCoeffs 0)

/-- `CreateSingleEntryMap`, MapFactory.cpp 26–98. -/
def createSingleEntryMap (dim activeInd : Nat) (comp : CMap) : Res (CMap × List ℝ) :=
  if dim < activeInd then .throw
  else if activeInd ≠ comp.inputDim then .throw
  else if activeInd = 1 then do
    let output ← TriangularMap.new [comp, IdentityMap.obj dim (dim - activeInd)]
    .ok (withZeros output)
  else if activeInd = dim then do
    let output ← TriangularMap.new [IdentityMap.obj (activeInd - 1) (activeInd - 1), comp]
    .ok (withZeros output)
  else do
    let output ← TriangularMap.new [IdentityMap.obj (activeInd - 1) (activeInd - 1), comp,
      IdentityMap.obj dim (dim - activeInd)]
    .ok (withZeros output)

end MParT.MapFactory
