import Verif.Lemmas.Adaptive
import Verif.Lemmas.AdaptiveCC
import Verif.Lemmas.AdaptiveRun
import Verif.Lemmas.AdaptiveSimpson
import Verif.Lemmas.Affine
import Verif.Lemmas.Approximation
import Verif.Lemmas.BendMap
import Verif.Lemmas.ChainRule
import Verif.Lemmas.Checkpointer
import Verif.Lemmas.ClenshawCurtis
import Verif.Lemmas.Coeffs
import Verif.Lemmas.CoeffsInv
import Verif.Lemmas.ComponentFp
import Verif.Lemmas.Composed
import Verif.Lemmas.ExpandOnce
import Verif.Lemmas.Expansion
import Verif.Lemmas.ExpansionFill
import Verif.Lemmas.ExpansionOrder
import Verif.Lemmas.FixedDevice
import Verif.Lemmas.FixedSet
import Verif.Lemmas.Frechet
import Verif.Lemmas.Gaussian
import Verif.Lemmas.Gradient
import Verif.Lemmas.Hermite
import Verif.Lemmas.HermiteFunction
import Verif.Lemmas.Independent
import Verif.Lemmas.LinearAlgebra
import Verif.Lemmas.Linearized
import Verif.Lemmas.MISetBase
import Verif.Lemmas.MISetFill
import Verif.Lemmas.MISetForce
import Verif.Lemmas.MISetInv
import Verif.Lemmas.MISetLimiter
import Verif.Lemmas.MISetOps
import Verif.Lemmas.MISetReach
import Verif.Lemmas.MISetSem
import Verif.Lemmas.Maps
import Verif.Lemmas.Monotone
import Verif.Lemmas.MonotoneDeriv
import Verif.Lemmas.MultiIndex
import Verif.Lemmas.Neighborhood
import Verif.Lemmas.OneSided
import Verif.Lemmas.OrthoPoly
import Verif.Lemmas.Quadrature
import Verif.Lemmas.RootLocal
import Verif.Lemmas.RootNear
import Verif.Lemmas.Rounding
import Verif.Lemmas.RoundingExpansion
import Verif.Lemmas.RoundingReduce
import Verif.Lemmas.Serialization
import Verif.Lemmas.ToyMap
import Verif.Lemmas.TrainAdaptive
import Verif.Lemmas.TrainAdaptiveCoeffs
import Verif.Lemmas.TrainAdaptiveCoeffsChoice
import Verif.Lemmas.TrainAdaptiveCoeffsRun
import Verif.Lemmas.TrainAdaptiveCoeffsTotal
import Verif.Lemmas.TrainAdaptiveRun
import Verif.Lemmas.TrainAdaptiveTotal
import Verif.Lemmas.Triangular
import Verif.Model.AffineMap
import Verif.Model.Arrays
import Verif.Model.Bijectors
import Verif.Model.Bindings
import Verif.Model.Coeffs
import Verif.Model.ComponentArrays
import Verif.Model.ComponentFp
import Verif.Model.ComponentMap
import Verif.Model.ComposedMap
import Verif.Model.DeviceLinAlg
import Verif.Model.DeviceMaps
import Verif.Model.DistributionObjects
import Verif.Model.Distributions
import Verif.Model.Expansion
import Verif.Model.ExpansionBasis
import Verif.Model.Factory
import Verif.Model.FactoryQuad
import Verif.Model.Failures
import Verif.Model.FixedDevice
import Verif.Model.FixedSet
import Verif.Model.Hermite
import Verif.Model.Initialization
import Verif.Model.InverseBatch
import Verif.Model.Lifetimes
import Verif.Model.Limiter
import Verif.Model.LinearAlgebra
import Verif.Model.MapFactory
import Verif.Model.Maps
import Verif.Model.MonotoneComponent
import Verif.Model.MultiIndex
import Verif.Model.MultiIndex32
import Verif.Model.MultiIndexSet
import Verif.Model.Neighborhood
import Verif.Model.Options
import Verif.Model.OrthoPoly
import Verif.Model.Parallel
import Verif.Model.QuadControl
import Verif.Model.QuadObjects
import Verif.Model.QuadPrograms
import Verif.Model.Quadrature
import Verif.Model.Registry
import Verif.Model.Res
import Verif.Model.RootFinding
import Verif.Model.RootFindingFp
import Verif.Model.Rounding
import Verif.Model.RoundingAffine
import Verif.Model.RoundingGaussian
import Verif.Model.Samplers
import Verif.Model.Scratch
import Verif.Model.Serialization
import Verif.Model.SharedComponent
import Verif.Model.SoftPlusFp
import Verif.Model.TensorProduct
import Verif.Model.Train
import Verif.Model.TrainAdaptive
import Verif.Model.TrainAdaptiveCoeffs
import Verif.Model.Visualize
import Verif.Props.Adaptive
import Verif.Props.Affine
import Verif.Props.Arrays
import Verif.Props.BasisLink
import Verif.Props.Bijectors
import Verif.Props.Bindings
import Verif.Props.ClenshawCurtis
import Verif.Props.Coeffs
import Verif.Props.ComponentArrays
import Verif.Props.ComponentFp
import Verif.Props.ComponentLinear
import Verif.Props.ComponentMap
import Verif.Props.Composed
import Verif.Props.DeepIdentify
import Verif.Props.DeepMaps
import Verif.Props.DeepSampling
import Verif.Props.Densities
import Verif.Props.DeviceLinAlg
import Verif.Props.DeviceMaps
import Verif.Props.Divergence
import Verif.Props.ExactGradient
import Verif.Props.ExpandOnce
import Verif.Props.Expansion
import Verif.Props.ExpansionBasis
import Verif.Props.Factory
import Verif.Props.FactoryExpansion
import Verif.Props.FactoryQuad
import Verif.Props.FailedLoad
import Verif.Props.Failures
import Verif.Props.FirstOrder
import Verif.Props.FixedDevice
import Verif.Props.FixedSet
import Verif.Props.Frequencies
import Verif.Props.Gaussian
import Verif.Props.Hermite
import Verif.Props.Identify
import Verif.Props.IdentifyMaps
import Verif.Props.Identity
import Verif.Props.Initialization
import Verif.Props.InverseBatch
import Verif.Props.Laws
import Verif.Props.LawsComposed
import Verif.Props.LawsMaps
import Verif.Props.Lifetimes
import Verif.Props.Limiter
import Verif.Props.LinearAlgebra
import Verif.Props.LinearAlgebraUse
import Verif.Props.MISetMargin
import Verif.Props.MISetQueries
import Verif.Props.MVExpansion
import Verif.Props.MapFactory
import Verif.Props.Monotone
import Verif.Props.MonotoneQuad
import Verif.Props.MultiIndex
import Verif.Props.MultiIndex32
import Verif.Props.MultiIndexSet
import Verif.Props.Neighborhood
import Verif.Props.Nesting
import Verif.Props.NormalFit
import Verif.Props.Objective
import Verif.Props.Options
import Verif.Props.OrthoPoly
import Verif.Props.Overfitting
import Verif.Props.Parallel
import Verif.Props.QuadControl
import Verif.Props.QuadError
import Verif.Props.QuadGradient
import Verif.Props.QuadInverse
import Verif.Props.QuadObjects
import Verif.Props.Registry
import Verif.Props.Regression
import Verif.Props.RootFinding
import Verif.Props.RootFindingAny
import Verif.Props.RootFindingFp
import Verif.Props.Rounding
import Verif.Props.RoundingAffine
import Verif.Props.RoundingComponent
import Verif.Props.RoundingGaussian
import Verif.Props.Samplers
import Verif.Props.Scratch
import Verif.Props.Separable
import Verif.Props.Separate
import Verif.Props.Serialization
import Verif.Props.Settles
import Verif.Props.SharedComponent
import Verif.Props.SoftPlusFp
import Verif.Props.Summarized
import Verif.Props.TensorProduct
import Verif.Props.Train
import Verif.Props.TrainAdaptive
import Verif.Props.TrainAdaptiveCoeffs
import Verif.Props.Transports
import Verif.Props.Triangular
import Verif.Props.TriangularGradient
import Verif.Props.TriangularInverse
import Verif.Props.TriangularLaw
import Verif.Props.TriangularPushforward
import Verif.Props.TriangularSamples
import Verif.Props.TriangularTraining
import Verif.Props.Truncated
import Verif.Props.Units
import Verif.Props.UnitsSoftplus
import Verif.Props.Universal
import Verif.Props.UniversalLaw
import Verif.Spec.Affine
import Verif.Spec.Arrays
import Verif.Spec.Bindings
import Verif.Spec.Checkpointer
import Verif.Spec.Coeffs
import Verif.Spec.ComponentFp
import Verif.Spec.DeviceLinAlg
import Verif.Spec.DeviceMaps
import Verif.Spec.Distributions
import Verif.Spec.Divergence
import Verif.Spec.Expansion
import Verif.Spec.Factory
import Verif.Spec.FixedHist
import Verif.Spec.Identify
import Verif.Spec.Laws
import Verif.Spec.LinearAlgebra
import Verif.Spec.MISetHist
import Verif.Spec.Maps
import Verif.Spec.Monotone
import Verif.Spec.Nonzeros
import Verif.Spec.OrthoPoly
import Verif.Spec.QuadObjects
import Verif.Spec.Quadrature
import Verif.Spec.Rounding
import Verif.Spec.Scratch
import Verif.Spec.Separate
import Verif.Spec.Serialization
import Verif.Spec.TensorProduct
import Verif.Spec.Train
import Verif.Spec.TrainAdaptive
import Verif.Spec.TrainAdaptiveCoeffs
import Verif.Spec.Transports
import Verif.Spec.Vec
