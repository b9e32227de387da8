import Verif.Model.ApproxCalc
import Verif.Model.Bobs
import Verif.Model.Cliffords
import Verif.Model.CliffordsB
import Verif.Model.CliffordsR
import Verif.Model.CliffordsU
import Verif.Model.Distributions
import Verif.Model.EndToEnd
import Verif.Model.FixedLoss
import Verif.Model.GuanCode
import Verif.Model.MatrixDistance
import Verif.Model.Multiplicity
import Verif.Model.Networks
import Verif.Model.PermanentFactory
import Verif.Model.Permanents
import Verif.Model.QuantumUtilities
import Verif.Model.Reconfigured
import Verif.Model.Rounded
import Verif.Model.RoundedBobs
import Verif.Model.RoundedCliffordsB
import Verif.Model.RoundedCliffordsR
import Verif.Model.RoundedCliffordsU
import Verif.Model.RoundedCounting
import Verif.Model.RoundedDistributions
import Verif.Model.RoundedExpansion
import Verif.Model.RoundedExtraction
import Verif.Model.RoundedFixed
import Verif.Model.RoundedLosses
import Verif.Model.RoundedPermanents
import Verif.Model.RoundedPrimes
import Verif.Model.RoundedSampleBased
import Verif.Model.RoundedSamples
import Verif.Model.RoundedSubmatrix
import Verif.Model.RoundedTransmissivities
import Verif.Model.RoundedTvd
import Verif.Model.RoundedUniformBobs
import Verif.Model.SampleBased
import Verif.Model.SharedCalculator
import Verif.Model.SharedSamplers
import Verif.Model.Strategies
import Verif.Model.StrategyFactory
import Verif.Model.SubmatrixPermanents
import Verif.Model.UniformBobs
import Verif.Model.UniformBobsLevels
import Verif.Model.Utilities
import Verif.Prog
import Verif.Proofs.AccuracyLoop
import Verif.Proofs.ApproxCalc
import Verif.Proofs.ApproxStatistics
import Verif.Proofs.Arrangements
import Verif.Proofs.BlockLaws
import Verif.Proofs.BlockNetworks
import Verif.Proofs.Blocks
import Verif.Proofs.Bobs
import Verif.Proofs.BobsRuns
import Verif.Proofs.BobsSample
import Verif.Proofs.BoxSum
import Verif.Proofs.Classic
import Verif.Proofs.Cliffords
import Verif.Proofs.CliffordsB
import Verif.Proofs.CliffordsBRuns
import Verif.Proofs.CliffordsLoss
import Verif.Proofs.CliffordsR
import Verif.Proofs.CliffordsRFind
import Verif.Proofs.CliffordsRuns
import Verif.Proofs.CliffordsU
import Verif.Proofs.Closeness
import Verif.Proofs.ComplexFloats
import Verif.Proofs.Concentration
import Verif.Proofs.Correlations
import Verif.Proofs.Dict
import Verif.Proofs.Dilation
import Verif.Proofs.Distributions
import Verif.Proofs.EndToEnd
import Verif.Proofs.ExactLoss
import Verif.Proofs.FixedLoss
import Verif.Proofs.FixedLossRuns
import Verif.Proofs.Floats
import Verif.Proofs.Fock
import Verif.Proofs.FockStates
import Verif.Proofs.Generate
import Verif.Proofs.Glynn
import Verif.Proofs.Guan
import Verif.Proofs.GuanCalc
import Verif.Proofs.GuanSum
import Verif.Proofs.HybridMixture
import Verif.Proofs.IdentityNetwork
import Verif.Proofs.Independence
import Verif.Proofs.KPartitions
import Verif.Proofs.Layer
import Verif.Proofs.LossChannel
import Verif.Proofs.LossStability
import Verif.Proofs.Lossy
import Verif.Proofs.LossyErrors
import Verif.Proofs.LossyHash
import Verif.Proofs.LossyNet
import Verif.Proofs.Means
import Verif.Proofs.Mismatch
import Verif.Proofs.MismatchDist
import Verif.Proofs.Multiplicity
import Verif.Proofs.NearlyUnitary
import Verif.Proofs.NetworkErrors
import Verif.Proofs.NetworkSymmetry
import Verif.Proofs.NetworkThinning
import Verif.Proofs.Networks
import Verif.Proofs.NoState
import Verif.Proofs.NormKept
import Verif.Proofs.NumpyChoice
import Verif.Proofs.OneMode
import Verif.Proofs.Parseval
import Verif.Proofs.PermFinal
import Verif.Proofs.PermLink
import Verif.Proofs.PermanentFactory
import Verif.Proofs.PhaseMeans
import Verif.Proofs.PhaseMeasurement
import Verif.Proofs.PhaseMixture
import Verif.Proofs.PhasePairs
import Verif.Proofs.PhaseShift
import Verif.Proofs.Polar
import Verif.Proofs.PrimeFactors
import Verif.Proofs.Prog
import Verif.Proofs.ProgLoop
import Verif.Proofs.PyLemmas
import Verif.Proofs.QuantumUtilities
import Verif.Proofs.Reconfigured
import Verif.Proofs.ReflectedGray
import Verif.Proofs.RootStability
import Verif.Proofs.Rounded
import Verif.Proofs.RoundedBinomial
import Verif.Proofs.RoundedBobs
import Verif.Proofs.RoundedCalc
import Verif.Proofs.RoundedCliffordsB
import Verif.Proofs.RoundedCliffordsR
import Verif.Proofs.RoundedCliffordsU
import Verif.Proofs.RoundedCounting
import Verif.Proofs.RoundedDist
import Verif.Proofs.RoundedDraws
import Verif.Proofs.RoundedEntriesB
import Verif.Proofs.RoundedExpansion
import Verif.Proofs.RoundedExtraction
import Verif.Proofs.RoundedFixed
import Verif.Proofs.RoundedGlynn
import Verif.Proofs.RoundedGuan
import Verif.Proofs.RoundedLoss
import Verif.Proofs.RoundedLossLaw
import Verif.Proofs.RoundedNormal
import Verif.Proofs.RoundedPhases
import Verif.Proofs.RoundedPmf
import Verif.Proofs.RoundedPrimes
import Verif.Proofs.RoundedRecords
import Verif.Proofs.RoundedRuns
import Verif.Proofs.RoundedSafe
import Verif.Proofs.RoundedSampleBased
import Verif.Proofs.RoundedSamples
import Verif.Proofs.RoundedSquares
import Verif.Proofs.RoundedSubmatrix
import Verif.Proofs.RoundedTransmissivities
import Verif.Proofs.RoundedTvd
import Verif.Proofs.RoundedUniform
import Verif.Proofs.RoundedUniformBobs
import Verif.Proofs.RoundedUniformBobsRuns
import Verif.Proofs.SampleBased
import Verif.Proofs.SampleMeans
import Verif.Proofs.SamplerMemory
import Verif.Proofs.Scan
import Verif.Proofs.Scattering
import Verif.Proofs.SeqProb
import Verif.Proofs.SharedCalculator
import Verif.Proofs.SharedHistory
import Verif.Proofs.SharedSamplers
import Verif.Proofs.SingularValues
import Verif.Proofs.StateTypes
import Verif.Proofs.States
import Verif.Proofs.Statistics
import Verif.Proofs.StrategyFactory
import Verif.Proofs.Submatrix
import Verif.Proofs.SvdExists
import Verif.Proofs.Symmetry
import Verif.Proofs.Thinning
import Verif.Proofs.Thrown
import Verif.Proofs.ThrownLoss
import Verif.Proofs.UniformAgree
import Verif.Proofs.UniformBobs
import Verif.Proofs.UniformBobsLevels
import Verif.Proofs.UniformBobsRuns
import Verif.Proofs.UniformBobsSample
import Verif.Props.AccuracyLoop
import Verif.Props.Agreement
import Verif.Props.ApproxCalc
import Verif.Props.ApproxCorrelations
import Verif.Props.ApproxStatistics
import Verif.Props.Blocks
import Verif.Props.Bobs
import Verif.Props.BobsMixture
import Verif.Props.BobsModes
import Verif.Props.Cliffords
import Verif.Props.CliffordsR
import Verif.Props.CliffordsRFind
import Verif.Props.Conversions
import Verif.Props.Correlations
import Verif.Props.Distributions
import Verif.Props.EndToEnd
import Verif.Props.FixedLoss
import Verif.Props.Independence
import Verif.Props.LossStability
import Verif.Props.LossyErrors
import Verif.Props.LossyInputs
import Verif.Props.LossyNetworks
import Verif.Props.MatrixDistance
import Verif.Props.Means
import Verif.Props.Mismatch
import Verif.Props.MismatchDist
import Verif.Props.NearbyLosses
import Verif.Props.NearlyUnitary
import Verif.Props.NetworkErrors
import Verif.Props.NetworkEstimates
import Verif.Props.NetworkStatistics
import Verif.Props.NetworkSymmetry
import Verif.Props.Networks
import Verif.Props.PermanentFactory
import Verif.Props.Permanents
import Verif.Props.PhaseMeasurement
import Verif.Props.QuantumUtilities
import Verif.Props.Reconfigured
import Verif.Props.Rounded
import Verif.Props.RoundedBobs
import Verif.Props.RoundedCliffordsB
import Verif.Props.RoundedCliffordsR
import Verif.Props.RoundedCliffordsU
import Verif.Props.RoundedCounting
import Verif.Props.RoundedDistributions
import Verif.Props.RoundedExpansion
import Verif.Props.RoundedExtraction
import Verif.Props.RoundedFixed
import Verif.Props.RoundedLaw
import Verif.Props.RoundedLosses
import Verif.Props.RoundedPermanents
import Verif.Props.RoundedPrimes
import Verif.Props.RoundedRecords
import Verif.Props.RoundedSampleBased
import Verif.Props.RoundedSamples
import Verif.Props.RoundedSubmatrix
import Verif.Props.RoundedTransmissivities
import Verif.Props.RoundedTvd
import Verif.Props.RoundedUniformBobs
import Verif.Props.SampleBased
import Verif.Props.Scattering
import Verif.Props.SeparableErrors
import Verif.Props.SeparableMixture
import Verif.Props.SharedCalculator
import Verif.Props.SharedSamplers
import Verif.Props.SharpBounds
import Verif.Props.StateSpace
import Verif.Props.StateTypes
import Verif.Props.Statistics
import Verif.Props.StrategyFactory
import Verif.Props.Submatrix
import Verif.Props.Symmetry
import Verif.Props.Thinning
import Verif.Props.UniformBobs
import Verif.Props.UniformBobsLevels
import Verif.Py
import Verif.Spec.Blocks
import Verif.Spec.Bobs
import Verif.Spec.CliffordsR
import Verif.Spec.Closeness
import Verif.Spec.ComplexFloats
import Verif.Spec.Correlations
import Verif.Spec.Dilation
import Verif.Spec.EndToEnd
import Verif.Spec.Floats
import Verif.Spec.Fock
import Verif.Spec.Gray
import Verif.Spec.GuanTrace
import Verif.Spec.Means
import Verif.Spec.Measurement
import Verif.Spec.Mismatch
import Verif.Spec.MismatchDist
import Verif.Spec.Multinomial
import Verif.Spec.Permanent
import Verif.Spec.PermanentFactory
import Verif.Spec.PhaseFloats
import Verif.Spec.Reconfigured
import Verif.Spec.Recorded
import Verif.Spec.RoundedBobs
import Verif.Spec.RoundedCliffordsR
import Verif.Spec.RoundedExpansion
import Verif.Spec.RoundedExtraction
import Verif.Spec.RoundedSampleBased
import Verif.Spec.Separable
import Verif.Spec.SharedSamplers
import Verif.Spec.States
import Verif.Spec.StrategyFactory
import Verif.Spec.Symmetry
import Verif.Spec.Thinning
import Verif.Spec.UniformBobs
