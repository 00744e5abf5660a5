import Verif.Lemmas.Basis
import Verif.Lemmas.Convert
import Verif.Lemmas.Dft
import Verif.Lemmas.Eigen
import Verif.Lemmas.Evolve
import Verif.Lemmas.Grid
import Verif.Lemmas.Hermite
import Verif.Lemmas.Kron
import Verif.Lemmas.Unfurl
import Verif.Lemmas.Vnorm
import Verif.Model.BandEnergies
import Verif.Model.Basis
import Verif.Model.BasisBuilders
import Verif.Model.Bloch
import Verif.Model.Cache
import Verif.Model.Collapse
import Verif.Model.ConvertMatrix
import Verif.Model.DiagonalLocalization
import Verif.Model.DiagonalizedSse
import Verif.Model.Dynamics
import Verif.Model.EigenOccupations
import Verif.Model.EigenstateBases
import Verif.Model.ExplicitZ
import Verif.Model.ExplicitZFundamental
import Verif.Model.Fft
import Verif.Model.Generate
import Verif.Model.Generator
import Verif.Model.Geometry
import Verif.Model.Grid
import Verif.Model.InitialStates
import Verif.Model.Interp
import Verif.Model.Isf
import Verif.Model.IsfFit
import Verif.Model.Kernel
import Verif.Model.KernelBuild
import Verif.Model.KernelConvert
import Verif.Model.KernelFft
import Verif.Model.KernelTaylor
import Verif.Model.KernelTemperature
import Verif.Model.Localization
import Verif.Model.LocalizedMass
import Verif.Model.Operator
import Verif.Model.Overlap
import Verif.Model.Pad
import Verif.Model.PlotBands
import Verif.Model.PlotBasisStates
import Verif.Model.PlotData
import Verif.Model.PlotDistribution
import Verif.Model.PlotIsf
import Verif.Model.PlotKernel
import Verif.Model.PlotLattice
import Verif.Model.PlotLists
import Verif.Model.PlotMatrices
import Verif.Model.PlotOccupations
import Verif.Model.PlotOperators
import Verif.Model.PlotProbabilities
import Verif.Model.PlotStateLists
import Verif.Model.PlotStates
import Verif.Model.PlotTrajectories
import Verif.Model.PlotVolumes
import Verif.Model.PlotWavepackets
import Verif.Model.PositionAverage
import Verif.Model.PositionOperator
import Verif.Model.Potential
import Verif.Model.PotentialFiles
import Verif.Model.PotentialPlots
import Verif.Model.ProbabilityConvert
import Verif.Model.ProjectedPoints
import Verif.Model.Projection
import Verif.Model.ProjectionLocalization
import Verif.Model.Reduce
import Verif.Model.Sesolve
import Verif.Model.Sho
import Verif.Model.ShoSubtracted
import Verif.Model.Slice
import Verif.Model.SliceAlong
import Verif.Model.State
import Verif.Model.StateConversion
import Verif.Model.Stochastic
import Verif.Model.TightBinding
import Verif.Model.Trajectory
import Verif.Model.TunnellingBasis
import Verif.Model.TunnellingIsf
import Verif.Model.Uneven
import Verif.Model.Util
import Verif.Model.Wannier
import Verif.Model.Wannier90
import Verif.Model.Wannier90Run
import Verif.Model.Wavepacket
import Verif.Props.C01_Pad
import Verif.Props.C03_Index
import Verif.Props.C06_Lattice
import Verif.Props.C07_DataInAxes
import Verif.Props.C08_Paths
import Verif.Props.C101_Trajectory
import Verif.Props.C104_Position
import Verif.Props.C105_Spread
import Verif.Props.C107_Generate
import Verif.Props.C10_Convert
import Verif.Props.C110_BlochTheorem
import Verif.Props.C111_BlochOperator
import Verif.Props.C112_TightBindingState
import Verif.Props.C113_InitialStates
import Verif.Props.C116_Uneven
import Verif.Props.C117_Projection
import Verif.Props.C119_GaussianState
import Verif.Props.C120_KernelConvert
import Verif.Props.C121_Overlaps
import Verif.Props.C122_UMat
import Verif.Props.C123_Amn
import Verif.Props.C125_Probability
import Verif.Props.C126_PlotSlices
import Verif.Props.C127_PlotLine
import Verif.Props.C128_Occupations
import Verif.Props.C129_ValueLists
import Verif.Props.C130_Sparsity
import Verif.Props.C131_Paths
import Verif.Props.C132_Collapse
import Verif.Props.C133_BandOccupations
import Verif.Props.C134_KernelPlots
import Verif.Props.C135_EffectiveMass
import Verif.Props.C136_EigenOccupations
import Verif.Props.C137_PlotStates
import Verif.Props.C138_Bands
import Verif.Props.C139_Sesolve
import Verif.Props.C140_TemperatureGaussian
import Verif.Props.C141_BasisBuilders
import Verif.Props.C142_LocalizedMass
import Verif.Props.C143_PlotWavepackets
import Verif.Props.C144_IsfFit
import Verif.Props.C145_DiagonalLocalization
import Verif.Props.C147_PositionMomentum
import Verif.Props.C148_ProjectionLocalization
import Verif.Props.C149_PositionOperator
import Verif.Props.C150_PotentialPlots
import Verif.Props.C151_ShoSubtracted
import Verif.Props.C152_TunnellingBasis
import Verif.Props.C153_PlotLattice
import Verif.Props.C154_PlotStateLists
import Verif.Props.C155_PlotOperators
import Verif.Props.C156_PlotDistribution
import Verif.Props.C157_TunnellingIsf
import Verif.Props.C158_PlotMatrices
import Verif.Props.C159_PlotTrajectories
import Verif.Props.C15_Stacked
import Verif.Props.C160_PlotIsf
import Verif.Props.C161_PlotVolumes
import Verif.Props.C162_PlotProbabilities
import Verif.Props.C164_ExplicitZFundamental
import Verif.Props.C165_EigenstateBases
import Verif.Props.C166_PlotBasisStates
import Verif.Props.C167_DiagonalizedSse
import Verif.Props.C168_Wannier90Run
import Verif.Props.C169_PotentialFiles
import Verif.Props.C170_SliceAlong
import Verif.Props.C171_ProjectedPoints
import Verif.Props.C19_Interp
import Verif.Props.C20_RealInterp
import Verif.Props.C22_Zone
import Verif.Props.C24_AverageIndex
import Verif.Props.C25_States
import Verif.Props.C26_Eigen
import Verif.Props.C28_Projection
import Verif.Props.C29_Operators
import Verif.Props.C30_Averages
import Verif.Props.C32_Schrodinger
import Verif.Props.C34_Tunnelling
import Verif.Props.C38_Hops
import Verif.Props.C39_Stochastic
import Verif.Props.C41_Localized
import Verif.Props.C42_Isf
import Verif.Props.C43_Gamma
import Verif.Props.C45_Unfurl
import Verif.Props.C47_Sampled
import Verif.Props.C48_Bloch
import Verif.Props.C49_Shape
import Verif.Props.C50_Localization
import Verif.Props.C52_Wannier
import Verif.Props.C53_TightBinding
import Verif.Props.C55_Kernel
import Verif.Props.C56_NoiseOperators
import Verif.Props.C57_KernelFft
import Verif.Props.C57_KernelFftStacked
import Verif.Props.C58_Fit
import Verif.Props.C58_GaussianTaylor
import Verif.Props.C58_Taylor
import Verif.Props.C60_AxisKernel
import Verif.Props.C62_Truncate
import Verif.Props.C63_Temperature
import Verif.Props.C64_Gaussian
import Verif.Props.C65_Sample
import Verif.Props.C66_Potential
import Verif.Props.C68_Continuous
import Verif.Props.C69_Hamiltonian
import Verif.Props.C73_Overlap
import Verif.Props.C75_Interpolator
import Verif.Props.C77_Cache
import Verif.Props.C78_Util
import Verif.Props.C91_WannierHamiltonian
import Verif.Props.C92_Generator
import Verif.Props.C93_Oscillator
import Verif.Props.C94_ExplicitZ
import Verif.Props.C95_ShoBasis
import Verif.Props.C99_AngleAverage
import Verif.Spec.Basis
import Verif.Spec.Eigen
import Verif.Spec.Fit
import Verif.Spec.Grid
import Verif.Spec.Hamiltonian
import Verif.Spec.Kernel
import Verif.Spec.Matrix
import Verif.Spec.Periodic
import Verif.Spec.Reduce
import Verif.Spec.Sho
import Verif.Spec.Sse
import Verif.Spec.Wavepacket
