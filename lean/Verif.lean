import Verif.Model.Amplitude
import Verif.Model.Cache
import Verif.Model.Classes
import Verif.Model.Common
import Verif.Model.DMatrixArbitrary
import Verif.Model.DMatrixReal
import Verif.Model.Demos
import Verif.Model.Denoising
import Verif.Model.EigenClean
import Verif.Model.EigenvalueFigure
import Verif.Model.ErrorFigure
import Verif.Model.Executor
import Verif.Model.Experiments
import Verif.Model.Functions
import Verif.Model.Harmonic
import Verif.Model.HarmonicIndex
import Verif.Model.Integration
import Verif.Model.LimitLatLon
import Verif.Model.Masks
import Verif.Model.MeshCache
import Verif.Model.MeshClasses
import Verif.Model.MeshLaplacian
import Verif.Model.MeshRead
import Verif.Model.MeshScript
import Verif.Model.MeshTransform
import Verif.Model.Noise
import Verif.Model.NumPy
import Verif.Model.ObjectUses
import Verif.Model.OrderPanels
import Verif.Model.Parallel
import Verif.Model.Plot
import Verif.Model.PlotSetup
import Verif.Model.PolarFigures
import Verif.Model.PolarMatrix
import Verif.Model.PolarOrders
import Verif.Model.Pooch
import Verif.Model.Python
import Verif.Model.RandomSignals
import Verif.Model.Ranks
import Verif.Model.Reconstructions
import Verif.Model.Region
import Verif.Model.RegionAssign
import Verif.Model.Script
import Verif.Model.SharedMemory
import Verif.Model.SigmaJ
import Verif.Model.SlepianTransform
import Verif.Model.SmallFigures
import Verif.Model.Sparsity
import Verif.Model.SphereScript
import Verif.Model.Strings
import Verif.Model.Thresholding
import Verif.Model.Tiling
import Verif.Model.TilingFigure
import Verif.Model.Wavelets
import Verif.Model.Wigner
import Verif.Spec.BestConcentrated
import Verif.Spec.Concentration
import Verif.Spec.Convolution
import Verif.Spec.Denoising
import Verif.Spec.Eigen
import Verif.Spec.Falloff
import Verif.Spec.Figure
import Verif.Spec.Harmonics
import Verif.Spec.Legendre
import Verif.Spec.RealSignal
import Verif.Spec.Rotation
import Verif.Spec.SlepianField
import Verif.Spec.Sparse
import Verif.Spec.StandardNormals
import Verif.Spec.Surface
import Verif.Spec.Synthesis
import Verif.Spec.WignerD
import Verif.Lemmas.Addition
import Verif.Lemmas.Bessel
import Verif.Lemmas.BestConcentrated
import Verif.Lemmas.BestOnSphere
import Verif.Lemmas.Cache
import Verif.Lemmas.CapEnergy
import Verif.Lemmas.ClenshawCurtis
import Verif.Lemmas.CompareConcentration
import Verif.Lemmas.Concentration
import Verif.Lemmas.Convolution
import Verif.Lemmas.DMatrixArbitrary
import Verif.Lemmas.DMatrixReal
import Verif.Lemmas.Denoising
import Verif.Lemmas.Determined
import Verif.Lemmas.Display
import Verif.Lemmas.Dixon
import Verif.Lemmas.Earth
import Verif.Lemmas.EigenClean
import Verif.Lemmas.EigenExists
import Verif.Lemmas.Experiments
import Verif.Lemmas.FormErrors
import Verif.Lemmas.Functions
import Verif.Lemmas.Gaunt
import Verif.Lemmas.GauntWigner
import Verif.Lemmas.Gram
import Verif.Lemmas.GridHarmonics
import Verif.Lemmas.HarmonicIndex
import Verif.Lemmas.Integration
import Verif.Lemmas.Interlacing
import Verif.Lemmas.Leakage
import Verif.Lemmas.Legendre
import Verif.Lemmas.LimitLatLon
import Verif.Lemmas.MaskCount
import Verif.Lemmas.MaskRank
import Verif.Lemmas.MeshCache
import Verif.Lemmas.MeshTransform
import Verif.Lemmas.Motions
import Verif.Lemmas.MovedRegion
import Verif.Lemmas.Names
import Verif.Lemmas.NearReconstruction
import Verif.Lemmas.Noise
import Verif.Lemmas.NoisePower
import Verif.Lemmas.Pairs
import Verif.Lemmas.Parallel
import Verif.Lemmas.Peaks
import Verif.Lemmas.Perturbation
import Verif.Lemmas.Plot
import Verif.Lemmas.PlotSetup
import Verif.Lemmas.PolarCap
import Verif.Lemmas.PolarFigures
import Verif.Lemmas.Racah
import Verif.Lemmas.RandomSignals
import Verif.Lemmas.Rayleigh
import Verif.Lemmas.RegionEnergy
import Verif.Lemmas.RelyGuarantee
import Verif.Lemmas.Rodrigues
import Verif.Lemmas.Rotation
import Verif.Lemmas.SampleVariance
import Verif.Lemmas.Sampling
import Verif.Lemmas.SigmaJ
import Verif.Lemmas.SlepianTransform
import Verif.Lemmas.Sparsity
import Verif.Lemmas.SphHarm
import Verif.Lemmas.Strings
import Verif.Lemmas.SumOfNumbers
import Verif.Lemmas.Superposition
import Verif.Lemmas.Surface
import Verif.Lemmas.Symmetry
import Verif.Lemmas.Thresholding
import Verif.Lemmas.Tiling
import Verif.Lemmas.TilingFigure
import Verif.Lemmas.Units
import Verif.Lemmas.Vanishing
import Verif.Lemmas.Wavelets
import Verif.Lemmas.WhiteNoise
import Verif.Lemmas.Wigner
import Verif.Lemmas.WignerD
import Verif.Lemmas.Writes
import Verif.Props.Amplitude
import Verif.Props.BandlimitChange
import Verif.Props.BestConcentrated
import Verif.Props.Cache
import Verif.Props.CacheOrders
import Verif.Props.ClassArgs
import Verif.Props.ClassCoefficients
import Verif.Props.ClassNames
import Verif.Props.ClassReality
import Verif.Props.CoefficientSizes
import Verif.Props.ConcentratedCount
import Verif.Props.Concentration
import Verif.Props.ConcentrationGrid
import Verif.Props.ConcentrationLatLon
import Verif.Props.ConcentrationPolar
import Verif.Props.Convolution
import Verif.Props.Covariances
import Verif.Props.CoveredRegions
import Verif.Props.DMatrixArbitrary
import Verif.Props.DMatrixReal
import Verif.Props.DataErrors
import Verif.Props.Demos
import Verif.Props.DenoisedEnergy
import Verif.Props.Denoising
import Verif.Props.Earth
import Verif.Props.EigenClean
import Verif.Props.EigenvalueFigure
import Verif.Props.EndToEnd
import Verif.Props.ErrorFigure
import Verif.Props.Figure
import Verif.Props.FigureNames
import Verif.Props.FirstDecides
import Verif.Props.FunctionNames
import Verif.Props.FunctionObjects
import Verif.Props.Functions
import Verif.Props.HarmonicIndex
import Verif.Props.HiddenArea
import Verif.Props.Integration
import Verif.Props.KeptEigenvalues
import Verif.Props.LimitLatLon
import Verif.Props.Masks
import Verif.Props.MatrixErrors
import Verif.Props.MeshArgs
import Verif.Props.MeshCache
import Verif.Props.MeshCoefficients
import Verif.Props.MeshEndToEnd
import Verif.Props.MeshFigureNames
import Verif.Props.MeshIntegrals
import Verif.Props.MeshLaplacian
import Verif.Props.MeshRead
import Verif.Props.MeshScript
import Verif.Props.MeshSizes
import Verif.Props.MeshTransform
import Verif.Props.MeshWavelets
import Verif.Props.MovedRegions
import Verif.Props.NearReconstruction
import Verif.Props.Noise
import Verif.Props.ObjectUses
import Verif.Props.OptimalReconstruction
import Verif.Props.OrderPanels
import Verif.Props.Parallel
import Verif.Props.PeakValues
import Verif.Props.Plot
import Verif.Props.PlotGeometry
import Verif.Props.PolarCap
import Verif.Props.PolarFigures
import Verif.Props.PolarOrders
import Verif.Props.Pooch
import Verif.Props.RandomSignals
import Verif.Props.Ranks
import Verif.Props.Reconstruction
import Verif.Props.ReconstructionFigures
import Verif.Props.Region
import Verif.Props.RegionAssign
import Verif.Props.RegionChanges
import Verif.Props.RegionNames
import Verif.Props.RegionSymmetry
import Verif.Props.RelatedRegions
import Verif.Props.Rotation
import Verif.Props.Sampling
import Verif.Props.Script
import Verif.Props.SharedMemory
import Verif.Props.SharedNames
import Verif.Props.SigmaJ
import Verif.Props.SlepianClasses
import Verif.Props.SlepianFields
import Verif.Props.SlepianTransform
import Verif.Props.SlepianWavelets
import Verif.Props.SmallFigures
import Verif.Props.SmallRegions
import Verif.Props.Snr
import Verif.Props.SolverIndependence
import Verif.Props.Sparsity
import Verif.Props.SphereScript
import Verif.Props.Strings
import Verif.Props.Superposition
import Verif.Props.SymmetricSignals
import Verif.Props.Thresholding
import Verif.Props.Tiling
import Verif.Props.TilingCurves
import Verif.Props.TilingFigure
import Verif.Props.Units
import Verif.Props.Upsampling
import Verif.Props.WaveletEndToEnd
import Verif.Props.Wavelets
import Verif.Props.WrongFunctions
import Verif.Audit
