import Verif.Props.Acn
import Verif.Props.Allrad2
import Verif.Props.Allrap2
import Verif.Props.AmbiDecoders
import Verif.Props.AmbiPanning
import Verif.Props.AmbiSetup
import Verif.Props.AnalysisTurned
import Verif.Props.AngleBetween
import Verif.Props.Angles
import Verif.Props.Arriving
import Verif.Props.AudioFiles
import Verif.Props.AxisAngle
import Verif.Props.BeamProducts
import Verif.Props.Beamformers
import Verif.Props.Binaural
import Verif.Props.Binauralize
import Verif.Props.Blocks
import Verif.Props.Brirs
import Verif.Props.Bsdm
import Verif.Props.Butterworth
import Verif.Props.ClippingCurve
import Verif.Props.Coordinates
import Verif.Props.Covariance
import Verif.Props.Ctf
import Verif.Props.DefaultHrirs
import Verif.Props.DesignDecoding
import Verif.Props.Directivity
import Verif.Props.DummyHrirs
import Verif.Props.EnergyVector
import Verif.Props.EulerAngles
import Verif.Props.FaceGeometry
import Verif.Props.FilterTable
import Verif.Props.Filterbank
import Verif.Props.FilterbankBands
import Verif.Props.Filtering
import Verif.Props.FiveDesign
import Verif.Props.GridOrder
import Verif.Props.GridWeights
import Verif.Props.Grids
import Verif.Props.HeadTurn
import Verif.Props.Headroom
import Verif.Props.Histories
import Verif.Props.Hrirs
import Verif.Props.HullChecks
import Verif.Props.HullNormals
import Verif.Props.Imaginary
import Verif.Props.IntensityLocal
import Verif.Props.Interaural
import Verif.Props.LagrangeFlat
import Verif.Props.Layouts
import Verif.Props.LevelInvariance
import Verif.Props.MagLs
import Verif.Props.MaxRE
import Verif.Props.MaxREOptimal
import Verif.Props.MaxREThreshold
import Verif.Props.Mirror
import Verif.Props.ModalWeights
import Verif.Props.ModeMatching
import Verif.Props.Moments
import Verif.Props.MultiSignal
import Verif.Props.OneByOne
import Verif.Props.OrderWeights
import Verif.Props.Parseval
import Verif.Props.PerformanceGains
import Verif.Props.Pipeline
import Verif.Props.PlotMaps
import Verif.Props.PlotMisc
import Verif.Props.PlotPerformance
import Verif.Props.PlotShapes
import Verif.Props.PlotSpectra
import Verif.Props.PostEq
import Verif.Props.PostEq2
import Verif.Props.ProcessFilters
import Verif.Props.ProcessSignals
import Verif.Props.Procrustes
import Verif.Props.PseudoIntensity
import Verif.Props.Refining
import Verif.Props.Renumbered
import Verif.Props.RetainOutside
import Verif.Props.RotationGroup
import Verif.Props.Rotations3
import Verif.Props.Scaled
import Verif.Props.SceneSharpness
import Verif.Props.SdmAlgebra
import Verif.Props.SdmRender
import Verif.Props.Sector
import Verif.Props.SectorsTogether
import Verif.Props.SectorsTurned
import Verif.Props.SetupHeap
import Verif.Props.ShAlgebra
import Verif.Props.ShComplex
import Verif.Props.ShFormats
import Verif.Props.ShMultComplex
import Verif.Props.ShRotation
import Verif.Props.ShTruncate
import Verif.Props.Sharpest
import Verif.Props.SharpestEnergy
import Verif.Props.SignalBasics
import Verif.Props.SignalConv
import Verif.Props.SignalCopies
import Verif.Props.SignalFiles
import Verif.Props.Signals
import Verif.Props.Smoothing
import Verif.Props.Sofa
import Verif.Props.SourceScene
import Verif.Props.SphDesigns
import Verif.Props.SphMisc
import Verif.Props.SphereModes
import Verif.Props.SubbandLevels
import Verif.Props.Superposition
import Verif.Props.Surround
import Verif.Props.TimeUnit
import Verif.Props.Triangles
import Verif.Props.Truncated
import Verif.Props.Turned
import Verif.Props.UtilsArrays
import Verif.Props.UtilsMisc
import Verif.Props.Vbap
import Verif.Props.VbapEdges
import Verif.Props.VbapHistory
import Verif.Props.VbipEnergy
import Verif.Audit
