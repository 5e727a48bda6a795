import Verif.Num
import Verif.Triangle
import Verif.Averages
import Verif.Base
import Verif.Cache
import Verif.Exclude
import Verif.RealFun
import Verif.Spec
import Verif.LabelLemmas
import Verif.RecLemmas
import Verif.FillLemmas
import Verif.TblLemmas
import Verif.RoundLemmas
import Verif.AccessLemmas
import Verif.AvgLemmas
import Verif.AvgTable
import Verif.Examples
import Verif.BaseLemmas
import Verif.Mack
import Verif.MackLemmas
import Verif.MackCore
import Verif.Bootstrap
import Verif.BootList
import Verif.BootCore
import Verif.BootFit
import Verif.BootSim
import Verif.Quantile
import Verif.Diagnostics
import Verif.DiagLemmas
import Verif.Props.Construct
import Verif.Props.Cumulative
import Verif.Props.RoundTrip
import Verif.Props.Access
import Verif.Props.LinkRatios
import Verif.Props.Averages
import Verif.Props.Base
import Verif.Props.BaseScale
import Verif.Props.BaseMore
import Verif.Props.GeoMean
import Verif.Props.Mack
import Verif.Props.MackErrors
import Verif.Props.MackReal
import Verif.Props.Boot
import Verif.Props.BootSim
import Verif.Props.Quantile
import Verif.Props.Diag
import Verif.Props.Diag2
import Verif.Props.Resid
import Verif.Frame
import Verif.FrameLemmas
import Verif.Utils
import Verif.Props.Frame
import Verif.Props.Utils
import Verif.Props.Ticks
import Verif.Props.BootMore
import Verif.Transform
import Verif.MackTests
import Verif.Props.Transform
import Verif.Props.BootSumm
import Verif.Props.BootKeys
import Verif.Props.Tests
import Verif.Props.ResidOrigin
import Verif.Props.EndToEnd
import Verif.Props.MackScale
import Verif.Props.MackScaleReal
import Verif.Props.Relabel
import Verif.Props.RelabelBoot
import Verif.Props.RelabelDev
import Verif.Props.Influence
import Verif.QuantTables
import Verif.Props.QuantTables
import Verif.Props.BootScale
import Verif.Props.BootYoung
import Verif.Dist
import Verif.Props.Dist
import Verif.Density
import Verif.Props.Density
import Verif.Props.Divers
import Verif.BootTable
import Verif.Props.BootTable
import Verif.Views
import Verif.Props.Views
import Verif.Props.BootErr
import Verif.GammaLaw
import Verif.Props.Process
import Verif.Props.MackModel
import Verif.Props.MackPredict
import Verif.Props.Resample
import Verif.ResidDetail
import Verif.Props.ResidDetail
import Verif.MackPath
import Verif.MackFactors
import Verif.Props.MackMse
import Verif.BootPlot
import Verif.Props.BootPlot
import Verif.Props.OdpFit
import Verif.Converge
import Verif.Props.Converge
import Verif.Shapes
import Verif.Props.Shapes
import Verif.BootShapes
import Verif.Props.BootShapes
import Verif.MackShapes
import Verif.Props.MackShapes
import Verif.Exhibits
import Verif.Props.Exhibits
import Verif.Props.Windows
import Verif.Print
import Verif.Props.Print
import Verif.BootPanels
import Verif.Props.BootPanels
import Verif.Rounded
import Verif.RoundedLemmas
import Verif.RoundedError
import Verif.FloatRd
import Verif.Props.Rounded
import Verif.Props.RoundedOrder
import Verif.RoundedTri
import Verif.Props.RoundedTri
import Verif.Props.RoundedScale
import Verif.Props.RoundedEnd
import Verif.KahanError
import Verif.Props.RoundedSums
import Verif.Props.Exclusions
import Verif.RoundedMack
import Verif.RoundedMackLemmas
import Verif.Props.RoundedMack
import Verif.Props.RoundedMackScale
import Verif.Props.RoundedMackError
import Verif.Props.Sharp
import Verif.Props.SharpAccess
import Verif.Props.SharpCum
import Verif.Props.SharpGap
import Verif.Props.UnknownLabel
import Verif.MackObj
import Verif.Props.MackObj
import Verif.Props.MissingRatio
import Verif.NearNonneg
import Verif.Props.RoundedMse
import Verif.Props.MedialRaise
import Verif.RoundedBoot
import Verif.Props.RoundedBoot
import Verif.Props.RoundedMedial
import Verif.RoundedGeo
import Verif.Props.RoundedGeo
import Verif.RoundedSim
import Verif.RoundedSimCore
import Verif.Props.RoundedSim
import Verif.Props.Swap
import Verif.Props.SwapSim
import Verif.RoundedQuant
import Verif.Props.QuantStable
import Verif.Props.RoundedQuant
import Verif.Props.RoundedLevels
import Verif.RoundedMackSumm
import Verif.Props.RoundedMackSumm
import Verif.RoundedBootSumm
import Verif.Welford
import Verif.Props.RoundedBootSumm
import Verif.QuantRows
import Verif.Props.RoundedBootEnd
import Verif.RoundedDiag
import Verif.RoundedDiagLemmas
import Verif.Props.RoundedDiag
import Verif.Props.RoundedCal
import Verif.Props.RoundedAssign
import Verif.RoundedTests
import Verif.Props.RoundedTests
import Verif.PermMoments
import Verif.Props.NullTests
import Verif.Props.NullCal
import Verif.SignWalk
import Verif.Props.NullTotal
import Verif.Props.RoundedRange
import Verif.Props.BootBias
import Verif.DevConvex
import Verif.Props.BootJensen
import Verif.Props.BootLimit
import Verif.Props.BootDiverge
import Verif.Pole
import Verif.Props.BootNoMean
import Verif.Props.Perturb
import Verif.Props.MackContinuous
import Verif.Props.ExcludeHigh
import Verif.Props.OriginScale
import Verif.Props.WindowLocal
import Verif.Props.MackRelative
import Verif.Props.FactorRange
import Verif.Props.OtherOrigins
import Verif.Props.MackSpread
import Verif.Props.Backtest
import Verif.Props.AvgOrder
import Verif.Props.LostPeriod
import Verif.Props.ExcludeBoot
import Verif.Props.QuantSum
import Verif.Props.BootContinuous
import Verif.Props.MackAlpha
import Verif.Props.MissingFactor
import Verif.Props.OneAmount
import Verif.RoundedSel
import Verif.Props.RoundedSel
import Verif.Props.MackExpected
import Verif.Props.BootExpected
import Verif.Props.AvgExpected
import Verif.Props.FactorChange
import Verif.Props.ActualExpected
import Verif.Props.AboveExpected
import Verif.Props.WindowExpected
import Verif.Props.MedialExpected
import Verif.Props.ActualRounded
import Verif.Props.MackUpdate
import Verif.Props.WindowUpdate
import Verif.Props.FactorError
import Verif.Props.AllUpdate
import Verif.Props.ExcludeMedial
import Verif.Props.MedialWindow
import Verif.Props.MackExclude
import Verif.Props.MedialUpdate
import Verif.Props.MedialTies
import Verif.Props.LastVariance
import Verif.Props.MedialAmount
import Verif.Props.Convexity
