import Verif.Basic
import Verif.Props.Decomp
import Verif.Props.Endian
import Verif.Props.IBM
import Verif.Props.CharEnc
import Verif.Props.Layout
import Verif.Props.Rule
import Verif.Props.Param
import Verif.Props.Scalar
import Verif.Props.DataIO
import Verif.Props.File
import Verif.Props.Widen
import Verif.Props.NonMono
import Verif.Props.Writer
import Verif.Props.Compare
import Verif.Props.Sort
import Verif.Props.SetFiles
import Verif.Props.Pipeline
import Verif.Props.Gather
import Verif.Props.MinMax
import Verif.Props.MinMaxTool
import Verif.Props.Logger
import Verif.Props.Lifecycle
import Verif.Props.AGC
import Verif.Props.Gain
import Verif.Props.Ramp
import Verif.Props.Poly
import Verif.Props.IIR
import Verif.Props.TempFilter
import Verif.Props.Design
import Verif.Props.Order
import Verif.Props.Sglobal
import Verif.Props.FileMake
import Verif.Props.MakeRep
import Verif.Props.MakeRepStd
import Verif.Props.Kml
import Verif.Props.Model3D
import Verif.Props.DistVec
import Verif.Props.FourD
import Verif.Props.FourDIO
import Verif.Props.Rounds
import Verif.Props.Comm
import Verif.Props.Angle
import Verif.Props.Cache
import Verif.Props.Output
import Verif.Props.Reread
import Verif.Flow.SortTool
import Verif.Props.SortTool
import Verif.Util.CopyTool
import Verif.Util.CreateTool
import Verif.Props.CopyTool
import Verif.Props.CreateTool
import Verif.Util.SwapTool
import Verif.Props.SwapTool
import Verif.Util.TurnTool
import Verif.Props.TurnTool
import Verif.Flow.Life
import Verif.Props.Life
import Verif.Flow.RadonTool
import Verif.Props.RadonTool
import Verif.Util.FourDOut
import Verif.Props.FourDOut
import Verif.Util.FourDCoords
import Verif.Props.FourDCoords
import Verif.Util.GenTool
import Verif.Props.GenTool
import Verif.Flow.Process
import Verif.Props.Process
import Verif.Props.SameOutput
import Verif.Props.Queue
import Verif.Util.RepTool
import Verif.Props.RepTool
import Verif.FP.Single
import Verif.Signal.Single
import Verif.Props.Single
import Verif.FP.Extended
import Verif.Signal.GainSingle
import Verif.Props.GainSingle
import Verif.Props.SortGather
import Verif.Util.FourDSingle
import Verif.Props.FourDSingle
import Verif.Util.KmlTool
import Verif.Props.KmlTool
import Verif.Props.FilterSingle
import Verif.Props.FilterFloats
import Verif.Flow.ConcatTool
import Verif.Props.ConcatTool
import Verif.Util.Options
import Verif.Flow.SortMain
import Verif.Props.SortMain
import Verif.Flow.SetExtremes
import Verif.Props.SetExtremes
import Verif.Props.GainFloats
import Verif.Flow.RadonMain
import Verif.Props.RadonMain
import Verif.Signal.Release
import Verif.Props.Release
import Verif.Util.Release
import Verif.Props.ReleaseTools
import Verif.Util.FourDMain
import Verif.Props.FourDMain
import Verif.Util.MinMaxMain
import Verif.Props.MinMaxMain
import Verif.Util.MakeMain
import Verif.Props.MakeMain
import Verif.Signal.Freq
import Verif.Props.Freq
import Verif.Flow.FreqSet
import Verif.Props.FreqSet
import Verif.Util.Assess
import Verif.Props.Assess
import Verif.Util.TraceTool
import Verif.Props.TraceTool
import Verif.Util.ExampleMain
import Verif.Props.ExampleMain
import Verif.Util.CopyMain
import Verif.Props.CopyMain
import Verif.Util.KmlMain
import Verif.Props.KmlMain
import Verif.Util.CLayout
import Verif.Props.CLayout
