import Verif.Py
import Verif.PyLemmas
import Verif.ChannelSpec
import Verif.ChannelSpecLemmas
import Verif.ConciseLemmas
import Verif.Props.Fused
import Verif.Chan
import Verif.ChanLemmas
import Verif.Props.Chan
import Verif.Oset
import Verif.Props.Oset
import Verif.SensorChan
import Verif.SensorChanLemmas
import Verif.Props.SensorChan
import Verif.Helpers
import Verif.Props.Helpers
import Verif.Loader
import Verif.Props.Loader
import Verif.Affine
import Verif.Node
import Verif.Opt
import Verif.Sem
import Verif.Rules
import Verif.TakeLemmas
import Verif.OptLemmas
import Verif.Halt
import Verif.SimRules
import Verif.SizeRules
import Verif.Weights
import Verif.Terminate
import Verif.NameRules
import Verif.ExactRules
import Verif.Raster
import Verif.RasterLemmas
import Verif.KeepRules
import Verif.TakeTotal
import Verif.Built
import Verif.Props.Crop
import Verif.Props.Shape
import Verif.TakeView
import Verif.Props.Concat
import Verif.Props.Warp
import Verif.Props.Geometry
import Verif.Props.Opt
import Verif.Walk
import Verif.Props.Walk
import Verif.Props.Transform
import Verif.NetText
import Verif.NetTextLemmas
import Verif.Props.NetText
import Verif.NetParse
import Verif.NetParseLemmas
import Verif.NetParseSim
import Verif.Props.NetParse
import Verif.Undo
import Verif.Props.Undo
import Verif.Heap
import Verif.HeapLemmas
import Verif.HeapFrame
import Verif.Props.Heap
import Verif.Gdal
import Verif.Props.Gdal
import Verif.Props.Resize
import Verif.Params
import Verif.Props.Params
import Verif.Prepare
import Verif.Props.Prepare
import Verif.Fix
import Verif.Props.Fix
import Verif.Total
import Verif.Props.Total
import Verif.Written
import Verif.Props.Written
import Verif.Envi
import Verif.EnviLemmas
import Verif.Props.Envi
import Verif.Readers
import Verif.Props.Readers
import Verif.Check
import Verif.Props.Check
import Verif.Scale
import Verif.Masked
import Verif.Props.Level
import Verif.Props.Masked
import Verif.Split
import Verif.Props.Split
import Verif.Runtime
import Verif.Props.Runtime
import Verif.Props.Concise
import Verif.Props.Encode
import Verif.SrcRules
import Verif.Props.Source
import Verif.SensorChans
import Verif.Props.SensorChans
import Verif.ChanIdx
import Verif.Props.ChanIdx
import Verif.Equal
import Verif.Props.Equal
import Verif.Border
import Verif.Props.Border
import Verif.Files
import Verif.Props.Files
import Verif.Show
import Verif.Props.Show
import Verif.Opening
import Verif.Props.Opening
import Verif.Stride
import Verif.Props.Stride
import Verif.Nodata
import Verif.Props.Nodata
import Verif.Props.Absent
import Verif.Rename
import Verif.Props.Rename
import Verif.Props.Natural
import Verif.BuiltIff
import Verif.Props.Group
import Verif.Props.Early
import Verif.Props.Select
import Verif.SharpRules
import Verif.Props.Whole
import Verif.Nesting
import Verif.Props.Nesting
import Verif.Props.Needed
import Verif.Props.UndoEarly
import Verif.Props.Number
import Verif.Types
import Verif.TypeRules
import Verif.Props.Types
import Verif.Props.Once
import Verif.Props.OnceMore
import Verif.Stretch
import Verif.Props.Regroup
import Verif.Props.Same
import Verif.FloatSize
import Verif.Props.FloatSize
import Verif.Props.Parts
import Verif.Tagged
import Verif.TaggedLemmas
import Verif.Props.Tagged
import Verif.Props.Window
import Verif.Props.Overviews
import Verif.Props.Rigid
import Verif.Props.Aligned
import Verif.Props.Snug
import Verif.Props.Lasting
import Verif.Props.EarlyPaced
import Verif.Props.Blocks
import Verif.Props.Stepped
import Verif.Props.Cases
import Verif.Props.MoreCases
import Verif.Props.Calls
