import Verif.Spec
import Verif.SpecOrder
import Verif.Model.Interface
import Verif.Proofs.TimeApi
import Verif.Props.Example
import Verif.Props.Run
import Verif.Props.GraphProps
import Verif.Props.Manual
import Verif.Props.SweepProps
import Verif.Props.Tasks
import Verif.Props.LockProps
import Verif.Props.CurveProps
import Verif.Props.ProbProps
import Verif.Props.BufferProps
import Verif.Props.Refresh
import Verif.Props.RefreshLeast
import Verif.Props.RefreshFirst
import Verif.Props.MinTimeProps
import Verif.Props.AcceptProps
import Verif.Model.Timer
import Verif.Proofs.Timer
import Verif.Props.TimerProps
import Verif.Model.Codec
import Verif.Proofs.Codec
import Verif.Model.Serialized
import Verif.Props.FileProps
import Verif.Model.Cli
import Verif.Props.CliProps
import Verif.Model.Python
import Verif.Props.PythonProps
import Verif.Model.Results
import Verif.Proofs.Results
import Verif.Proofs.ResultsTime
import Verif.Props.ResultsProps
import Verif.Props.SeedProps
import Verif.Proofs.Effective
import Verif.Proofs.Part
import Verif.Props.Malformed
import Verif.Proofs.First
import Verif.Props.FirstProps
import Verif.Validation
import Verif.Props.DensityProps
import Verif.Model.Split
import Verif.Proofs.Split
import Verif.Props.SplitProps
import Verif.Model.Statistics
import Verif.Proofs.Statistics
import Verif.Proofs.Mean
import Verif.Props.StatisticsProps
import Verif.Proofs.Distribution
import Verif.Props.DistributionProps
import Verif.Props.TraceProps
import Verif.Proofs.Decomposition
import Verif.Props.DecompositionProps
import Verif.Proofs.Clip
import Verif.Proofs.ClipRun
import Verif.Props.NeighbourProps
import Verif.Proofs.Trace
import Verif.Proofs.Sound
import Verif.Proofs.Profile
import Verif.Props.RepeatedProps
import Verif.Proofs.Timeout
import Verif.Props.TimeoutProps
import Verif.Proofs.Simulate
import Verif.Proofs.SameLists
import Verif.Proofs.Layers
import Verif.Props.SameListsProps
import Verif.Model.Callback
import Verif.Proofs.Callback
import Verif.Proofs.CallbackAsked
import Verif.Proofs.CallbackCalls
import Verif.Props.CallbackProps
import Verif.Proofs.Size
import Verif.Proofs.SizeLower
import Verif.Props.SizeProps
import Verif.Props.QuietProps
import Verif.Props.PartProps
import Verif.Model.Plot
import Verif.Props.PlotProps
import Verif.Props.Completes
import Verif.Proofs.Found
import Verif.Proofs.Late
import Verif.Proofs.Greedy
import Verif.Props.FoundProps
import Verif.Props.FoundResults
import Verif.Props.ShortProps
import Verif.Model.Widget
import Verif.Proofs.Widget
import Verif.Props.WidgetProps
import Verif.Model.Roundtrip
import Verif.Proofs.Roundtrip
import Verif.Props.RoundtripProps
import Verif.Model.Instructor
import Verif.Proofs.Instructor
import Verif.Props.InstructorProps
import Verif.Proofs.Tried
import Verif.Props.OrderProps
import Verif.Model.Binary64
import Verif.Proofs.Binary64
import Verif.Proofs.Lucky
import Verif.Proofs.Stuck
import Verif.Props.LuckyProps
import Verif.Proofs.Params
import Verif.Proofs.ParamAnswer
import Verif.Props.ParamProps
import Verif.Model.Files
import Verif.Proofs.Files
import Verif.Props.FilesProps
import Verif.Proofs.Chance
import Verif.Proofs.ChanceUp
import Verif.Props.ChanceProps
import Verif.Proofs.Change
import Verif.Props.ChangeProps
import Verif.Model.Pool
import Verif.Proofs.Pool
import Verif.Proofs.Alone
import Verif.Props.PoolProps
import Verif.Proofs.Footprint
import Verif.Props.FootprintProps
import Verif.Props.TreeProps
import Verif.Proofs.Lonely
import Verif.Props.LonelyProps
import Verif.Props.LongerProps
import Verif.Model.Log
import Verif.Proofs.Log
import Verif.Proofs.LogRun
import Verif.Props.LogProps
import Verif.Props.OwnProps
import Verif.Proofs.InOrder
import Verif.Props.InOrderProps
import Verif.Proofs.AnyOrder
import Verif.Props.AnyOrderProps
import Verif.Proofs.Undisturbed
import Verif.Props.ApartProps
import Verif.Props.UndisturbedProps
