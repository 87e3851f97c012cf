import Verif.Rust
import Verif.Coding.Props
import Verif.Coding.StreamProps
import Verif.Fixed.Props
import Verif.Fixed.Convert
import Verif.Fixed.MoreProps
import Verif.Fixed.EdgeProps
import Verif.Est.Props
import Verif.Est.FixedProps
import Verif.Est.RatesProps
import Verif.Est.RegretProps
import Verif.Est.CodedProps
import Verif.Log2.Props
import Verif.Bits
import Verif.State.Props
import Verif.Util.Props
import Verif.Util.HashProps
import Verif.Vectors
import Verif.Window.Props
import Verif.Window.IllegalProps
import Verif.Window.EndProps
import Verif.History.Props
import Verif.History.FatProps
import Verif.Tree.NodesProps
import Verif.Tree.Props
import Verif.Tree.PrefixProps
import Verif.Tree.CheckProps
import Verif.Tree.SoundProps
import Verif.Tree.FollowSpec
import Verif.Tree.FollowProps
import Verif.Tree.PrintProps
import Verif.Tree.PrintRun
import Verif.Tree.ShapeProps
import Verif.Tree.ShrinkProps
import Verif.Tree.ContextProps
import Verif.Tree.MemoProps
import Verif.Lut.Props
import Verif.Lut.RealProps
import Verif.Lut.SquashRel
import Verif.Lut.ComposeProps
import Verif.Lut.LogitProps
import Verif.Mix.MixerProps
import Verif.Mix.FreshProps
import Verif.Mix.RegretProps
import Verif.Mix.LearnProps
import Verif.Pred.LearnProps
import Verif.Mix.ProbProps
import Verif.Pred.ProbProps
import Verif.Mix.ApmProps
import Verif.Mix.ApmMirror
import Verif.Random.Props
import Verif.Random.Vector
import Verif.Coding.Size
import Verif.Pred.Props
import Verif.Pred.CodingProps
import Verif.Pred.StreamProps
import Verif.Lut.SelfCheckProps
import Verif.Pred.RefProps
import Verif.Float.Props
import Verif.Float.SingleProps
import Verif.Float.FormatProps
import Verif.Pred.Report
import Verif.Pred.ReportProps
import Verif.Pred.TableProps
import Verif.Pred.Exact
import Verif.Bin.HistoriesProps
import Verif.Bin.HistoriesText
import Verif.Bin.EntropyProps
import Verif.Bin.EntropyReportProps
import Verif.Bin.SigmoidProps
import Verif.Bin.SigmoidRun
import Verif.History.ReadProps
import Verif.Tree.WorkProps
import Verif.Pred.TableEstimate
import Verif.Pred.TableLong
import Verif.Coding.OrderProps
import Verif.Pred.OrderProps
import Verif.Pred.ReportText
import Verif.Bin.EntropyText
import Verif.Bin.SigmoidText
import Verif.Pred.TableText
import Verif.Pred.LimitProps
import Verif.Coding.LongProps
import Verif.Pred.LongProps
import Verif.Lut.LogProps
import Verif.Coding.Io
import Verif.Coding.IoProps
import Verif.Coding.LargeProps
import Verif.Pred.LargeProps
import Verif.Coding.Unwind
import Verif.Coding.UnwindProps
import Verif.Pred.Program
import Verif.Est.LongRegret
import Verif.Coding.ExactProps
import Verif.Pred.ExactProps
import Verif.Pred.SettingsProps
import Verif.Pred.SegmentProps
import Verif.Pred.MemoryProps
import Verif.Coding.WorkProps
import Verif.Pred.WorkProps
