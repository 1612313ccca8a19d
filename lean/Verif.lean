import Verif.Match.Model
import Verif.Match.Spec
import Verif.Match.Lemmas
import Verif.Match.SopLemmas
import Verif.Match.Rel
import Verif.Match.RelLemmas
import Verif.Match.Props
import Verif.Match.More
import Verif.Match.MixLemmas
import Verif.Match.MixProps
import Verif.Bits.Model
import Verif.Bits.Spec
import Verif.Bits.Lemmas
import Verif.Bits.FieldLemmas
import Verif.Bits.Props
import Verif.Bits.ExactProps
import Verif.Message.Model
import Verif.Message.Spec
import Verif.Message.Lemmas
import Verif.Message.Props
import Verif.Seq.Model
import Verif.Seq.Spec
import Verif.Seq.Props
import Verif.Interrupt.Model
import Verif.Interrupt.Spec
import Verif.Interrupt.RunLemmas
import Verif.Interrupt.CtlLemmas
import Verif.Interrupt.Props
import Verif.Handler.Model
import Verif.Handler.Spec
import Verif.Handler.Lemmas
import Verif.Handler.TermLemmas
import Verif.Handler.Props
import Verif.Handler.MixProps
import Verif.Handler.ExactProps
import Verif.Lookup.Model
import Verif.Lookup.Spec
import Verif.Lookup.Lemmas
import Verif.Lookup.TableLemmas
import Verif.Lookup.CoeffLemmas
import Verif.Lookup.Props
import Verif.Lookup.CountProps
import Verif.Flow.Model
import Verif.Flow.Spec
import Verif.Flow.TopoLemmas
import Verif.Flow.DslLemmas
import Verif.Flow.NodeLemmas
import Verif.Flow.BuildLemmas
import Verif.Flow.CheckLemmas
import Verif.Flow.Props
import Verif.Flow.CheckProps
import Verif.Flow.ExactProps
import Verif.Flow.StepProps
import Verif.Log.Model
import Verif.Log.Spec
import Verif.Log.Lemmas
import Verif.Log.HeaderLemmas
import Verif.Log.Props
import Verif.Catalog.Model
import Verif.Catalog.Spec
import Verif.Catalog.Lemmas
import Verif.Catalog.Props
import Verif.Catalog.MoreProps
import Verif.Nexus.Model
import Verif.Nexus.Spec
import Verif.Nexus.Lemmas
import Verif.Nexus.BuildLemmas
import Verif.Nexus.Props
import Verif.Receive.Model
import Verif.Receive.Spec
import Verif.Receive.Lemmas
import Verif.Receive.Numbering
import Verif.Receive.Props
import Verif.Receive.DefProps
import Verif.Receive.SelfProps
import Verif.Receive.NameProps
import Verif.Receive.ServiceProps
import Verif.Receive.DeclProps
import Verif.Viz.Props
import Verif.Front.FlowProps
import Verif.Explain.Model
import Verif.Explain.Spec
import Verif.Explain.ReadLemmas
import Verif.Explain.TermLemmas
import Verif.Explain.DescribeProps
import Verif.Explain.ServiceProps
import Verif.Explain.LogProps
import Verif.Object.Model
import Verif.Object.Spec
import Verif.Object.BitLemmas
import Verif.Object.Lemmas
import Verif.Object.EffectLemmas
import Verif.Object.DefinedLemmas
import Verif.Object.Props
import Verif.Conc.Model
import Verif.Conc.Spec
import Verif.Conc.Lemmas
import Verif.Conc.Props
import Verif.Sink.Model
import Verif.Sink.Spec
import Verif.Sink.Props
import Verif.Pending.Model
import Verif.Pending.Spec
import Verif.Pending.Lemmas
import Verif.Pending.Props
import Verif.Release.Model
import Verif.Release.Spec
import Verif.Release.Lemmas
import Verif.Release.Props
import Verif.Release.Repo
import Verif.Release.Again
import Verif.Symbols.Regex
import Verif.Symbols.Model
import Verif.Symbols.Spec
import Verif.Symbols.RegexLemmas
import Verif.Symbols.Lemmas
import Verif.Symbols.ReadLemmas
import Verif.Symbols.TypeLemmas
import Verif.Symbols.Props
import Verif.Render.Model
import Verif.Render.Spec
import Verif.Render.XmlLemmas
import Verif.Render.PrintLemmas
import Verif.Render.PyLemmas
import Verif.Render.CtLemmas
import Verif.Render.TypeLemmas
import Verif.Render.Props
import Verif.Json.Model
import Verif.Json.Spec
import Verif.Json.Lemmas
import Verif.Json.FileLemmas
import Verif.Json.TextLemmas
import Verif.Json.Props
import Verif.Catalog.FileProps
import Verif.Whole.Model
import Verif.Whole.Spec
import Verif.Whole.Lemmas
import Verif.Whole.ReadLemmas
import Verif.Whole.Props
import Verif.Whole.Cases
import Verif.Whole.First
import Verif.Cpp.Model
import Verif.Cpp.Spec
import Verif.Cpp.Lemmas
import Verif.Cpp.Props
import Verif.Args.Model
import Verif.Args.Spec
import Verif.Args.Lemmas
import Verif.Args.Props
import Verif.Extract.Model
import Verif.Extract.Spec
import Verif.Extract.Lemmas
import Verif.Extract.Props
import Verif.Select.Model
import Verif.Select.Spec
import Verif.Select.Props
import Verif.Bench.Model
import Verif.Bench.Spec
import Verif.Bench.Lemmas
import Verif.Bench.Props
import Verif.Serve.Model
import Verif.Serve.Spec
import Verif.Serve.Lemmas
import Verif.Serve.Props
import Verif.Send.Model
import Verif.Send.Spec
import Verif.Send.Lemmas
import Verif.Send.Props
import Verif.Send.WorkProps
import Verif.Call.Model
import Verif.Call.Spec
import Verif.Call.Props
import Verif.Exact.Props
import Verif.Exact.Overlap
import Verif.Exact.Init
import Verif.Exact.Match
import Verif.Exact.Pending
import Verif.Results.Model
import Verif.Results.Spec
import Verif.Results.Lemmas
import Verif.Results.DataLemmas
import Verif.Results.Props
import Verif.Dump.Model
import Verif.Dump.Spec
import Verif.Dump.Lemmas
import Verif.Dump.Props
import Verif.Xml.Model
import Verif.Xml.Spec
import Verif.Xml.Lemmas
import Verif.Xml.Props
import Verif.Json.Kind
import Verif.Receive.CompileProps
import Verif.Bits.IndexProps
import Verif.Select.FloatProps
import Verif.Render.CharProps
import Verif.Whole.Next
import Verif.Whole.NextCases
import Verif.Catalog.ExactProps
import Verif.Catalog.NewProps
import Verif.Control.Model
import Verif.Control.Spec
import Verif.Control.Lemmas
import Verif.Control.Props
import Verif.Control.ExactProps
import Verif.Flow.Room
import Verif.Flow.RoomProps
import Verif.React.Model
import Verif.React.Spec
import Verif.React.Props
import Verif.Render.NumberProps
import Verif.Control.StatusProps
import Verif.Message.HistoryProps
import Verif.Log.StreamSpec
import Verif.Log.StreamProps
import Verif.Nexus.OfferProps
import Verif.Log.HostModel
import Verif.Log.HostProps
import Verif.Log.JoinProps
import Verif.Whole.ToolModel
import Verif.Whole.ToolProps
import Verif.Whole.FilesModel
import Verif.Whole.FilesProps
import Verif.Json.ExactProps
import Verif.Render.TypeExactProps
import Verif.Handler.RoomModel
import Verif.Handler.RoomProps
import Verif.Handler.ValidModel
import Verif.Handler.ValidProps
import Verif.Symbols.ExactProps
import Verif.Catalog.FileExact
import Verif.Receive.SelfExact
import Verif.Handler.ValidMore
import Verif.Front.LogExact
import Verif.Receive.DeclExact
import Verif.Sink.Exact
import Verif.Log.HeaderExact
import Verif.Match.OrderProps
import Verif.Match.RowProps
import Verif.Nexus.Together
import Verif.Front.AssertExact
import Verif.Receive.RawExact
import Verif.Front.Breaks
import Verif.Whole.NextViolated
import Verif.Sink.SameProps
import Verif.Cpp.ExactProps
import Verif.Lookup.ConstantProps
import Verif.Release.Every
import Verif.Handler.TableModel
import Verif.Handler.TableProps
