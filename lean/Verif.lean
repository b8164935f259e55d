import Verif.Seq.Props
import Verif.Seq.NoFail
import Verif.Seq.Late
import Verif.Seq.LateBad
import Verif.Seq.LateProps
import Verif.Time.Formats
import Verif.Time.Parsing
import Verif.Time.ParsingProps
import Verif.Doc.TimingProps
import Verif.Doc.SegmentProps
import Verif.Doc.SpliceProps
import Verif.Doc.ResegProps
import Verif.Style.PresentProps
import Verif.Style.DocProps
import Verif.Node.HandoverProps
import Verif.Node.ReseqProps
import Verif.Node.ProducerProps
import Verif.Node.RetimeProps
import Verif.Node.Record
import Verif.Node.RecordProps
import Verif.Node.DedupProps
import Verif.Convert.Props
import Verif.Convert.FontProps
import Verif.Fs.Props
import Verif.Fs.Tail
import Verif.Fs.TailProps
import Verif.Fs.Encoding
import Verif.Fs.Travel
import Verif.Ws.Props
import Verif.Ws.NetProps
import Verif.Ws.LegacyProps
import Verif.Wrap.Props
import Verif.CmpXml.Props
import Verif.Ids.Props
import Verif.SegHead.TimelineProps
import Verif.SegHead.Props
import Verif.SegHead.Exact
import Verif.SegHead.KeepProps
import Verif.SegHead.SpliceProps
import Verif.SegHead.ExactShown
import Verif.Adapt.Props
import Verif.Adapt.TravelProps
import Verif.Adapt.ChainProps
import Verif.App.Props
import Verif.App.Boot
import Verif.App.BootProps
import Verif.App.ProxyProps
import Verif.App.TemplateProps
import Verif.Xml.Props
import Verif.Xml.Ttd
import Verif.Size.Props
import Verif.Tt.Props
import Verif.Convert.WholeProps
import Verif.Convert.WholeCases
import Verif.Convert.WholeLh
import Verif.Convert.SourceProps
import Verif.Clock.Model
import Verif.Clock.Props
import Verif.Clock.Reseq
import Verif.Clock.Config
import Verif.Adapt.WireProps
import Verif.Doc.Badly
import Verif.Ui.Props
import Verif.Ui.DocProps
import Verif.Adapt.FileProps
import Verif.Convert.ChainProps
import Verif.Node.DelayedSeqProps
import Verif.Node.HandoverSeqProps
import Verif.Walk.UsesProps
import Verif.Walk.UsesSegment
import Verif.Seq.Print
import Verif.Seq.Verbose
import Verif.Seq.VerboseLemmas
import Verif.Seq.VerboseProps
import Verif.Abc.Model
import Verif.Abc.Lemmas
import Verif.Abc.Inv
import Verif.Abc.Registry
import Verif.Abc.Props
import Verif.Msg.Model
import Verif.Msg.Lemmas
import Verif.Msg.Props
import Verif.Msg.PageProps
import Verif.Msg.Names
import Verif.Doc.LinesSpec
import Verif.Doc.Lines
import Verif.Doc.LinesProps
import Verif.Doc.LinesAll
import Verif.Convert.LinesSpec
import Verif.Convert.LinesChain
import Verif.Convert.LinesChainProps
import Verif.Node.Fed
import Verif.Node.FedProps
import Verif.Node.Timer
import Verif.Node.TimerProps
import Verif.Convert.FedChainProps
import Verif.Convert.TimerChainProps
import Verif.Convert.TimerLiveProps
import Verif.Convert.HandoverChainProps
import Verif.Convert.HandoverDelay
import Verif.Convert.HandoverDelays
import Verif.Convert.DelayChainProps
import Verif.Convert.DelaysChain
import Verif.Style.Dedup
import Verif.Style.DedupLemmas
import Verif.Style.DedupProps
import Verif.Convert.DedupChain
import Verif.Convert.DedupChainProps
import Verif.Convert.ProducerChain
import Verif.Convert.ProducerChainProps
import Verif.Convert.LookSpec
import Verif.Convert.LookLemmas
import Verif.Convert.LookProps
import Verif.Convert.LookChain
import Verif.Convert.LookChainProps
import Verif.Convert.LookRun
import Verif.Convert.LookRunProps
import Verif.Convert.LookFrame
import Verif.Convert.LookDedup
import Verif.Convert.LookDedupProps
import Verif.Convert.LookSure
import Verif.Mark.Model
import Verif.Mark.Spec
import Verif.Mark.Lemmas
import Verif.Mark.Said
import Verif.Mark.Props
import Verif.Mark.Instants
import Verif.Mark.Reseq
import Verif.Mark.Encoded
import Verif.Mark.Cases
import Verif.Convert.PlaceProps
import Verif.Convert.PlaceRun
import Verif.Convert.PlaceSure
