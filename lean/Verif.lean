import Verif.Props.Labels
import Verif.Props.Translate
import Verif.Props.Seq
import Verif.Props.Cache
import Verif.Props.Time
import Verif.Props.Batch
import Verif.Props.Transform
import Verif.Props.Rows
import Verif.Props.Shards
import Verif.Props.Frame
import Verif.Props.Collapse
import Verif.Props.Store
import Verif.Props.Store2
import Verif.Props.Visit
import Verif.Props.Js
import Verif.Props.JsExact
import Verif.Props.Service
import Verif.Props.Dictionary
import Verif.Props.RealDict
import Verif.Props.EndToEnd
import Verif.Props.FirstLife
import Verif.Props.Shared
import Verif.Props.Arrow
import Verif.Props.Concurrent
import Verif.Props.Bsi
import Verif.Props.Flat
import Verif.Props.Self
import Verif.Props.Render
import Verif.Props.QueryCache
import Verif.Props.Arena
import Verif.Props.Codec
import Verif.Props.Exact
import Verif.Props.ScanExact
import Verif.Props.VisitExact
import Verif.Props.CollapseExact
import Verif.Props.FlatExact
import Verif.Props.RowsExact
import Verif.Props.BsiExact
import Verif.Props.Ids
import Verif.Props.Lost
import Verif.Props.RealWide
import Verif.Props.During
import Verif.Props.QueryExact
import Verif.Props.RenderExact
import Verif.Model.Quantum
import Verif.Spec.Window
import Verif.Lemmas.Quantum
import Verif.Lemmas.Walk
import Verif.Props.Window
import Verif.Spec.Filter
import Verif.Props.Filter
import Verif.Spec.Decimal
import Verif.Lemmas.Decimal
import Verif.Spec.Layout
import Verif.Lemmas.Layout
import Verif.Props.Layout
import Verif.Props.LabelText
import Verif.Spec.RenderText
import Verif.Props.RenderText
import Verif.Model.Pool
import Verif.Model.PoolScan
import Verif.Model.PoolFlush
import Verif.Model.PoolTrim
import Verif.Model.PoolTranslate
import Verif.Spec.Pool
import Verif.Spec.PoolScan
import Verif.Spec.PoolFlush
import Verif.Spec.PoolTranslate
import Verif.Spec.PoolJobs
import Verif.Lemmas.Pool
import Verif.Lemmas.PoolScan
import Verif.Lemmas.PoolFlush
import Verif.Lemmas.PoolTrim
import Verif.Lemmas.PoolTranslate
import Verif.Props.Pool
import Verif.Props.PoolFail
import Verif.Props.Run
import Verif.Props.Confusion
import Verif.Props.Package
import Verif.Model.Lookup
import Verif.Spec.Lookup
import Verif.Lemmas.Lookup
import Verif.Props.Lookup
import Verif.Spec.Script
import Verif.Lemmas.Merge
import Verif.Lemmas.Script
import Verif.Props.Script
import Verif.Model.SelfDetail
import Verif.Spec.SelfDetail
import Verif.Props.SelfDetail
import Verif.Model.RowsOut
import Verif.Props.RowsOut
import Verif.Model.Engine
import Verif.Props.Engine
import Verif.Model.Paths
import Verif.Props.Paths
import Verif.Model.Unit
import Verif.Spec.Duration
import Verif.Props.Unit
import Verif.Model.Parse
import Verif.Spec.Parse
import Verif.Props.Parse
import Verif.Props.ParseScan
import Verif.Model.Quote
import Verif.Spec.Quote
import Verif.Lemmas.Quote
import Verif.Props.Quote
import Verif.Model.Tabwriter
import Verif.Spec.Tabwriter
import Verif.Props.Tabwriter
import Verif.Props.TablePage
import Verif.Model.Compile
import Verif.Spec.Compile
import Verif.Props.Compile
import Verif.Model.Float
import Verif.Spec.Float
import Verif.Lemmas.Float
import Verif.Props.Float
import Verif.Model.Humanize
import Verif.Spec.Humanize
import Verif.Props.Humanize
import Verif.Model.Wire
import Verif.Model.WireOtlp
import Verif.Spec.Wire
import Verif.Lemmas.Wire
import Verif.Lemmas.WireMsg
import Verif.Lemmas.WireFits
import Verif.Lemmas.WireWeight
import Verif.Props.Wire
import Verif.Model.WireHash
import Verif.Spec.WireHash
import Verif.Props.WireHash
import Verif.Spec.WireDecode
import Verif.Lemmas.WireDecode
import Verif.Lemmas.WireDecode2
import Verif.Lemmas.WireDecode3
import Verif.Props.WireDecode
import Verif.Model.WireScan
import Verif.Spec.WireScan
import Verif.Lemmas.WireScan
import Verif.Lemmas.WireScanTime
import Verif.Props.WireScan
import Verif.Model.WireExport
import Verif.Spec.WireExport
import Verif.Lemmas.WireAsm
import Verif.Lemmas.WireExport
import Verif.Lemmas.WireExport2
import Verif.Lemmas.WireExport3
import Verif.Lemmas.WireExport4
import Verif.Props.WireExport
import Verif.Model.WireAnswer
import Verif.Spec.WireAnswer
import Verif.Lemmas.WireAnswer
import Verif.Props.WireAnswer
import Verif.Spec.WireScript
import Verif.Props.WireScript
import Verif.Model.Json
import Verif.Spec.Json
import Verif.Lemmas.Json
import Verif.Lemmas.JsonWrite
import Verif.Lemmas.JsonNumber
import Verif.Lemmas.JsonBase64
import Verif.Props.Json
import Verif.Props.JsonSame
import Verif.Props.JsonTable
import Verif.Model.WireRender
import Verif.Props.WireRender
import Verif.Model.RenderWire
import Verif.Spec.RenderWire
import Verif.Props.RenderWire
