import Verif.Basic
import Verif.KeyEnc.Props
import Verif.IndexKey.Props
import Verif.IndexKey.LikePrefix
import Verif.Ttl.Props
import Verif.SplitFilter.Props
import Verif.RowCodec.Cstore
import Verif.RowCodec.TupleProps
import Verif.Tso.Props
import Verif.Tso.Client
import Verif.AutoIncr.Props
import Verif.Lru.Props
import Verif.RaftLog.Props
import Verif.Merge.Props
import Verif.Expr.Props
import Verif.Sort.Props
import Verif.Like.Props
import Verif.Pred.Props
import Verif.Pred.OptProps
import Verif.Datetime.Props
import Verif.Datetime.TextProps
import Verif.Region.StoreProps
import Verif.Region.MetaRuns
import Verif.Region.RouteProps
import Verif.Txn.TwoPCProps
import Verif.Txn.StmtProps
import Verif.Agg.Keys
import Verif.Join.Model
import Verif.Join.Spec
import Verif.Join.Lemmas
import Verif.Join.Hash
import Verif.Join.Nested
import Verif.Join.Semi
import Verif.Join.Keys
import Verif.Join.Filter
import Verif.Join.Props
import Verif.Join.Sub
import Verif.Wire.Model
import Verif.Wire.Spec
import Verif.Wire.Lemmas
import Verif.Wire.Send
import Verif.Wire.Frame
import Verif.Wire.Binary
import Verif.Wire.Recv
import Verif.Wire.Exec
import Verif.Wire.Result
import Verif.Wire.Props
import Verif.Wire.ExecProps
import Verif.Scan.Model
import Verif.Scan.Spec
import Verif.Scan.Keys
import Verif.Scan.Map
import Verif.Scan.Cols
import Verif.Scan.Steps
import Verif.Scan.StepIn
import Verif.Scan.Walk
import Verif.Scan.Ends
import Verif.Scan.Final
import Verif.Scan.Props
import Verif.Scan.Counter
import Verif.Iter.Model
import Verif.Iter.Props
import Verif.Iter.Examples
import Verif.Iter.Select
import Verif.Iter.Column
import Verif.Scan.Order
import Verif.Iter.Order
import Verif.Ddl.Meta
import Verif.Ddl.System
import Verif.Ddl.Lemmas
import Verif.Ddl.Inv
import Verif.Ddl.Steps
import Verif.Ddl.Props
import Verif.Ddl.Examples
import Verif.Plan.Model
import Verif.Plan.Rows
import Verif.Plan.Spec
import Verif.Plan.Lemmas
import Verif.Plan.Push
import Verif.Plan.Props
import Verif.Plan.Examples
import Verif.Plan.Empty
import Verif.Plan.Reorder
import Verif.Plan.ReorderProps
import Verif.Limit.Model
import Verif.Limit.Spec
import Verif.Limit.Lemmas
import Verif.Limit.Limits
import Verif.Limit.Separate
import Verif.Limit.Props
import Verif.Limit.Examples
import Verif.Dml.Model
import Verif.Dml.Spec
import Verif.Dml.Lemmas
import Verif.Dml.Inv
import Verif.Dml.Rows
import Verif.Dml.Insert
import Verif.Dml.Props
import Verif.Dml.Examples
import Verif.Priv.Model
import Verif.Priv.Spec
import Verif.Priv.Lemmas
import Verif.Priv.Sim
import Verif.Priv.Step
import Verif.Priv.Decide
import Verif.Priv.Acc
import Verif.Priv.Props
import Verif.Priv.Examples
import Verif.ClientMap.Model
import Verif.ClientMap.Lemmas
import Verif.ClientMap.Step
import Verif.ClientMap.Props
import Verif.ClientMap.Examples
import Verif.Binlog.Model
import Verif.Binlog.Spec
import Verif.Binlog.Lemmas
import Verif.Binlog.Read
import Verif.Binlog.Props
import Verif.Binlog.Capture
import Verif.Binlog.Examples
import Verif.DateFn.FormatProps
import Verif.StrFn.Text
import Verif.Global.Model
import Verif.Global.Spec
import Verif.Global.Lemmas
import Verif.Global.Statements
import Verif.Global.Change
import Verif.Global.Props
import Verif.Global.Update
import Verif.Global.OnDup
import Verif.Global.OnDupMany
import Verif.Global.Examples
import Verif.Ops.Model
import Verif.Ops.Spec
import Verif.Ops.Lemmas
import Verif.Ops.Props
import Verif.Ops.Compare
import Verif.Ops.Values
import Verif.Ops.Examples
import Verif.Window.Model
import Verif.Window.Spec
import Verif.Window.Order
import Verif.Window.Fn
import Verif.Window.Rank
import Verif.Window.Node
import Verif.Window.Run
import Verif.Window.Chain
import Verif.Window.Plan
import Verif.Window.Props
import Verif.Window.Examples
import Verif.Subq.Examples
import Verif.Corr.Examples
import Verif.Derived.Examples
import Verif.Fetch.Examples
import Verif.Reverse.Examples
import Verif.Segment.Examples
import Verif.Recover.Examples
import Verif.Handover.Examples
import Verif.Transfer.Examples
import Verif.Install.Examples
import Verif.Absorb.Examples
import Verif.Alter.Examples
import Verif.Hll.Examples
import Verif.Part.ManageProps
import Verif.Cond.ExportSet
