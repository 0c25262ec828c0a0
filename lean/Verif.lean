import Verif.Spec.Types
import Verif.Spec.Log
import Verif.Spec.Db
import Verif.Spec.DbLemmas
import Verif.Db.Read
import Verif.Db.ReadProof
import Verif.Db.ReadCorrect
import Verif.Db.Append
import Verif.Db.Lawful
import Verif.Db.AppendProof
import Verif.Db.Mem
import Verif.Db.ThreadProof
import Verif.Db.AppendApi
import Verif.Props.Read
import Verif.Props.Append
import Verif.Server.Stream
import Verif.Server.StreamProof
import Verif.Server.SubProof
import Verif.Props.Stream
import Verif.Net.Proto
import Verif.Net.Rpc
import Verif.Net.Client
import Verif.Net.ProtoProof
import Verif.Net.ClientProof
import Verif.Net.SyncProof
import Verif.Core.Meta
import Verif.Props.Net
import Verif.Codec.Bytes
import Verif.Codec.Node
import Verif.Codec.Crc
import Verif.Codec.Page
import Verif.Codec.NodeProof
import Verif.Codec.Validate
import Verif.Props.Codec
import Verif.Mvcc.Sort
import Verif.Mvcc.Registry
import Verif.Mvcc.Extents
import Verif.Mvcc.WritePages
import Verif.Mvcc.Open
import Verif.Props.Mvcc
import Verif.Page.Store
import Verif.Page.Tree
import Verif.Page.Order
import Verif.Page.Walk
import Verif.Page.Range
import Verif.Page.Events
import Verif.Page.Find
import Verif.Page.EventsRead
import Verif.Page.Upsert
import Verif.Page.Tracking
import Verif.Page.Tag
import Verif.Page.Tags
import Verif.Page.Shrink
import Verif.Page.Tsn
import Verif.Page.Free
import Verif.Page.FreeRemove
import Verif.Page.Reuse
import Verif.Page.Process
import Verif.Page.Content
import Verif.Page.Db
import Verif.Page.DbProof
import Verif.Page.Lawful
import Verif.Page.Crash
import Verif.Page.FailedHeader
import Verif.Page.Reach
import Verif.Props.Crash
import Verif.Page.Sizes
import Verif.Props.Sizes
import Verif.Props.TagLeaf
import Verif.Props.Page
import Verif.Page.Readers
import Verif.Props.Readers
import Verif.Page.Pipeline
import Verif.Page.PipelineProof
import Verif.Page.PipelineThread
import Verif.Props.Pipeline
import Verif.Page.PipelineReaders
import Verif.Server.Handler
import Verif.Props.Handler
import Verif.Props.PipelineReaders
import Verif.Props.Recency
import Verif.Props.PipelineRecency
import Verif.Props.FailedHeader
import Verif.Mvcc.Mmap
import Verif.Props.Mmap
import Verif.Db.Damage
import Verif.Page.Damage
import Verif.Props.Damage
import Verif.Page.DamageWrite
import Verif.Page.DamageCommit
import Verif.Page.DamageBlind
import Verif.Props.DamageWrite
import Verif.Tools.Check
import Verif.Props.Check
import Verif.Spec.History
import Verif.Page.History
import Verif.Props.History
import Verif.Net.Cancel
import Verif.Net.CancelProof
import Verif.Net.Registry
import Verif.Net.Python
import Verif.Props.Cancel
import Verif.Props.Registry
import Verif.Props.Python
import Verif.Net.Connect
import Verif.Props.Connect
import Verif.Props.ReadCancel
import Verif.Page.PipelineHistory
import Verif.Props.PipelineHistory
import Verif.Page.Threads
import Verif.Props.Threads
import Verif.Net.Wire
import Verif.Net.WireProof
import Verif.Props.Wire
import Verif.Server.Hub
import Verif.Server.HubProof
import Verif.Server.HubOrder
import Verif.Server.HubStreams
import Verif.Props.Hub
import Verif.Page.Uring
import Verif.Props.Uring
import Verif.Page.Proc
import Verif.Props.Proc
import Verif.Db.Batch
import Verif.Props.Batch
import Verif.Page.Share
import Verif.Props.Share
import Verif.Server.Start
import Verif.Props.Start
import Verif.Props.Retry
import Verif.Props.Decide
import Verif.Props.Follow
import Verif.Props.Resume
import Verif.Net.Collect
import Verif.Props.Collect
import Verif.Page.Thrift
import Verif.Props.Growth
import Verif.Props.Paging
import Verif.Tools.Forensic
import Verif.Props.Forensic
import Verif.Props.Balance
import Verif.Props.CatchUp
import Verif.Props.Space
import Verif.Props.TagHash
import Verif.Core.SerdeError
import Verif.Props.Serde
import Verif.Mvcc.CacheWeight
import Verif.Props.CacheWeight
import Verif.Props.WriteCost
import Verif.Props.Contain
