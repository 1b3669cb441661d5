import Verif.Props.KeyFields
import Verif.Props.Keys
import Verif.Props.KeyKinds
import Verif.Props.Resources
import Verif.Store
import Verif.Props.Writes
import Verif.Props.Reads
import Verif.Props.Scans
import Verif.Props.Queries
import Verif.Props.QueryValues
import Verif.Props.ReIndex
import Verif.Props.BatchEvents
import Verif.Props.Sequence
import Verif.Props.SyncBatch
import Verif.Props.Pool
import Verif.Props.Points
import Verif.Props.Buffers
import Verif.Props.Builder
import Verif.Props.PtrRecords
import Verif.Props.Cond
import Verif.Props.Context
import Verif.Props.Bloom
import Verif.Props.FSStorer
import Verif.Props.Backup
import Verif.Props.Open
import Verif.Props.Paging
import Verif.Props.MoreReads
import Verif.Props.Concurrent
import Verif.Props.ReIndexLive
import Verif.Props.OptBatch
import Verif.Props.Serializers
import Verif.Props.LiveScan
import Verif.ScanKey
import Verif.Props.ScanKey
import Verif.Faults
import Verif.FaultLemmas
import Verif.FaultStopLemmas
import Verif.Props.Faults
import Verif.Inspect
import Verif.Spec.Inspect
import Verif.InspectLemmas
import Verif.Props.Inspect
import Verif.Batches
import Verif.Spec.Batches
import Verif.BatchLocal
import Verif.BatchInv
import Verif.Props.Batches
import Verif.Crash
import Verif.Spec.Crash
import Verif.Props.Crash
import Verif.Props.InspectMore
import Verif.Remote
import Verif.Props.Remote
import Verif.Spec.ScanExact
import Verif.ScanExactLemmas
import Verif.Props.ScanExact
import Verif.RecordTypes
import Verif.Props.RecordTypes
import Verif.Spec.Unreadable
import Verif.UnreadableLemmas
import Verif.Props.Unreadable
import Verif.Together
import Verif.TogetherLemmas
import Verif.Props.Together
import Verif.Props.RestoreUse
import Verif.Transactions
import Verif.Spec.Transactions
import Verif.TransactionActs
import Verif.TransactionLemmas
import Verif.Props.Transactions
import Verif.Props.InsertExact
import Verif.Props.ExactMore
import Verif.FilterLive
import Verif.Spec.FilterLive
import Verif.FilterLiveLemmas
import Verif.Props.FilterLive
import Verif.Spec.Failed
import Verif.FailLemmas
import Verif.Props.Failed
import Verif.Spec.Values
import Verif.Machine
import Verif.Spec.Machine
import Verif.MachineLemmas
import Verif.Props.Machine
import Verif.Comparer
import Verif.Props.Comparer
import Verif.Database
import Verif.Spec.Database
import Verif.Props.Database
import Verif.Restart
import Verif.Spec.Restart
import Verif.Props.Restart
import Verif.Spec.Declared
import Verif.Props.Declared
import Verif.Evolve
import Verif.Spec.Evolve
import Verif.Props.Evolve
import Verif.Spec.Cancelled
import Verif.Props.Cancelled
import Verif.TransactionReads
import Verif.Spec.TransactionReads
import Verif.Props.TransactionReads
import Verif.TransactionScans
import Verif.Spec.TransactionScans
import Verif.Props.TransactionScans
import Verif.KeyBuilderMem
import Verif.KeyBuilderMemLemmas
import Verif.Props.KeyBuilderValues
import Verif.Spec.OwnWrites
import Verif.OwnWritesLemmas
import Verif.Props.OwnWrites
import Verif.Spec.Served
import Verif.ServedLemmas
import Verif.Props.Served
import Verif.Lifecycle
import Verif.Props.Lifecycle
import Verif.CommitCallbacks
import Verif.Props.CommitCallbacks
import Verif.Props.ApplyBatch
import Verif.InsertRaceLemmas
import Verif.Props.InsertRace
import Verif.SameRowsLemmas
import Verif.Props.SameRows
import Verif.Spec.DeclaredExact
import Verif.Props.DeclaredExact
import Verif.Props.Lazy
import Verif.Seek
import Verif.Props.Seek
import Verif.UpsertExact
import Verif.Props.UpsertExact
import Verif.PointExact
import Verif.Props.PointExact
import Verif.Extreme
import Verif.Props.Extreme
import Verif.CtxBlocks
import Verif.Props.CtxBlocks
import Verif.Props.Bounded
import Verif.Bounded
import Verif.Props.FaultsBounded
import Verif.Props.FilterOverlap
import Verif.Props.ExtremeAfter
import Verif.Props.BatchView
import Verif.Props.LivePages
import Verif.Props.OpenExact
import Verif.Props.WriteCtx
import Verif.Props.BuffersMore
import Verif.Props.LiveRanges
import Verif.Props.IntersectPages
import Verif.Props.LiveIntersect
