import Verif.Codec.NumProps
import Verif.Codec.TextProps
import Verif.Codec.SerialProps
import Verif.Dbm.ApiProps
import Verif.Dbm.QueueProps
import Verif.Common.Prime
import Verif.Tiny.IterProps
import Verif.Hash.Props
import Verif.Hash.CrashProps
import Verif.Hash.CrashExamples
import Verif.Hash.SyncProps
import Verif.Hash.SyncExamples
import Verif.Hash.Examples
import Verif.Hash.Copy
import Verif.Hash.EachExamples
import Verif.Hash.IterExamples
import Verif.Hash.IterProps
import Verif.Common.Calendar
import Verif.Text.EditDistance
import Verif.Text.Split
import Verif.Text.SearchZ
import Verif.Text.Comparators
import Verif.Text.ComparatorsProps
import Verif.Containers.Heap
import Verif.Containers.LinkedProps
import Verif.Containers.LruProps
import Verif.Hashing.CrcProps
import Verif.Hashing.Checksum
import Verif.Hashing.Real
import Verif.File.Path
import Verif.File.FlatProps
import Verif.File.Lines
import Verif.File.LinesProps
import Verif.Queue.UlogProps
import Verif.Queue.MqFiles
import Verif.Queue.MqOpen
import Verif.Cache.Examples
import Verif.Cache.Iter
import Verif.Std.Model
import Verif.Std.Lemmas
import Verif.Std.Props
import Verif.Std.IterProps
import Verif.Std.EachProps
import Verif.Std.Traverse
import Verif.Containers.StdHeap
import Verif.Shard.Model
import Verif.Shard.Props
import Verif.Shard.Cex
import Verif.Shard.Iter
import Verif.Shard.IterLemmas
import Verif.Shard.IterProps
import Verif.Shard.IterUpdate
import Verif.Shard.Instances
import Verif.Shard.Conc
import Verif.Shard.ConcExamples
import Verif.Dbm.Linear
import Verif.Shard.Nested
import Verif.Shard.NestedInv
import Verif.Shard.NestedProg
import Verif.Shard.NestedProps
import Verif.Shard.NestedExamples
import Verif.Thread.Spin
import Verif.Thread.SpinProps
import Verif.Thread.WpProps
import Verif.Thread.HashMutex
import Verif.Thread.HashMutexProps
import Verif.Thread.TaskQueue
import Verif.Thread.TaskQueueProps
import Verif.File.PageCache
import Verif.File.PageCacheLemmas
import Verif.File.PageCacheOps
import Verif.File.PageCacheRuns
import Verif.File.PageCacheProps
import Verif.File.Positional
import Verif.File.PositionalProps
import Verif.File.Mmap
import Verif.File.MmapInv
import Verif.File.MmapStep
import Verif.File.MmapProps
import Verif.File.MmapAtomic
import Verif.File.MmapAtomicInv
import Verif.File.MmapAtomicProps
import Verif.File.PosAtomic
import Verif.File.PosAtomicInv
import Verif.File.PosAtomicProps
import Verif.File.Std
import Verif.File.StdSpec
import Verif.File.StdInv
import Verif.File.StdProps
import Verif.File.MmapProgress
import Verif.File.Atomic
import Verif.Compress.AesTables
import Verif.Compress.Aes
import Verif.Compress.AesSpec
import Verif.Compress.AesTableLemmas
import Verif.Compress.AesProps
import Verif.Compress.Crypt
import Verif.Compress.CryptProps
import Verif.Text.Match
import Verif.Dbm.Cursor
import Verif.Dbm.Search
import Verif.Dbm.SearchProps
import Verif.Dbm.SearchModes
import Verif.Dbm.Ordered
import Verif.Dbm.OrderedFacts
import Verif.BTree.Model
import Verif.BTree.Layers
import Verif.BTree.Inner
import Verif.BTree.Merge
import Verif.BTree.Leaves
import Verif.BTree.LeafSteps
import Verif.BTree.Inv
import Verif.BTree.Ops
import Verif.BTree.Walk
import Verif.BTree.Lower
import Verif.BTree.Db
import Verif.BTree.Cfgs
import Verif.BTree.Props
import Verif.BTree.Page
import Verif.BTree.PageLemmas
import Verif.BTree.Paged
import Verif.BTree.Frame
import Verif.BTree.PagedLemmas
import Verif.BTree.PagedSteps
import Verif.BTree.PagedHist
import Verif.BTree.PageProps
import Verif.Skip.Model
import Verif.Skip.Layout
import Verif.Skip.Read
import Verif.Skip.Find
import Verif.Skip.Sorter
import Verif.Skip.Merge
import Verif.Skip.Db
import Verif.Skip.Spec
import Verif.Skip.MetaLemmas
import Verif.Skip.Inv
import Verif.Skip.Finish
import Verif.Skip.Life
import Verif.Skip.Steps
import Verif.Skip.Props
import Verif.Skip.Keep
import Verif.Skip.Restore
import Verif.Skip.Crash
import Verif.Skip.CrashInv
import Verif.Skip.CrashProps
import Verif.Skip.Examples
import Verif.Index.Model
import Verif.Index.Lemmas
import Verif.Index.Sim
import Verif.Index.StdModel
import Verif.Index.StdSim
import Verif.Index.Props
import Verif.Dbm.BucketIter
import Verif.ReadOnly
import Verif.Hash.RebuildConc
import Verif.Hash.RebuildConcLemmas
import Verif.Hash.RebuildConcProps
import Verif.Hash.RebuildCrash
import Verif.Hash.RebuildCrashExamples
import Verif.Hash.RebuildEach
import Verif.Text.Edit
import Verif.Text.Batch
import Verif.Async.Model
import Verif.Async.Props
import Verif.Thread.WaitCounter
import Verif.Thread.Broker
import Verif.Thread.BrokerProps
import Verif.Dbm.TwoPhase
import Verif.Dbm.TwoPhaseProof
import Verif.Tiny.Conc
import Verif.Tiny.ConcSeq
import Verif.Tiny.ConcProof
import Verif.Tiny.ConcStep
import Verif.Tiny.ConcSim
import Verif.Tiny.ConcProps
import Verif.Dbm.TwoPhaseSim
import Verif.Hash.Conc
import Verif.Hash.ConcInv
import Verif.Hash.ConcWrites
import Verif.Hash.ConcStep
import Verif.Hash.ConcSim
import Verif.Hash.ConcProps
import Verif.Hash.ConcExamples
import Verif.Hash.Damage
import Verif.Hash.DamageProps
import Verif.Hash.DamageExamples
import Verif.Hash.DamageViolated
import Verif.BTree.Conc
import Verif.BTree.ConcProof
import Verif.BTree.ConcStep
import Verif.BTree.ConcProps
import Verif.BTree.ConcExamples
import Verif.Dbm.LockOrder
import Verif.Dbm.TwoPhaseLive
import Verif.BTree.ConcLive
import Verif.File.FlatFold
import Verif.BTree.Save
import Verif.Cache.Save
import Verif.Cache.SaveExamples
import Verif.Dbm.Slotted
import Verif.Cache.Conc
import Verif.Cache.ConcExamples
import Verif.Poly.Model
import Verif.Poly.Spec
import Verif.Poly.Guess
import Verif.Poly.Choose
import Verif.Poly.Props
import Verif.Poly.Violations
import Verif.Poly.Tune
import Verif.Poly.TuneSpec
import Verif.Poly.TuneNames
import Verif.Poly.TuneProps
import Verif.Poly.TuneTree
