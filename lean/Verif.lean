import Verif.WriteBack.Props
import Verif.File.Props
import Verif.Dir.Props
import Verif.FSKey.Props
import Verif.Cache.Props
import Verif.Cache.FillProps
import Verif.PrimeS.IterProps
import Verif.Cluster.Model
import Verif.Cluster.View
import Verif.Cluster.Spec
import Verif.Cluster.Lemmas
import Verif.Cluster.Steps
import Verif.Cluster.Restore
import Verif.Cluster.Run
import Verif.Cluster.Copies
import Verif.Cluster.Pool
import Verif.Cluster.Props
import Verif.Cluster.Rebuild
import Verif.Cluster.RebuildProps
import Verif.Sched.Model
import Verif.Sched.Spec
import Verif.Sched.Lemmas
import Verif.Sched.Steps
import Verif.Sched.Merge
import Verif.Sched.Props
import Verif.Sched.Remove
import Verif.Bytes.Model
import Verif.Bytes.Props
import Verif.Label.Model
import Verif.Label.Props
import Verif.Zone.Model
import Verif.Zone.Props
import Verif.Tree.Props
import Verif.Tree.HistoryProps
import Verif.Tree.CleanProps
import Verif.Cluster.DatedProps
import Verif.Mirror.Model
import Verif.Mirror.Spec
import Verif.Mirror.Lemmas
import Verif.Mirror.Session
import Verif.Mirror.Props
import Verif.Codec.GF
import Verif.Codec.Model
import Verif.Codec.Spec
import Verif.Codec.Lemmas
import Verif.Codec.Props
import Verif.Raid.Layout
import Verif.Raid.PrimeS
import Verif.Raid.ZoneModel
import Verif.Raid.ZoneProps
import Verif.Raid.Model
import Verif.Raid.Spec
import Verif.Raid.WriteLemmas
import Verif.Raid.MultiLemmas
import Verif.Raid.StepLemmas
import Verif.Raid.ReadLemmas
import Verif.Raid.MultiRead
import Verif.Raid.Props
import Verif.Raid.FaultModel
import Verif.Raid.FaultProps
import Verif.Raid.RepairModel
import Verif.Raid.RepairProps
import Verif.Namespace.Model
import Verif.Namespace.Spec
import Verif.Namespace.Lemmas
import Verif.Namespace.Steps
import Verif.Namespace.OpLemmas
import Verif.Namespace.RenameLemmas
import Verif.Namespace.StepLemmas
import Verif.Namespace.History
import Verif.Namespace.Props
import Verif.Ddml.Model
import Verif.Ddml.Spec
import Verif.Ddml.Lemmas
import Verif.Ddml.Steps
import Verif.Ddml.Props
import Verif.Idml.Model
import Verif.Idml.Spec
import Verif.Idml.Lemmas
import Verif.Idml.Steps
import Verif.Idml.Props
import Verif.Idml.Race
import Verif.Property.Model
import Verif.Property.Props
import Verif.Forest.Model
import Verif.Forest.PropModel
import Verif.Forest.Spec
import Verif.Forest.Lemmas
import Verif.Forest.Inherit
import Verif.Forest.Steps
import Verif.Forest.Steps2
import Verif.Forest.Any
import Verif.Forest.Props
import Verif.Forest.Race
import Verif.Crash.Model
import Verif.Crash.Spec
import Verif.Crash.Lemmas
import Verif.Crash.Steps
import Verif.Crash.Props
import Verif.Crash.Dirty
import Verif.File.Conc
import Verif.File.ConcLemmas
import Verif.File.ConcProps
import Verif.Raid.ReconModel
import Verif.Raid.ReconBytes
import Verif.Raid.ReconGather
import Verif.Raid.ReconDecode
import Verif.Raid.ReconLemmas
import Verif.Raid.ReconReads
import Verif.Raid.ReconProps
import Verif.Raid.ReconMulti
import Verif.Raid.ReconQueue
import Verif.Raid.ReconDegProps
import Verif.Raid.ReconEnd
import Verif.Raid.ReconUnaligned
import Verif.Raid.ReconExamples
import Verif.Raid.LongModel
import Verif.Raid.LongLemmas
import Verif.Raid.LongProps
import Verif.Raid.LongExamples
import Verif.Ddml.OverRaid
import Verif.Fuse.Model
import Verif.Fuse.Spec
import Verif.Fuse.Lemmas
import Verif.Fuse.Loop
import Verif.Fuse.Steps
import Verif.Fuse.Ops
import Verif.Fuse.History
import Verif.Fuse.Check
import Verif.Fuse.Props
import Verif.Blob.Model
import Verif.Blob.Spec
import Verif.Blob.Lemmas
import Verif.Blob.Steps
import Verif.Blob.FileOps
import Verif.Blob.AttrOps
import Verif.Blob.History
import Verif.Blob.Props
import Verif.Share.Spec
import Verif.Share.Model
import Verif.Share.Lemmas
import Verif.Share.Steps
import Verif.Share.Leak
import Verif.Share.Props
import Verif.Xattr.Spec
import Verif.Xattr.Model
import Verif.Xattr.Lemmas
import Verif.Xattr.Props
import Verif.Attrs.Model
import Verif.Attrs.Spec
import Verif.Attrs.Lemmas
import Verif.Attrs.Steps
import Verif.Attrs.Forget
import Verif.Attrs.Props
import Verif.Conc.Model
import Verif.Conc.Spec
import Verif.Conc.Inv
import Verif.Conc.Nodes
import Verif.Conc.Steps
import Verif.Conc.System
import Verif.Conc.Term
import Verif.Conc.Props
import Verif.Import.Model
import Verif.Import.Spec
import Verif.Import.Lemmas
import Verif.Import.Steps
import Verif.Import.Others
import Verif.Import.Props
import Verif.TreeCredit.Model
import Verif.TreeCredit.Spec
import Verif.TreeCredit.Lemmas
import Verif.TreeCredit.Steps
import Verif.TreeCredit.Main
import Verif.TreeCredit.Props
import Verif.Isol.Model
import Verif.Isol.Spec
import Verif.Isol.Exec
import Verif.Isol.System
import Verif.Isol.Good
import Verif.Isol.Calls
import Verif.Isol.Foot
import Verif.Isol.Props
import Verif.Rpc.Model
import Verif.Rpc.Spec
import Verif.Rpc.List
import Verif.Rpc.Props
import Verif.PoolCmd.Model
import Verif.PoolCmd.Spec
import Verif.PoolCmd.Parse
import Verif.PoolCmd.Build
import Verif.PoolCmd.Props
import Verif.Check.Model
import Verif.Check.Spec
import Verif.Check.Sound
import Verif.Check.Order
import Verif.Check.Complete
import Verif.Check.Root
import Verif.Check.Answer
import Verif.Check.Props
import Verif.Reserve.Model
import Verif.Reserve.Spec
import Verif.Reserve.Lemmas
import Verif.Reserve.Calls
import Verif.Reserve.Bounds
import Verif.Reserve.Plain
import Verif.Reserve.Props
import Verif.Progress.Model
import Verif.Progress.Spec
import Verif.Progress.Lemmas
import Verif.Progress.Calls
import Verif.Progress.Finish
import Verif.Progress.Hang
import Verif.Progress.Props
import Verif.Wire.Model
import Verif.Wire.Spec
import Verif.Wire.Socket
import Verif.Wire.Lemmas
import Verif.Wire.Records
import Verif.Wire.Prefix
import Verif.Wire.Props
import Verif.Wire.Stored
import Verif.Cleaner.Model
import Verif.Cleaner.Spec
import Verif.Cleaner.Float
import Verif.Cleaner.Lemmas
import Verif.Cleaner.Task
import Verif.Cleaner.Props
import Verif.Cleaner.PassProps
import Verif.Cluster.Resume
import Verif.Cluster.ResumeProps
import Verif.NullRaid.Model
import Verif.NullRaid.Props
import Verif.Conc.Scan
import Verif.Conc.ScanSpec
import Verif.Conc.ScanInv
import Verif.Conc.ScanSteps
import Verif.Conc.ScanDown
import Verif.Conc.ScanSystem
import Verif.Conc.ScanProps
import Verif.Conc.ScanTerm
import Verif.Conc.ScanLiveProps
import Verif.Conc.ScanCount
import Verif.Conc.ScanOnce
import Verif.Conc.ScanHeight
import Verif.Conc.ScanProgress
import Verif.Conc.ScanDone
import Verif.Conc.ScanKeys
import Verif.Conc.ScanExact
import Verif.Conc.Returns
