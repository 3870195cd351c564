import Verif.Base.Prog
import Verif.Base.Arith
import Verif.Base.Lists
import Verif.Base.PoolSpec
import Verif.Base.Bits
import Verif.Base.Mem
import Verif.QuickPool.Model
import Verif.QuickPool.Spec
import Verif.QuickPool.Inv
import Verif.QuickPool.Use
import Verif.QuickPool.Grow
import Verif.QuickPool.Ops
import Verif.QuickPool.Free
import Verif.QuickPool.Coalesce
import Verif.QuickPool.View
import Verif.QuickPool.Heur
import Verif.QuickPool.Diverge
import Verif.QuickPool.Peak
import Verif.QuickPool.Fit
import Verif.QuickPool.Props
import Verif.Base.MergeSpec
import Verif.QuickPool.Merge
import Verif.DynPool.Model
import Verif.DynPool.Rel
import Verif.DynPool.Sim
import Verif.DynPool.Free
import Verif.DynPool.Spec
import Verif.DynPool.Ops
import Verif.DynPool.Props
import Verif.FixedPool.Model
import Verif.FixedPool.Inv
import Verif.FixedPool.Spec
import Verif.FixedPool.Props
import Verif.MallocPool.Model
import Verif.MallocPool.Inv
import Verif.MallocPool.Props
import Verif.MallocPool.Frame
import Verif.BlockPool.Props
import Verif.SlotPool.Model
import Verif.SlotPool.Props
import Verif.Small.Monotonic
import Verif.Small.SizeLimiter
import Verif.Small.Aligned
import Verif.Small.Forward
import Verif.Small.SizeArith
import Verif.Base.Frame
import Verif.MixedPool.Model
import Verif.MixedPool.Inv
import Verif.MixedPool.Props
import Verif.Judy.Model
import Verif.Judy.Lists
import Verif.Judy.Search
import Verif.Judy.Update
import Verif.Judy.Map
import Verif.Judy.MapInv
import Verif.Judy.AMapInv
import Verif.Judy.Props
import Verif.Manager.World
import Verif.Manager.Model
import Verif.Manager.Inv
import Verif.Manager.Ops
import Verif.Manager.Move
import Verif.Manager.Hist
import Verif.Manager.Peak
import Verif.Manager.Can
import Verif.Manager.Play
import Verif.Manager.Props
import Verif.Names.Types
import Verif.Names.TypesProps
import Verif.Names.Model
import Verif.Names.Inv
import Verif.Names.Props
import Verif.Ops.Model
import Verif.Ops.Props
import Verif.Replay.Model
import Verif.Replay.Log2
import Verif.Replay.Program
import Verif.Replay.Compile
import Verif.Replay.Props
import Verif.Misc.Heuristics
import Verif.Misc.Loop
import Verif.Misc.File
import Verif.Misc.Constant
import Verif.Misc.Null
import Verif.Shm.Model
import Verif.Shm.Lemmas
import Verif.Shm.Inv
import Verif.Shm.Loops
import Verif.Shm.Blocks
import Verif.Shm.Take
import Verif.Shm.Unlink
import Verif.Shm.MergePrev
import Verif.Shm.MergeNext
import Verif.Shm.Top
import Verif.Shm.Spec
import Verif.Shm.Props
import Verif.Shm.Cases
import Verif.Conc.Lock
import Verif.Conc.Serial
import Verif.Conc.Pool
import Verif.Conc.SerialCases
import Verif.Conc.Races
import Verif.Conc.Cases
import Verif.Device.Bump
import Verif.Device.Table
import Verif.Device.TableCases
import Verif.Nest.Sem
import Verif.Nest.Strat
import Verif.Nest.Kinds
import Verif.Nest.Kinds2
import Verif.Nest.Arr
import Verif.Nest.Ledger
import Verif.Nest.Drive
import Verif.Nest.Props
import Verif.Nest.End
import Verif.Nest.Order
import Verif.Nest.EndProps
import Verif.DynPool.Merge
import Verif.DynPool.Peak
import Verif.Base.Poison
import Verif.Base.Gran
import Verif.QuickPool.Poison
import Verif.QuickPool.Gran
import Verif.DynPool.Poison
import Verif.DynPool.Gran
import Verif.Events.Json
import Verif.Events.Lex
import Verif.Events.Store
import Verif.Events.Text
import Verif.Events.Read
import Verif.Events.Utf8
import Verif.Events.Line
import Verif.Events.Props
import Verif.Nest.Place
import Verif.Whole.Model
import Verif.Whole.Sim
import Verif.Whole.Hist
import Verif.Whole.Play
import Verif.Whole.Props
import Verif.Threads.Model
import Verif.Threads.Alone
import Verif.Threads.Spec
import Verif.Threads.Logic
import Verif.Threads.Calls
import Verif.Threads.Inv
import Verif.Threads.Sound
import Verif.Threads.Play
import Verif.Threads.Props
import Verif.Full.Model
import Verif.Full.Group
import Verif.Full.Sim
import Verif.Full.Props
import Verif.Full.Ends
import Verif.Rebuild.Model
import Verif.Rebuild.Props
import Verif.Rebuild.Log
import Verif.Trace.Model
import Verif.Trace.Keys
import Verif.Trace.Sim
import Verif.Trace.Props
import Verif.Bind.Model
import Verif.Bind.Props
import Verif.Names.Registry
import Verif.Names.RegistryProps
import Verif.Numa.Model
import Verif.Numa.Props
import Verif.Async.Model
import Verif.Async.Props
import Verif.Log.Model
import Verif.Log.Props
import Verif.Tables.Model
import Verif.Tables.Logic
import Verif.Tables.Props
import Verif.Stores.Model
import Verif.Stores.Logic
import Verif.Stores.Props
import Verif.Manager.External
import Verif.Manager.ExternalHist
import Verif.Manager.ExternalProps
import Verif.Gpu.Model
import Verif.Gpu.Props
import Verif.Advice.Model
import Verif.Advice.Props
import Verif.Nest.Release
import Verif.Nest.ReleaseProps
import Verif.Nest.Stats
import Verif.Nest.StatsProps
import Verif.Devops.Model
import Verif.Devops.Props
import Verif.Devops.Contract
import Verif.Deny.Prog
import Verif.Deny.Model
import Verif.Deny.Quick
import Verif.Deny.Alloc
import Verif.Deny.Props
import Verif.Deny.Small
import Verif.Deny.Dyn.Model
import Verif.Deny.Dyn.Proof
import Verif.Deny.Dyn.Props
import Verif.Process.Model
import Verif.Process.Props
import Verif.Mpi.Model
import Verif.Mpi.Props
import Verif.Mpi.Comm
import Verif.Refuse.Model
import Verif.Refuse.Inv
import Verif.Refuse.Step
import Verif.Refuse.Props
import Verif.Usm.Model
import Verif.Usm.Props
import Verif.Cast.Model
import Verif.Cast.Props
import Verif.Oom.Model
import Verif.Oom.Props
import Verif.Attach.Model
import Verif.Attach.Inv
import Verif.Attach.Props
import Verif.Attach.Live
import Verif.Multi.Model
import Verif.Multi.Inv
import Verif.Multi.Sim
import Verif.Multi.Props
import Verif.Numa.Nodes
import Verif.Replay.Stats
import Verif.Replay.StatsLog
import Verif.Backtrace.Model
import Verif.Backtrace.Props
