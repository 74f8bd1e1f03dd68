import Verif.Props.FreeMemory
import Verif.Props.ShmManager
import Verif.Props.SharedBuffer
import Verif.Props.SlotProtocol
import Verif.Props.SegmentSizes
import Verif.Props.Comm
import Verif.Props.Memcopy
import Verif.Props.Serialization
import Verif.Props.DataIds
import Verif.Props.Scheduler
import Verif.Props.PympManager
import Verif.Props.Topology
import Verif.Props.Cluster
import Verif.Props.Worker
import Verif.Props.Live
import Verif.Props.Wait
import Verif.Props.GarbageCollector
import Verif.Props.Shutdown
import Verif.Props.LocalStore
import Verif.Props.AsyncOperations
import Verif.Props.Config
import Verif.Props.Versions
import Verif.Props.Arguments
import Verif.Props.Calls
import Verif.Props.Pymp
import Verif.Props.Pyseq
import Verif.Props.FailedArguments
import Verif.Props.Dask
import Verif.Props.Ray
import Verif.Props.Terminate
import Verif.Props.ShmExact
import Verif.Props.Nested
import Verif.Props.WaitMany
import Verif.Props.ActorNet
import Verif.Props.SharedSystem
import Verif.Props.Lifetime
import Verif.Props.Spawn
import Verif.Props.NoHang
import Verif.Props.Results
import Verif.Props.Handles
import Verif.Props.Robust
import Verif.Props.Dispatch
import Verif.Props.Lifecycle
import Verif.Props.ActorLife
import Verif.Props.SegmentStart
import Verif.Props.FunctionTravel
import Verif.Props.PympRobust
import Verif.Props.Isolation
import Verif.Props.Monitor
import Verif.Props.SharedGet
import Verif.Props.CallsExact
import Verif.Props.EventLoop
import Verif.Props.GcState
import Verif.Props.Reach
import Verif.Props.PackageVersion
import Verif.Props.MetadataDict
import Verif.Props.Logging
import Verif.Props.Packing
import Verif.Props.CallMessages
import Verif.Props.Sharing
import Verif.Props.Thresholds
import Verif.Props.SharedWrite
import Verif.Props.Placement
import Verif.Props.Launch
import Verif.Props.SerializationExact
import Verif.Props.Valued
import Verif.Props.Backends
import Verif.Props.ClusterGet
import Verif.Props.GetList
import Verif.Props.Derived
import Verif.Props.ActorBackends
import Verif.Props.ActorOrder
import Verif.Props.Held
import Verif.Props.ShmOwn
import Verif.Props.ActorLost
import Verif.Props.StoreStart
import Verif.Props.PympSystem
import Verif.Props.Interrupt
import Verif.Props.InterruptGet
import Verif.Props.InterruptReply
import Verif.Props.WaitBackends
import Verif.Props.InterruptPut
import Verif.Props.SharedEnd
import Verif.Props.Threads
import Verif.Props.LastTasks
import Verif.Props.Unrestorable
import Verif.Props.Options
import Verif.Props.Retention
import Verif.Props.PympNested
import Verif.Props.PympPlaces
import Verif.Props.PympThreads
import Verif.Props.PympTree
import Verif.Props.RefObjects
