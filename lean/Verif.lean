import Verif.Queue
import Verif.QueueLemmas
import Verif.Spec.Recency
import Verif.Props.Recency
import Verif.DList
import Verif.Spec.DListSpec
import Verif.DListLemmas
import Verif.Props.LinkedList
import Verif.Chain
import Verif.Spec.ChainSpec
import Verif.ChainLemmas
import Verif.Props.HashChain
import Verif.Mapped
import Verif.Cache
import Verif.Buckets
import Verif.CacheLemmas
import Verif.CacheWF
import Verif.CacheOps
import Verif.Inv
import Verif.Spec.Ledger
import Verif.Spec.Reach
import Verif.InvStep
import Verif.InvLed
import Verif.InvOps
import Verif.InvAsync
import Verif.InvFull
import Verif.InvAll
import Verif.SpecLemmas
import Verif.HistLemmas
import Verif.AnswerLemmas
import Verif.Destroyed
import Verif.Spec.MapSpec
import Verif.MapLemmas
import Verif.NonInt
import Verif.Demo
import Verif.ValueLemmas
import Verif.Props.Values
import Verif.Props.Time
import Verif.Props.Resolver
import Verif.Spec.Waiters
import Verif.Tokens
import Verif.AsyncLemmas
import Verif.AsyncAcc
import Verif.Settle
import Verif.Props.Async
import Verif.SizeLemmas
import Verif.PeekLemmas
import Verif.EvictLemmas
import Verif.FillLemmas
import Verif.WithinLemmas
import Verif.Props.Size
import Verif.Props.Own
import Verif.RefreshLemmas
import Verif.Props.Refresh
import Verif.ReclaimLemmas
import Verif.StorageLemmas
import Verif.Props.Storage
import Verif.LoadLemmas
import Verif.Grow
import Verif.Props.Load
import Verif.Refcount
import Verif.Spec.Owners
import Verif.RefcountLemmas
import Verif.Props.Counted
import Verif.Meta
import Verif.Spec.Policies
import Verif.MetaLemmas
import Verif.Props.Policies
import Verif.Props.TypeList
import Verif.Threads
import Verif.Spec.Linear
import Verif.ThreadsLemmas
import Verif.Race
import Verif.Props.Threads
import Verif.Props.Race
import Verif.Spec.Lru
import Verif.LruLemmas
import Verif.Props.Lru
import Verif.PQueue
import Verif.PQueueLemmas
import Verif.Machine
import Verif.MachineCore
import Verif.MachineWalk
import Verif.MachineList
import Verif.MachineOps
import Verif.MachineApi
import Verif.MachineAsync
import Verif.MachineRun
import Verif.Spec.Memory
import Verif.Props.Memory
import Verif.Worker
import Verif.WorkerLemmas
import Verif.Spec.Work
import Verif.WorkerInv
import Verif.CalmLemmas
import Verif.Props.Worker
import Verif.Nested
import Verif.Spec.Nested
import Verif.NestedLemmas
import Verif.NestedRun
import Verif.NestedOnce
import Verif.Props.Nested
import Verif.Timers
import Verif.Spec.Timers
import Verif.LifeLemmas
import Verif.TimersLemmas
import Verif.TimersInv
import Verif.Props.Timers
import Verif.Handlers
import Verif.Spec.Handlers
import Verif.HandlersLemmas
import Verif.HandlersKeep
import Verif.HandlersStep
import Verif.HandlersInv
import Verif.HandlersFull
import Verif.HandlersCount
import Verif.HandlersRun
import Verif.HandlersQuiet
import Verif.GarbageLemmas
import Verif.Props.Garbage
import Verif.Props.Handlers
import Verif.NestedAsync
import Verif.Spec.NestedAsync
import Verif.NestedAsyncLemmas
import Verif.NestedAsyncKeep
import Verif.NestedAsyncLimbo
import Verif.NestedAsyncRun
import Verif.NestedAsyncCount
import Verif.NestedAsyncWho
import Verif.NestedAsyncCaller
import Verif.NestedAsyncStay
import Verif.Props.NestedAsync
import Verif.ClockLemmas
import Verif.Props.Clocks
import Verif.Construct
import Verif.ConstructLemmas
import Verif.Props.Construct
import Verif.Objects
import Verif.Spec.Objects
import Verif.ObjectsLemmas
import Verif.Props.Objects
import Verif.Lifetime
import Verif.LifetimeLemmas
import Verif.Props.Lifetime
import Verif.Throw
import Verif.Spec.Throw
import Verif.ThrowLemmas
import Verif.ThrowAcc
import Verif.Props.Throw
import Verif.Spec.Symmetry
import Verif.SymmetryLemmas
import Verif.Props.Symmetry
import Verif.Member
import Verif.Spec.Member
import Verif.Props.Member
import Verif.Spec.Retable
import Verif.HashFree
import Verif.Props.HashFree
import Verif.Spec.Reference
import Verif.RefLemmas
import Verif.Props.Reference
import Verif.Spec.Stack
import Verif.Props.Stack
import Verif.Spec.Project
import Verif.ProjectLemmas
import Verif.Props.Project
import Verif.RepoTests
import Verif.Spec.Pure
import Verif.Spec.Fib
import Verif.PureLemmas
import Verif.Props.Pure
import Verif.Fibonacci
import Verif.FibLemmas
import Verif.Props.Fibonacci
import Verif.Spec.Cost
import Verif.Cost
import Verif.CostLemmas
import Verif.CostFill
import Verif.Props.Cost
import Verif.Abort
import Verif.Spec.Abort
import Verif.AbortLemmas
import Verif.Props.Abort
import Verif.Dispatch
import Verif.Spec.Dispatch
import Verif.DispatchLemmas
import Verif.DispatchPerm
import Verif.DispatchSim
import Verif.DispatchTimes
import Verif.Props.Dispatch
import Verif.QueueCheck
import Verif.Spec.QueueOrder
import Verif.QueueCheckLemmas
import Verif.Props.QueueCheck
import Verif.Compare
import Verif.Spec.Compare
import Verif.CompareLemmas
import Verif.Props.Compare
import Verif.Arrays
import Verif.Spec.Arrays
import Verif.ArraysLemmas
import Verif.Props.Arrays
import Verif.RefreshFail
import Verif.Spec.RefreshFail
import Verif.RefreshFailLemmas
import Verif.Props.RefreshFail
import Verif.MachineTime
import Verif.Spec.MachineTime
import Verif.MachineTimeLemmas
import Verif.Props.MachineTime
import Verif.Visits
import Verif.Spec.Visits
import Verif.VisitsLemmas
import Verif.VisitsClog
import Verif.VisitsStep
import Verif.Props.Visits
import Verif.Floats
import Verif.Spec.Floats
import Verif.FloatsLemmas
import Verif.FloatsTab
import Verif.Props.Floats
import Verif.Start
import Verif.Props.Start
import Verif.Futures
import Verif.Spec.Futures
import Verif.Props.Futures
import Verif.Executors
import Verif.Spec.Executors
import Verif.ExecutorsLemmas
import Verif.Props.Executors
import Verif.Order
import Verif.Spec.Order
import Verif.OrderLemmas
import Verif.Props.Order
import Verif.Spec.Full
import Verif.FullLemmas
import Verif.Props.Full
import Verif.Props.SmallLimits
import Verif.SetEntry
import Verif.Props.SetEntry
import Verif.FnRef
import Verif.Spec.FnRef
import Verif.Props.FnRef
import Verif.Props.Events
import Verif.Props.EventsNested
import Verif.Props.EventsFail
import Verif.QueueMove
import Verif.Spec.QueueMove
import Verif.QueueMoveLemmas
import Verif.Props.QueueMove
import Verif.RefAlloc
import Verif.Spec.RefAlloc
import Verif.RefAllocLemmas
import Verif.Props.RefAlloc
