import Verif.BitVector.Model
import Verif.BitVector.Lemmas
import Verif.BitVector.PropsFields
import Verif.BitVector.PropsPack
import Verif.BitVector.Views
import Verif.BitVector.PropsMisc
import Verif.Crc.Model
import Verif.Crc.Spec
import Verif.Crc.Lemmas
import Verif.Crc.Props
import Verif.Soft.Model
import Verif.Soft.Props
import Verif.Core.CInt
import Verif.Timeval.Props
import Verif.F16.Props
import Verif.Core.Str
import Verif.Encoding.Model
import Verif.Encoding.Spec
import Verif.Encoding.Props64
import Verif.Encoding.Messages
import Verif.Encoding.Early
import Verif.Encoding.Props16
import Verif.Url.Props
import Verif.Utils.Gcd
import Verif.Utils.Strings
import Verif.Utils.StringSpec
import Verif.Utils.ReplaceProps
import Verif.Utils.SplitProps
import Verif.Utils.LineProps
import Verif.Utils.RefCnt
import Verif.Utils.Small
import Verif.Utils.SmallProps
import Verif.Utils.StatText
import Verif.Streams.Print
import Verif.Interthread.MapWalk
import Verif.Interthread.Nodes
import Verif.Interthread.Containers
import Verif.Interthread.Heap
import Verif.Interthread.HandOver
import Verif.Interthread.Together
import Verif.Interthread.Values
import Verif.Interthread.Holding
import Verif.Logger.AlarmThreads
import Verif.Config.Programs
import Verif.VectorHeap.Model
import Verif.VectorHeap.Ownership
import Verif.VectorHeap.Lemmas
import Verif.VectorHeap.Props
import Verif.Lists.Model
import Verif.Lists.Props
import Verif.Monitor.Model
import Verif.Monitor.Lemmas
import Verif.Monitor.Wakeup
import Verif.Monitor.Exec
import Verif.Monitor.Sections
import Verif.Monitor.Trees
import Verif.Monitor.HandOver
import Verif.Interthread.Queue
import Verif.Interthread.QueueProps
import Verif.Interthread.Pair
import Verif.Interthread.PairProps
import Verif.Interthread.WithWait
import Verif.Interthread.WithWaitProps
import Verif.Interthread.Semaphore
import Verif.Interthread.SemaphoreLife
import Verif.Interthread.Map
import Verif.Interthread.MapLife
import Verif.Interthread.LockOrder
import Verif.Interthread.AllLocks
import Verif.Interthread.JoinOrder
import Verif.Interthread.MapProps
import Verif.Interthread.PriorityQueue
import Verif.Interthread.PriorityQueueProps
import Verif.Interthread.Sleep
import Verif.Interthread.ClockSet
import Verif.Interthread.Iterate
import Verif.Threads.Mutex
import Verif.Threads.MutexProps
import Verif.Threads.Multi
import Verif.Threads.MultiProps
import Verif.Core.Number
import Verif.Core.NumberLemmas
import Verif.Config.Sql
import Verif.Config.Table
import Verif.Config.SqlProps
import Verif.Config.TableProps
import Verif.Config.Hook
import Verif.Config.Threads
import Verif.Config.NumberProps
import Verif.Config.Valid
import Verif.Config.ValidSpec
import Verif.Config.ValidLemmas
import Verif.Config.ValidProps
import Verif.Config.Hash
import Verif.Config.HashProps
import Verif.Config.KeyValue
import Verif.Config.KeyValueProps
import Verif.Config.RemoveProps
import Verif.Logger.Model
import Verif.Logger.Props
import Verif.Reporting.Model
import Verif.Reporting.Props
import Verif.Sqlite.Model
import Verif.Sqlite.Props
import Verif.Sqlite.LookupProps
import Verif.Sqlite.AttrProps
import Verif.Sockets.Model
import Verif.Sockets.Props
import Verif.Sockets.Resolve
import Verif.Sockets.Ports
import Verif.Sockets.Descriptors
import Verif.Sockets.Readers
import Verif.Process.Model
import Verif.Process.Props
import Verif.Process.Restart
import Verif.Process.SignalProps
import Verif.Core.Float
import Verif.Core.Double
import Verif.F16.Float
import Verif.F16.Laws
import Verif.BitVector.PropsText
import Verif.Config.MultiIp
import Verif.Config.Script
import Verif.Config.Tex
import Verif.BitVector.PropsHex
import Verif.VectorHeap.PropsAccess
import Verif.Soft.Spec
import Verif.Timeval.Model
import Verif.BitVector.Spec
import Verif.Core.Outcome
import Verif.F16.Model
import Verif.Encoding.Lemmas
import Verif.Url.Model
import Verif.Config.Find
import Verif.Config.Listing
import Verif.Config.Dump
import Verif.Timeval.Iso
import Verif.Threads.RwLock
import Verif.Threads.Start
import Verif.Threads.Guarded
import Verif.Threads.ForkJoin
import Verif.Threads.Ownership
import Verif.Threads.Library
import Verif.Scalar.Model
import Verif.Scalar.Props
import Verif.Memory.Props
import Verif.Memory.Threads
import Verif.Memory.Exhausted
import Verif.Utils.Scanf
import Verif.Utils.Printf
import Verif.Utils.Timestr
import Verif.Timeval.Seconds
import Verif.Logger.Record
import Verif.Logger.FileOpen
import Verif.Config.Builtin
import Verif.Config.Describe
import Verif.Logger.Init
import Verif.Reporting.Committer
import Verif.Reporting.Arrays
import Verif.Logger.Locks
import Verif.Logger.Statics
import Verif.Config.FloatRange
import Verif.Config.Record
import Verif.Threads.Console
import Verif.Threads.RwOrder
import Verif.Config.Regex
import Verif.Process.ExitStatus
import Verif.Config.HashObject
import Verif.Process.SignalThreads
import Verif.Process.SignalObjects
import Verif.Process.Interrupted
import Verif.Macros.Statements
import Verif.Macros.Values
import Verif.Macros.Bound
import Verif.VectorHeap.Soft
import Verif.Threads.Report
import Verif.Utils.RefThreads
import Verif.Interthread.Life
import Verif.Reporting.Crash
import Verif.Reporting.Programs
import Verif.Crc.Channel
import Verif.Config.Crash
import Verif.Utils.Average
import Verif.Config.Checked
import Verif.Sockets.BitFrames
import Verif.Interthread.Bounded
import Verif.Interthread.Chain
import Verif.Utils.RefGraph
import Verif.Utils.Backtrace
import Verif.Logger.LevelThreads
import Verif.Interthread.Steps
import Verif.Interthread.Programs
import Verif.Interthread.ProgramSteps
import Verif.Interthread.Pool
import Verif.Interthread.PoolEnds
import Verif.Interthread.PoolStop
import Verif.Interthread.Lock
import Verif.Interthread.Answers
