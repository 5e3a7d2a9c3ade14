import Verif.Bitmap.Props
import Verif.Queue.Props
import Verif.Queue.ConcProps
import Verif.Spinlock.Props
import Verif.IList.Props
import Verif.Kv.Model
import Verif.Kv.Props
import Verif.Config.Props
import Verif.Path.Props
import Verif.Throttle.Props
import Verif.Async.CompletionProps
import Verif.Async.SemaphoreProps
import Verif.Async.ReadyProps
import Verif.Object.Props
import Verif.Proc.Functor
import Verif.Proc.Seq
import Verif.Proc.Conc
import Verif.Accel.CountProps
import Verif.Accel.Snapshot
import Verif.Accel.PlaceProps
import Verif.Sched.Props
import Verif.Layout.Props
import Verif.Pipe.ProcMap
import Verif.Pipe.Segment
import Verif.Pipe.SegmentProps
import Verif.Pipe.LifecycleProps
import Verif.Pipe.Init
import Verif.Exec.Args
import Verif.Exec.Theorems
import Verif.Exec.DataCopy
import Verif.Ctrl.Strings
import Verif.Ctrl.Handler
import Verif.Ctrl.CpuSet
import Verif.Ctrl.Conf
import Verif.Timer.Props
import Verif.Accel.Listing
import Verif.Accel.PhysRelease
import Verif.Object.Rename
import Verif.Async.WorkerProps
import Verif.Async.OrphanProps
import Verif.Throttle.SpinProps
import Verif.Live.Props
import Verif.Async.CondLockProps
import Verif.DevMem.Props
import Verif.Elastic.Model
import Verif.Elastic.Props
import Verif.Elastic.FreeVaq
import Verif.Live.LeadsTo
import Verif.Ctrl.Control
import Verif.Ctrl.ControlProps
import Verif.Ctrl.Libs
import Verif.Ctrl.LibsProps
import Verif.Ctrl.LibsRun
import Verif.Dl.Model
import Verif.Dl.Chain
import Verif.Dl.Inv
import Verif.Dl.Surgery
import Verif.Dl.Take
import Verif.Dl.Alloc
import Verif.Dl.Regions
import Verif.Dl.Grow
import Verif.Dl.Grow2
import Verif.Dl.Prepend
import Verif.Dl.Prepend2
import Verif.Dl.AddSeg
import Verif.Dl.Malloc
import Verif.Dl.Release
import Verif.Dl.Free
import Verif.Dl.Free2
import Verif.Dl.Create
import Verif.Dl.World
import Verif.Dl.System
import Verif.Dl.System2
import Verif.Dl.Props
import Verif.Dl.Pages
import Verif.Dl.Inspect
import Verif.Dl.Reuse
import Verif.Dl.Links
import Verif.Dl.Rings
import Verif.Dl.Trie
import Verif.Dl.TrieInsert
import Verif.Dl.TrieRemove
import Verif.Dl.TrieRemove2
import Verif.Dl.TrieSearch
import Verif.Dl.BinIndex
import Verif.Dl.Bins
import Verif.Dl.Bins2
import Verif.Dl.Bins3
import Verif.Dl.LinkHeap
import Verif.Dl.Sim
import Verif.Dl.SimTake
import Verif.Dl.SimMalloc
import Verif.Dl.SimMalloc2
import Verif.Dl.SimFree
import Verif.Dl.LSys
import Verif.Dl.SimSys
import Verif.Dl.Fit
import Verif.Dl.LProps
import Verif.Dl.Phases
import Verif.Dl.Phases2
import Verif.Dl.Conc
import Verif.Dl.Conc2
import Verif.Dl.Conc3
import Verif.Dl.ConcProps
import Verif.Locks.Model
import Verif.Locks.Rules
import Verif.Locks.Props
import Verif.Locks.Cases
import Verif.Reclaim.Model
import Verif.Reclaim.Props
import Verif.Reclaim.Cases
import Verif.Stream.Model
import Verif.Stream.Spec
import Verif.Stream.Frame
import Verif.Stream.Inv
import Verif.Stream.Order
import Verif.Stream.Props
import Verif.Stream.Builtin
import Verif.Stream.Cases
import Verif.Tso.Section
import Verif.Tso.Kv
import Verif.Tso.Queue
import Verif.Queue.Lin
import Verif.Queue.LinProps
import Verif.Tso.Lin
import Verif.Json.Model
import Verif.Json.Spec
import Verif.Json.Lex
import Verif.Json.Num
import Verif.Json.Map
import Verif.Json.Props
import Verif.Json.Conf
import Verif.Json.Cases
import Verif.Queue.Multi
import Verif.Exec.Real
import Verif.Exec.RealProps
import Verif.Exec.RealQueue
import Verif.Exec.RealTheorems
import Verif.Attr.Model
import Verif.Attr.Spec
import Verif.Attr.Props
import Verif.Attr.Theorems
import Verif.Queue.Size
import Verif.Plot.Model
import Verif.Plot.Spec
import Verif.Plot.Props
import Verif.Plot.Theorems
import Verif.Grind.Model
import Verif.Grind.Spec
import Verif.Grind.Props
import Verif.Grind.Theorems
import Verif.Grind.Args
import Verif.Proc.Publish
import Verif.Pipe.Startup
import Verif.Pipe.StartupProps
import Verif.Ctrl.KernelMap
import Verif.Ctrl.KernelMapProps
import Verif.Ctrl.Run
import Verif.Ctrl.RunProps
import Verif.Utils.Assert
import Verif.Ctrl.Shown
import Verif.Exec.Noop
import Verif.Ctrl.Faults
import Verif.Tools.Vtop
import Verif.Tools.Kill
import Verif.Tools.Vdf
import Verif.Ctrl.Devices
import Verif.Ctrl.OpenCL
import Verif.Async.Ivshmem
import Verif.Ctrl.Services
import Verif.Async.IvshmemSem
import Verif.Ctrl.Migrate
import Verif.Ctrl.Helpers
import Verif.Object.Killed
import Verif.Object.RefConc
import Verif.Object.RefConcProps
import Verif.Plot.Palette
import Verif.Tools.VtopRows
import Verif.Ctrl.Registry
import Verif.Tools.VdfOpts
import Verif.Tools.Watch
import Verif.Tools.Members
import Verif.Dl.Tlsf
import Verif.Object.Kinds
import Verif.Java.Bindings
import Verif.Ctrl.EndReport
import Verif.Plot.Record
import Verif.Accel.Budget
