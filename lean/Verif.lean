import Verif.Tag.Props
import Verif.PQueue.Props
import Verif.Sched.Props
import Verif.Sched.RefProps
import Verif.Runtime.Props
import Verif.Port.Props
import Verif.Token.Props
import Verif.Token.ThreadsProps
import Verif.Vector.Props
import Verif.Deque.Props
import Verif.MixedRadix.Props
import Verif.HashMap.Props
import Verif.HashSet.Props
import Verif.Clock.Props
import Verif.Semaphore.Props
import Verif.Misc.IndexProps
import Verif.Misc.PrintProps
import Verif.Net.WireProps
import Verif.Net.SocketProps
import Verif.Watchdog.Props
import Verif.Fed.NextEventProps
import Verif.ClockSync.Props
import Verif.ClockSync.Udp
import Verif.ClockSync.UdpInv
import Verif.ClockSync.UdpProps
import Verif.Trace.Props
import Verif.Args.Props
import Verif.Rti.DelaysProps
import Verif.Rti.GrantProps
import Verif.Rti.ZdcProps
import Verif.Rti.Depth
import Verif.Rti.ProgressProps
import Verif.Encl.Model
import Verif.Encl.Safe
import Verif.Encl.Live
import Verif.Encl.Props
import Verif.Np.Model
import Verif.Np.Pool
import Verif.Np.Places
import Verif.Np.Inv
import Verif.Np.Spec
import Verif.Np.Good
import Verif.Np.Ledger
import Verif.Np.Live
import Verif.Np.Work
import Verif.Np.Props
import Verif.Gedf.Model
import Verif.Gedf.Crew
import Verif.Gedf.CrewStep
import Verif.Gedf.Places
import Verif.Gedf.Ledger
import Verif.Gedf.Live
import Verif.Gedf.Work
import Verif.Gedf.Props
import Verif.Adaptive.Model
import Verif.Adaptive.Abstract
import Verif.Adaptive.Groups
import Verif.Adaptive.Ctl
import Verif.Adaptive.CtlStep
import Verif.Adaptive.Crew
import Verif.Adaptive.Places
import Verif.Adaptive.Steps
import Verif.Adaptive.Progress
import Verif.Adaptive.Ledger
import Verif.Adaptive.Run
import Verif.Adaptive.Always
import Verif.Adaptive.Live
import Verif.Adaptive.Props
import Verif.Adaptive.Data
import Verif.Adaptive.DataProps
import Verif.Auth.Props
import Verif.Join.P2pProps
import Verif.Barrier.Model
import Verif.Barrier.Props
import Verif.Modes.Model
import Verif.Modes.Spec
import Verif.Modes.Active
import Verif.Modes.ModeProps
import Verif.Modes.Events
import Verif.Modes.Process
import Verif.Modes.EventInv
import Verif.Modes.Run
import Verif.Modes.EventProps
import Verif.Stop.Model
import Verif.Stop.Core
import Verif.Stop.Feds
import Verif.Stop.Inv
import Verif.Stop.Steps
import Verif.Stop.Run
import Verif.Stop.Props
import Verif.Start.Model
import Verif.Start.Props
import Verif.Join.Model
import Verif.Join.Props
import Verif.Level.Model
import Verif.Level.Inv
import Verif.Level.Orderly
import Verif.Level.Props
import Verif.Fedn.Props
import Verif.Fedn.Starve
import Verif.Fedn.StarveProps
import Verif.Uni.Model
import Verif.Uni.Inv
import Verif.Det.Spec
import Verif.Det.Overlay
import Verif.Det.Swap
import Verif.Det.Sort
import Verif.Det.Log
import Verif.Det.Schedulers
import Verif.Det.Props
import Verif.Trace.File
import Verif.Trace.FileProps
import Verif.Platform.ClockProps
import Verif.Platform.IrqProps
import Verif.Platform.MiscProps
import Verif.Decentral.Model
import Verif.Decentral.Inv
import Verif.Decentral.Gen
import Verif.Decentral.Pops
import Verif.Decentral.Timely
import Verif.Decentral.Deliver
import Verif.Decentral.Tardy
import Verif.Decentral.Order
import Verif.Decentral.Run
import Verif.Decentral.Props
import Verif.Tardiness.Model
import Verif.Tardiness.Spec
import Verif.Tardiness.Inv
import Verif.Tardiness.Props
import Verif.FedDet.Spec
import Verif.FedDet.Agree
import Verif.FedDet.Hop
import Verif.FedDet.Run
import Verif.FedDet.Local
import Verif.FedDet.Parts
import Verif.FedDet.Inv
import Verif.FedDet.Steps
import Verif.FedDet.RunExec
import Verif.FedDet.SeqExec
import Verif.FedDet.Runs
import Verif.FedDet.Props
import Verif.Rti.Handled
import Verif.FedDet.Seen
import Verif.FedDet.SeenInv
import Verif.FedDet.Measure
import Verif.FedDet.Less
import Verif.FedDet.Stuck
import Verif.FedDet.Multi
import Verif.FedDet.EndProps
import Verif.DecFed.Agree
import Verif.DecFed.Model
import Verif.DecFed.Local
import Verif.DecFed.Recv
import Verif.DecFed.Chan
import Verif.DecFed.Inv
import Verif.DecFed.Steps
import Verif.DecFed.Exec
import Verif.DecFed.Runs
import Verif.DecFed.Props
import Verif.DecFed.Ahead
import Verif.DecFed.Status
import Verif.DecFed.Ledger
import Verif.DecFed.Progress
import Verif.DecFed.EndProps
import Verif.Platform.Sleep
import Verif.Platform.SleepInv
import Verif.Platform.SleepProps
import Verif.RtiAddr.Model
import Verif.RtiAddr.Spec
import Verif.RtiAddr.Lemmas
import Verif.RtiAddr.AddrLemmas
import Verif.RtiAddr.ParseLemmas
import Verif.RtiAddr.Props
import Verif.Memory.Model
import Verif.Memory.Spec
import Verif.Memory.Exec
import Verif.Memory.Inv
import Verif.Memory.Order
import Verif.Memory.Steps
import Verif.Memory.Term
import Verif.Memory.Props
import Verif.Async.Model
import Verif.Async.Inv
import Verif.Async.Ending
import Verif.Async.Props
import Verif.Leave.Model
import Verif.Leave.Frames
import Verif.Leave.Ending
import Verif.Leave.Grants
import Verif.Leave.Props
import Verif.ClockSync.UdpGuard
import Verif.Python.Model
import Verif.Python.Spec
import Verif.Python.Lemmas
import Verif.Python.Props
import Verif.Python.TagModel
import Verif.Python.TagProps
import Verif.Cycle.Model
import Verif.Cycle.Spec
import Verif.Cycle.Lemmas
import Verif.Cycle.Inv
import Verif.Cycle.Result
import Verif.Cycle.Progress
import Verif.Cycle.Props
import Verif.Cycle.RunModel
import Verif.Cycle.RunSpec
import Verif.Cycle.RunLemmas
import Verif.Cycle.RunInv
import Verif.Cycle.RunStep
import Verif.Cycle.RunResult
import Verif.Cycle.RunProgress
import Verif.Cycle.RunProps
import Verif.Cycle.RunDemo
import Verif.Cycle.RunFairSpec
import Verif.Cycle.RunFair
import Verif.Cycle.RunLive
import Verif.Cycle.RunFairProps
import Verif.RtiArgs.Model
import Verif.RtiArgs.Spec
import Verif.RtiArgs.Props
import Verif.Vector.Memory
import Verif.Vector.Keep
import Verif.Adaptive.DataBest
import Verif.Runtime.Check
import Verif.Watchdog.Late
import Verif.Leave.Known
import Verif.Platform.MiscWake
import Verif.TraceSum.Model
import Verif.TraceSum.Spec
import Verif.TraceSum.Slots
import Verif.TraceSum.Fold
import Verif.TraceSum.Lines
import Verif.TraceSum.Props
import Verif.TraceSum.Wrong
import Verif.Wave.Model
import Verif.Wave.Spec
import Verif.Wave.Props
import Verif.Audio.Model
import Verif.Audio.Spec
import Verif.Audio.Inv
import Verif.Audio.Props
import Verif.Print.Model
import Verif.Print.Spec
import Verif.Print.Props
import Verif.Sensor.Model
import Verif.Sensor.Spec
import Verif.Sensor.Inv
import Verif.Sensor.Props
import Verif.Influx.Model
import Verif.Influx.Spec
import Verif.Influx.Inv
import Verif.Influx.Read
import Verif.Influx.Props
import Verif.Http.Model
import Verif.Http.Spec
import Verif.Http.Inv
import Verif.Http.Props
import Verif.Rust.Model
import Verif.Rust.Spec
import Verif.Rust.Inv
import Verif.Rust.Props
import Verif.Chrome.Model
import Verif.Chrome.Spec
import Verif.Chrome.Inv
import Verif.Chrome.Props
import Verif.Ports.Model
import Verif.Ports.Spec
import Verif.Ports.Inv
import Verif.Ports.Props
import Verif.Threads.Model
import Verif.Threads.Props
import Verif.TraceArgs.Model
import Verif.TraceArgs.Spec
import Verif.TraceArgs.Props
import Verif.PQueue.Debug
import Verif.Windows.Model
import Verif.Windows.Props
import Verif.Args.Main
import Verif.Args.MainProps
import Verif.Platform.ThreadSched
import Verif.Platform.ThreadSchedProps
import Verif.Platform.Flexpret
import Verif.Platform.FlexpretProps
import Verif.Platform.ThreadPool
import Verif.Platform.ThreadPoolProps
import Verif.Modes.Suspended
import Verif.Modes.SuspendedProps
