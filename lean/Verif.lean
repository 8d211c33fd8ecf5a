import Verif.Chart
import Verif.Machine
import Verif.Exec
import Verif.Dispatch
import Verif.Wp
import Verif.Spec
import Verif.ChartLemmas
import Verif.Inv
import Verif.Release
import Verif.Release2
import Verif.Exit
import Verif.Remove
import Verif.Term
import Verif.EntrySpec
import Verif.Construct
import Verif.Build
import Verif.Pres
import Verif.History
import Verif.ReactSpec
import Verif.Transit
import Verif.Defer
import Verif.React
import Verif.Trig
import Verif.Send
import Verif.Api
import Verif.Api2
import Verif.Reach
import Verif.QueueSpec
import Verif.Queue
import Verif.Check
import Verif.Example
import Verif.HistSpec
import Verif.HistLog
import Verif.Props.Vocab
import Verif.Props.EntryFacts
import Verif.Props.Config
import Verif.Props.Order
import Verif.Props.Cut
import Verif.Props.Recall
import Verif.Props.Events
import Verif.Props.Calls
import Verif.Props.Transitions
import Verif.Props.Ends
import Verif.Props.Failing
import Verif.Props.Handling
import Verif.Props.Late
import Verif.Props.Full
import Verif.Props.History
import Verif.Released
import Verif.Props.Queues
import Verif.HistoryKey
import Verif.EventRef
import Verif.Cast
import Verif.Props.Cast
import Verif.Result
import Verif.Rtti
import Verif.Props.Rtti
import Verif.Fifo.Worker
import Verif.Fifo.Threads
import Verif.Fifo.Scheduler
import Verif.Fifo.Shared
import Verif.Props.Worker
import Verif.Props.Threads
import Verif.Props.Live
import Verif.Props.Scheduler
import Verif.Props.Lives
import Verif.Props.Shared
import Verif.Props.SharedServe
import Verif.Blind
import Verif.Near
import Verif.Props.Hidden
import Verif.Relax
import Verif.Props.Relaxed
import Verif.Watch
import Verif.Tidy
import Verif.Tidy2
import Verif.Props.Query
import Verif.Props.Context
import Verif.Fifo.Async
import Verif.Props.Async
import Verif.Fifo.AsyncShared
import Verif.Props.SharedAsync
import Verif.Props.Returns
import Verif.Conform.Basic
import Verif.Conform.Transition
import Verif.Conform.History
import Verif.Conform.Termination
import Verif.Conform.Deferral
import Verif.Conform.Reactions
import Verif.Conform.Scheduler
import Verif.Conform.Static
import Verif.Conform.TypeInfo
import Verif.Refine8
import Verif.Props.Reference
import Verif.Calms
import Verif.Props.Calm
import Verif.Cascade
import Verif.Props.Cascade
import Verif.AnyOrder
import Verif.Props.AnyOrder
import Verif.Regions
import Verif.Props.Regions
import Verif.Props.Memory
import Verif.Props.Width
import Verif.Recast
import Verif.Props.Custom
import Verif.Props.Macro
import Verif.Props.Inherit
import Verif.Props.Translator
import Verif.Props.Unentered
import Verif.Props.Unsent
import Verif.Props.Throws
import Verif.Props.Simple
import Verif.Fifo.Hub
import Verif.Props.Hub
import Verif.Fifo.HubShared
import Verif.Props.SharedHub
import Verif.Props.SharedHubBack
import Verif.Demo.Basic
import Verif.Demo.Keyboard
import Verif.Demo.BitMachine
import Verif.Demo.StopWatch
import Verif.Demo.Camera
import Verif.Demo.PingPong
import Verif.Demo.StopWatch2
import Verif.Demo.Performance
