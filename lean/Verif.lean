import Verif.Props.Waker
import Verif.Props.Mutex
import Verif.Props.CondVar
import Verif.Props.Barrier
import Verif.Props.BufferedChannel
import Verif.Props.UnbufferedChannel
import Verif.Props.FutureOwner
import Verif.Props.Fiber
import Verif.Props.Sched
import Verif.Props.SpinQueue
import Verif.Props.Spmc
import Verif.Props.Multi
import Verif.Props.MultiLive
import Verif.Props.SetAlgo
import Verif.Props.Numa
import Verif.Props.Spinlock
import Verif.Props.Fss
import Verif.Props.FssRe
import Verif.Props.ChannelIter
import Verif.Props.Properties
import Verif.Props.Gpu
import Verif.Props.StackLayout
import Verif.Props.FiberId
import Verif.Props.WeakLock
import Verif.Props.WeakRef
import Verif.Props.WeakSpmc
import Verif.Props.WeakUnbuf
import Verif.Deadline
import Verif.Props.Deadline
import Verif.WeakMutex
import Verif.WeakMutexInv
import Verif.WeakMutexStep
import Verif.Props.WeakMutex
import Verif.StealStart
import Verif.Props.StealStart
import Verif.WeakKnow
import Verif.WeakFiber
import Verif.WeakFiberInv
import Verif.WeakFiberStr
import Verif.WeakFiberMem
import Verif.WeakFiberStep
import Verif.WeakFiberGo
import Verif.WeakFiberOrd
import Verif.Props.WeakFiber
import Verif.Rtm
import Verif.RtmInv
import Verif.RtmStep
import Verif.Props.Rtm
import Verif.Launch
import Verif.LaunchInv
import Verif.LaunchTrace
import Verif.LaunchHist
import Verif.Props.Launch
import Verif.WeakDrf
import Verif.WeakDrfInv
import Verif.WeakDrfAtomic
import Verif.WeakDrfLive
import Verif.Props.WeakDrf
import Verif.Monitor
import Verif.MonitorInv
import Verif.MonitorLive
import Verif.MonitorMutex
import Verif.Props.Monitor
import Verif.MonitorSec
import Verif.MonitorHand
import Verif.MonitorChan
import Verif.MonitorChanInv
import Verif.Props.MonitorChan
import Verif.MonitorBarrier
import Verif.MonitorBarrierInv
import Verif.Props.MonitorBarrier
import Verif.MonitorFuture
import Verif.MonitorFutureInv
import Verif.Props.MonitorFuture
import Verif.LockOrder
import Verif.LockOrderInv
import Verif.LockOrderLive
import Verif.Props.LockOrder
import Verif.MonitorNet
import Verif.MonitorNetInv
import Verif.MonitorNetDet
import Verif.Props.MonitorNet
import Verif.OrderWait
import Verif.OrderWaitInv
import Verif.OrderWaitLive
import Verif.Props.OrderWait
import Verif.ThreadInit
import Verif.Props.ThreadInit
import Verif.SchedTurn
import Verif.Props.SchedTurn
import Verif.AsioYield
import Verif.AsioYieldInv
import Verif.Props.AsioYield
import Verif.WaitStuff
import Verif.WaitStuffInv
import Verif.Props.WaitStuff
import Verif.Priority
import Verif.PriorityInv
import Verif.Props.Priority
import Verif.AsioLoop
import Verif.AsioLoopInv
import Verif.AsioLoopLive
import Verif.Props.AsioLoop
import Verif.Callback
import Verif.CallbackInv
import Verif.Props.Callback
import Verif.Nonblocking
import Verif.Props.Nonblocking
import Verif.WorkPool
import Verif.WorkPoolInv
import Verif.WorkPoolLive
import Verif.Props.WorkPool
import Verif.MutexTurn
import Verif.Props.MutexTurn
import Verif.NumaSys
import Verif.Props.NumaSys
import Verif.Fair
import Verif.BarrierLive
import Verif.Props.BarrierLive
import Verif.BufLive
import Verif.Props.BufLive
import Verif.UnbufLive
import Verif.Props.UnbufLive
import Verif.FibLive
import Verif.Props.FibLive
import Verif.FutLive
import Verif.Props.FutLive
import Verif.MutexLive
import Verif.Props.MutexLive
import Verif.CvLive
import Verif.Props.CvLive
import Verif.UnbufTimed
import Verif.Props.UnbufTimed
import Verif.SchedFair
import Verif.Props.SchedFair
import Verif.MultiFair
import Verif.Props.MultiFair
import Verif.PubSub
import Verif.PubSubInv
import Verif.Props.PubSub
import Verif.Echo
import Verif.EchoInv
import Verif.EchoEnd
import Verif.Props.Echo
import Verif.Skynet
import Verif.SkynetInv
import Verif.Props.Skynet
import Verif.AsyncTree
import Verif.AsyncTreeInv
import Verif.Props.AsyncTree
import Verif.FutureErr
import Verif.Props.FutureErr
import Verif.PingPong
import Verif.Props.PingPong
import Verif.Pipe
import Verif.Props.Pipe
import Verif.ThreadBarrier
import Verif.ThreadBarrierInv
import Verif.Props.ThreadBarrier
import Verif.JoinRef
import Verif.Props.JoinRef
