import Verif.Props.Vector
import Verif.Props.Deque
import Verif.Props.Prealloc
import Verif.Props.Array
import Verif.Props.BitPattern
import Verif.Props.IntrusiveList
import Verif.Props.Assertion
import Verif.Props.Priority
import Verif.Props.Mutex
import Verif.Props.EventFlag
import Verif.Props.EventFlagTime
import Verif.Props.MessageQueue
import Verif.Props.MessageQueueErr
import Verif.Props.MessageQueueLife
import Verif.Props.MessageQueueTime
import Verif.Props.MessageQueueEvent
import Verif.Props.MessageQueueEventLive
import Verif.Props.Thread
import Verif.Props.ThreadTime
import Verif.Props.Main
import Verif.Props.Timer
import Verif.Props.TimerReturn
import Verif.Props.TimerTime
import Verif.Props.ThreadPool
import Verif.Props.ThreadPoolGuard
import Verif.Props.ThreadPoolMore
import Verif.Props.ThreadPoolCreate
import Verif.Props.ItronPool
import Verif.Props.Fronts
import Verif.Props.ItronThread
import Verif.Props.ItronThreadTable
import Verif.Props.StdThreadTable
import Verif.Props.StdCreate
import Verif.Props.WinTimer
import Verif.Props.ItronFactory
import Verif.Props.Ctor
import Verif.Props.MutexExit
import Verif.Props.MutexHandler
import Verif.Model.StdPool
import Verif.Props.StdPool
import Verif.Sem.Race
import Verif.Model.Access
import Verif.Model.ItronAccess
import Verif.Props.ItronRace
import Verif.Props.Race
import Verif.Props.RaceWait
import Verif.Model.TimerFactory
import Verif.Props.TimerFactory
import Verif.Props.PoolRace
import Verif.Props.Init
import Verif.Spec.Paths
import Verif.Model.Refs
import Verif.Props.Refs
import Verif.Model.DequeIter
import Verif.Props.DequeIter
import Verif.Spec.Cost
import Verif.Proof.Cost
import Verif.Props.Cost
import Verif.Model.TestDouble
import Verif.Spec.TestDouble
import Verif.Proof.TestDouble
import Verif.Props.TestDouble
import Verif.Props.ThreadPoolQueue
import Verif.Props.ThreadPoolQueueLive
import Verif.Props.ThreadPoolFlag
import Verif.Props.ThreadPoolFlagLive
import Verif.Props.ThreadPoolThread
import Verif.Props.ThreadPoolItron
import Verif.Props.ThreadPoolTime
import Verif.Props.ThreadPriority
import Verif.Props.ThreadPoolErr
import Verif.Props.NoExceptions
