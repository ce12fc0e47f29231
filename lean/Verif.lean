import Verif.Random.Output
import Verif.Algo.Props
import Verif.Algo.ScanProps
import Verif.Deque.Props
import Verif.Core.Eventually
import Verif.Core.FutureProps
import Verif.Core.Tls
import Verif.Except.Props
import Verif.Numa.Props
import Verif.List.Props
import Verif.Types.SafeRef
import Verif.Stack.Overflow
import Verif.Runtime.Props
import Verif.Runtime.Example
import Verif.Runtime.TermExample
import Verif.Runtime.Counter
import Verif.EventCount.Wrap
import Verif.LazyPool.Example
import Verif.Pool.Props
import Verif.Weak.Bug
import Verif.Weak.LazyPool
import Verif.Weak.Publish
import Verif.Weak.JoinProps
import Verif.Weak.EvExample
import Verif.Weak.ListProps
import Verif.Algo.ThrowBug
import Verif.Weak.ExcProps
import Verif.Weak.StartProps
import Verif.Pool.ObjProps
import Verif.Stack.CoNewProps
import Verif.Weak.FutProps
import Verif.Weak.SleepExample
import Verif.Algo.ThrowMap
import Verif.Compose.Example
import Verif.Exn.Example
import Verif.Whole.Example
import Verif.Exn.TermExample
import Verif.WholeX.Example
import Verif.Mem.Example
import Verif.Par.Props
import Verif.Par.Example
import Verif.WholeM.Props
import Verif.WholeM.Par
import Verif.WholeM.Example
import Verif.Sync.Props
import Verif.Sync.Example
import Verif.Scan.Props
import Verif.Scan.Example
import Verif.Busy.Props
import Verif.Busy.Live
import Verif.Busy.Par
import Verif.Busy.Example
import Verif.Early.Props
import Verif.Early.Calls
import Verif.Early.Par
import Verif.Early.Algo
import Verif.Early.Example
import Verif.Space.Props
import Verif.Space.Pool
import Verif.Space.Par
import Verif.Space.Example
import Verif.Stack.Space
import Verif.Stack.Amort
import Verif.Cactus.Model
import Verif.Cactus.Spec
import Verif.Cactus.View
import Verif.Cactus.Sim
import Verif.Cactus.Step
import Verif.Cactus.Inv
import Verif.Cactus.Props
import Verif.Cactus.Arena
import Verif.Cactus.Example
import Verif.Hb.Model
import Verif.Hb.Spec
import Verif.Hb.Inv
import Verif.Hb.Moves
import Verif.Hb.Step
import Verif.Hb.Run
import Verif.Hb.Tree
import Verif.Hb.Tree2
import Verif.Hb.Tree3
import Verif.Hb.Props
import Verif.Hb.Closed
import Verif.Hb.Example
import Verif.Hb.Cut
import Verif.Hb.OrdClosed
import Verif.Hb.Follow
import Verif.Hb.Race
import Verif.Hb.DataRace
import Verif.Hb.ReadSpec
import Verif.Hb.Reads
import Verif.Hb.RaceExample
import Verif.Hb.Whole
import Verif.Hb.Algo
import Verif.Hb.Outside
import Verif.Hb.AlgoExample
import Verif.Own.Model
import Verif.Own.Spec
import Verif.Own.Inv
import Verif.Own.Step
import Verif.Own.Run
import Verif.Own.Props
import Verif.Own.Bound
import Verif.Own.Example
import Verif.Fld.Model
import Verif.Fld.Spec
import Verif.Fld.Inv
import Verif.Fld.Step
import Verif.Fld.Step2
import Verif.Fld.Props
import Verif.Fld.Live
import Verif.Fld.Bound
import Verif.Fld.Example
import Verif.EventCount.Await
